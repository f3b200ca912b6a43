import Verif.Services.EndlessLemmas
import Verif.Services.SettledEx
/-
A concrete execution without end for property C110.
-/

set_option autoImplicit false

namespace Verif.Services.Fine

open Verif
open Verif.Chains (Addr ProtoBlock)
open Verif.Loading (Sent)
open Verif.Peers (Lib Conn)

variable {lib : Lib} {peer : Addr} {s : Nat} {ch : List ProtoBlock} {run : Nat → Sys} {ev : Nat → Ev}

/-- an execution that begins with honest events -/
theorem Along.along {x0 x : Sys} {es : List Ev} (h : Along lib peer s ch x0 es x) (E : Endless lib run ev) (h0 : run 0 = x0) (he : upto ev es.length = es) :
    run es.length = x ∧ ∀ n, n < es.length → Patient peer s ch (run n) (ev n) := by
  induction h with
  | start => exact ⟨h0, fun n hn => (by cases hn)⟩
  | @step es x x' e h ha hc hs ih =>
    rw [List.length_append, List.length_singleton, upto_succ] at he
    have e1 := List.append_inj_left' he rfl
    have e2 : ev es.length = e := by have := List.append_inj_right' he rfl; simpa using this
    obtain ⟨h1, h2⟩ := ih e1
    have h3 := E es.length
    rw [h1, e2, hs] at h3
    refine ⟨?_, fun n hn => ?_⟩
    · rw [List.length_append, List.length_singleton]; exact (Except.ok.inj (Option.some.inj h3)).symm
    · rw [List.length_append, List.length_singleton] at hn
      by_cases hne : n = es.length
      · rw [hne, h1, e2]; exact hc
      · exact h2 n (by omega)

/-- if all has been answered at the end, then everything is answered -/
theorem Responsive.of {m : Sent} {L : Nat} (E : Endless lib run ev) (hL : (run L).world.own.active = false)
    (hA : AllAnswered peer m.to (.said m :: talk lib (run 0) (upto ev L))) : Responsive lib peer m run ev where
  first := ⟨L, by rw [since_zero]; exact hA [] m _ rfl rfl⟩
  later := by
    intro n m' hd hm hto
    have hn : n < L := by
      refine Nat.lt_of_not_le (fun h => ?_)
      have := hd L h
      rw [hL] at this; cases this
    obtain ⟨A, B, hAB⟩ := List.append_of_mem hm
    have hB : ∀ w, w ∈ B → ∃ m, w = .said m := by
      intro w hw
      have hw' : w ∈ (run n).words (ev n) (run (n + 1)) := by rw [hAB]; simp [hw]
      unfold Sys.words at hw' hm
      split at hw'
      · rename_i he
        rw [he] at hm
        cases List.mem_singleton.mp hm
      · obtain ⟨m, _, e⟩ := List.mem_map.mp hw'
        exact ⟨m, e.symm⟩
    have h1 := talk_upto E n 1
    have h2 := talk_upto E (n + 1) (L - (n + 1))
    rw [show n + 1 + (L - (n + 1)) = L by omega, h1, talk_one E, hAB] at h2
    have h3 := hA (.said m :: talk lib (run 0) (upto ev n) ++ A) m' (B ++ talk lib (run (n + 1)) (since ev (n + 1) (L - (n + 1)))) (by rw [h2]; simp) hto
    refine ⟨L - (n + 1), ⟨fun req hr => ?_, fun id hi => ?_⟩⟩
    · obtain ⟨q, msg, l, h, h'⟩ := h3.ids req hr
      rcases List.mem_append.mp h with h | h
      · obtain ⟨_, e⟩ := hB _ h
        cases e
      · exact ⟨q, msg, l, h, h'⟩
    · obtain ⟨q, msg, l, h, h'⟩ := h3.block id hi
      rcases List.mem_append.mp h with h | h
      · obtain ⟨_, e⟩ := hB _ h
        cases e
      · exact ⟨q, msg, l, h, h'⟩

namespace Ex

open Verif.Loading.Ex (ctx)

/-- the events of the synchronisation, and then the distributor pings the peers again and again -/
def evs (n : Nat) : Ev := loading[n]?.getD (.ping (ctx 200))

def runs : Nat → Sys
  | 0 => at' opening
  | n + 1 =>
    match (runs n).step Peers.Ex.lib (evs n) with
    | some (.ok y) => y
    | _ => runs n

theorem loading_length : loading.length = 22 := by rfl

theorem runs_at : ∀ n, n ≤ 22 → runs n = at' (opening ++ loading.take n)
  | 0, _ => by rw [List.take_zero, List.append_nil]; rfl
  | n + 1, hn => by
    have h : ∀ n, n < 22 → (after (opening ++ loading.take (n + 1))).isSome = true ∧ evs n = loading[n]?.getD .signal ∧
        loading[n]?.isSome = true := by
      have h1 : ∀ n, n < 22 → (after (opening ++ loading.take (n + 1))).isSome = true := by decide +kernel
      have h2 : ∀ n, n < 22 → loading[n]?.isSome = true := by decide +kernel
      intro n hn
      obtain ⟨e, he⟩ := Option.isSome_iff_exists.mp (h2 n hn)
      exact ⟨h1 n hn, by simp [evs, he], h2 n hn⟩
    obtain ⟨h1, h2, h3⟩ := h n (by omega)
    obtain ⟨e, he⟩ := Option.isSome_iff_exists.mp h3
    have hev : evs n = e := by simp [evs, he]
    have htk : loading.take (n + 1) = loading.take n ++ [e] := by rw [List.take_add_one, he]; rfl
    rw [htk, ← List.append_assoc] at h1 ⊢
    have := at_snoc (opening ++ loading.take n) e h1
    simp only [runs, runs_at n (by omega), hev, this]

theorem runs_late : ∀ k, (runs (22 + k)).dist = .ready ∧ (runs (22 + k)).main ≠ .exited ∧ (runs (22 + k)).world.own.active = false
  | 0 => by rw [runs_at 22 (by decide)]; exact ⟨by decide +kernel, by decide +kernel, by decide +kernel⟩
  | k + 1 => by
    obtain ⟨h1, h2, h3⟩ := runs_late k
    have he : evs (22 + k) = .ping (ctx 200) := by
      unfold evs
      rw [List.getElem?_eq_none (by rw [loading_length]; omega)]
      rfl
    rw [← Nat.add_assoc]
    simp only [runs, he, Sys.step, h1, h2, guarded, Sys.handled, pingConnections]
    exact ⟨rfl, h2, h3⟩

theorem endless : Endless Peers.Ex.lib runs evs := by
  intro n
  by_cases hn : n < 22
  · have h1 : ∀ n, n < 22 → (after (opening ++ loading.take (n + 1))).isSome = true := by decide +kernel
    have h2 : ∀ n, n < 22 → loading[n]?.isSome = true := by decide +kernel
    obtain ⟨e, he⟩ := Option.isSome_iff_exists.mp (h2 n hn)
    have hev : evs n = e := by simp [evs, he]
    have htk : loading.take (n + 1) = loading.take n ++ [e] := by rw [List.take_add_one, he]; rfl
    have h1 := h1 n hn
    rw [runs_at (n + 1) (by omega), runs_at n (by omega), hev]
    rw [htk, ← List.append_assoc] at h1 ⊢
    exact at_snoc (opening ++ loading.take n) e h1
  · obtain ⟨h1, h2, _⟩ := runs_late (n - 22)
    rw [show 22 + (n - 22) = n by omega] at h1 h2
    have he : evs n = .ping (ctx 200) := by
      unfold evs
      rw [List.getElem?_eq_none (by rw [loading_length]; omega)]
      rfl
    simp only [runs, he, Sys.step, h1, h2, guarded, Sys.handled, pingConnections]
    rfl

theorem upto_loading : upto evs 22 = loading := by rfl

theorem ended : (runs 22).world.own.active = false := by rw [runs_at 22 (by decide)]; decide +kernel

theorem during {n : Nat} (h : During runs n) : n < 22 :=
  Nat.lt_of_not_le (fun hn => Bool.false_ne_true (ended.symm.trans (h 22 hn)))

theorem notYet {n : Nat} (h : NotYet runs n) : n ≤ 22 :=
  Nat.le_of_not_lt (fun hn => Bool.false_ne_true (ended.symm.trans (h 22 hn)))

theorem diligent : Diligent runs evs where
  goes := fun n h _ => ⟨21, by have := during h; omega, .good, rfl⟩
  takes := by
    intro n p h hp
    have hn := during h
    by_cases hk : n ≤ 14
    · exact ⟨14, hk, ctx 110, rfl⟩
    · have hd : ∀ n, n < 22 → 14 < n → (at' (opening ++ loading.take n)).dist = .ready := by decide +kernel
      rw [runs_at n (by omega), hd n hn (by omega)] at hp
      cases hp

theorem evs_mem (n : Nat) : evs n ∈ loading ∨ evs n = .ping (ctx 200) := by
  unfold evs
  cases h : loading[n]? with
  | none => exact Or.inr rfl
  | some e => exact Or.inl (List.mem_of_getElem? h)

end Ex

end Verif.Services.Fine
