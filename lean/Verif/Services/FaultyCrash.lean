import Verif.Services.FaultyEvents
import Verif.Props.ReadsLoader
/-
When an event of the program of `Services/Faulty.lean` panics.
-/

set_option autoImplicit false

namespace Verif.Services.Fine

open Verif
open Verif.Chains (Addr BytesN BlockID ProtoBlock MicroInv Linkage)
open Verif.Peers (Conn Registry Lib AddrPort Config)
open Verif.Loading (Ctx Serving)
open Verif.Loading.Fine (World Shared Disk Other Input Answer Call RdStep RdRun Own Proc)
open Verif.KV (Fate)

variable {lib : Lib} {g : ProtoBlock} {N : Nat}

theorem bestLoop_panic (F : Chains.Rd.Faults) {db : Chains.DB} : ∀ (m : List (BlockID × List Addr)) (s : Chains.Best),
    Chains.Rd.bestLoop F db s m = goPanic → ∃ id, Chains.BlockOf db id = goPanic
  | [], s, h => by cases h
  | (k, v) :: m, s, h => by
    unfold Chains.Rd.bestLoop at h
    rcases Chains.Rd.safe_BlockOf F db k with e | ⟨_, e⟩
    · rw [e] at h
      rcases hb : Chains.BlockOf db k with (x | u) | b
      · rw [hb] at h; cases h
      · exact ⟨k, hb⟩
      · rw [hb] at h; exact bestLoop_panic F m _ h
    · rw [e] at h; cases h

/-- `LCB` panics, whatever can be read, only because of a block with a date that cannot be written down or because of the branches (C14). -/
theorem lcb_panic {lk : Linkage} (R : Chains.Spec.Reachable g lk) (F : Chains.Rd.Faults) (env : Chains.Env) (a : Addr)
    (h : Chains.Rd.LCB F env lk a = goPanic) :
    (∃ id, Chains.BlockOf lk.db id = goPanic) ∨ ∃ b head, Chains.LeashOf lk a = .ok head ∧ Chains.lca lk.db b head = goPanic := by
  obtain ⟨ns, hs, R, _⟩ := Chains.reachable_rep R
  obtain ⟨ls, hls, _⟩ := R.leashes
  unfold Chains.Rd.LCB at h
  rw [Chains.Rd.leashes_filter F R hls] at h
  have hl : ∀ x, Chains.Rd.getLeash F lk.db a = x → (∃ e, x = fail e) ∨ ∃ head, x = .ok head ∧ Chains.getLeash lk.db a = .ok head := by
    rintro x rfl
    rcases Chains.Rd.safe_getLeash F lk.db a with e | ⟨_, e⟩
    · rw [e]
      rcases R.getLeash_cases a with ⟨head, hh⟩ | hh
      · exact Or.inr ⟨head, hh, hh⟩
      · exact Or.inl ⟨_, hh⟩
    · exact Or.inl ⟨_, e⟩
  rcases hl _ rfl with ⟨e, he⟩ | ⟨head, he, hg⟩
  · rw [he] at h
    cases e <;> cases h
  · rw [he] at h
    simp only [go_bind_ok] at h
    rcases hb : Chains.Rd.bestLoop F lk.db Chains.Best.init (env.mapOrder (Chains.groupLeashes (ls.filter fun x => !F.missed (Chains.addrKey x.addr)))) with (x | u) | best
    · rw [hb] at h; cases h
    · exact Or.inl (bestLoop_panic F _ _ hb)
    · rw [hb] at h
      simp only [go_bind_ok] at h
      split at h
      · cases h
      · rcases Chains.Rd.safe_lca F lk.db best.longest head with e | ⟨_, e⟩
        · rw [e] at h
          exact Or.inr ⟨_, head, by unfold Chains.LeashOf; rw [hg], h⟩
        · rw [e] at h; cases h

theorem step_message {s : Sys} (hm : s.main ≠ .exited) (D : Disk) (c : Ctx) (p : Sender) (m : Message) :
    s.step lib (.message D c p m) = guarded (decide (s.dist = .ready)) (s.handled (handleMessage D lib c s.world.sh p m)) := by
  rw [← receive_eq]; simp only [Sys.step, hm, if_false]

theorem step_connected {s : Sys} (hm : s.main ≠ .exited) (D : Disk) (c : Ctx) (p : Sender) :
    s.step lib (.connected D c p) = guarded (decide (s.dist = .ready) && decide (∀ a, a ∈ p.remote → a ∈ s.joined))
      (s.handled (handleConnected D lib c s.world.sh p)) := by simp only [Sys.step, hm, if_false]

theorem step_broken {s : Sys} (hm : s.main ≠ .exited) (D : Disk) (c : Ctx) (p : Sender) :
    s.step lib (.broken D c p) = guarded (decide (s.dist = .ready)) (s.handled (handleInternalError D c s.world.sh p)) := by
  simp only [Sys.step, hm, if_false]

theorem step_respawn {s : Sys} (hm : s.main ≠ .exited) (D : Disk) (now : Int) (failed : Bool) :
    s.step lib (.respawn D now failed) = guarded (s.respawnUp && s.armed) (.ok (s.respawn D now failed)) := by
  simp only [Sys.step, hm, if_false]

theorem step_suggest {s : Sys} (hm : s.main ≠ .exited) (D : Disk) (f : Fate) (now : Int) (a : Addr) :
    s.step lib (.suggest D f now a) =
      match (Peers.Rd.SuggestVersion D.peers f now s.world.sh.reg a).2 with
      | .error .panic => some (.error .panic)
      | .error (.err _) => some (.ok { s with world := s.world.called { s.world.sh with reg := (Peers.Rd.SuggestVersion D.peers f now s.world.sh.reg a).1 } (some (.registry ⟨now, .suggest f a⟩)) })
      | .ok _ => some (.ok { s with
          world := s.world.called { s.world.sh with reg := (Peers.Rd.SuggestVersion D.peers f now s.world.sh.reg a).1 } (some (.registry ⟨now, .suggest f a⟩))
          joined := a :: s.joined }) := by
  simp only [Sys.step, hm, if_false]
  rfl

theorem step_giveUp {s : Sys} (hm : s.main ≠ .exited) (D : Disk) (f : Fate) (now : Int) (a : Addr) :
    s.step lib (.giveUp D f now a) = guarded (decide (a ∈ s.dialled.map (·.addr)))
      (match (Peers.Rd.UnregisterPeer D.peers f now s.world.sh.reg a).2 with
      | .error .panic => .error .panic
      | _ => .ok { s with world := s.world.called { s.world.sh with reg := (Peers.Rd.UnregisterPeer D.peers f now s.world.sh.reg a).1 } (some (.registry ⟨now, .unregister f a⟩)) }) := by
  simp only [Sys.step, hm, if_false]
  rfl

/-- the calls on the store, of one event, insert at most one block -/
theorem call_cost (c : Call) : Chains.Spec.inserts c.op.toList ≤ 1 := by
  cases c <;> simp [Call.op, Chains.Spec.inserts] <;> decide

variable {D : Disk} {cfg : Config} {r : Registry} {fs : Nat → Fate} {seeds : List (Option AddrPort)} {lk : Linkage} {listener : Bool}
  {es : List Ev} {tr : List Answer} {s : Sys}

/-- between the steps of the program the loader has not panicked -/
theorem not_crashed (S : Serving g N lk) (R : Peers.Reachable lib r) (h : Path lib (Sys.start D cfg r.db fs seeds lk listener) es tr s)
    (hN : Chains.Spec.inserts s.world.calls ≤ N) : ¬ s.world.Crashed := by
  induction h with
  | nil => intro hc; cases hc
  | @snoc es tr s1 s2 hp e he ih =>
    intro hc
    rcases step_world he with ⟨h1, _⟩ | h1
    · rw [h1] at hc hN; exact ih hN hc
    · have hN1 := Nat.le_trans h1.inserts hN
      rcases Loading.C103_crash S (start_reachable R D cfg fs seeds) hp.run h1 hN hc with h2 | ⟨env, a, h2⟩ | ⟨f1, f2, b, a, x, h2, _⟩
      · exact ih hN1 h2
      all_goals
        obtain ⟨_, hcase⟩ := step_case he
        cases hcase with
        | call D c k ht hk => exact hk .panic (Option.some.inj hc)
        | finish D o ht => cases hc
        | handled _ hr _ => cases hr <;> cases h2
        | _ => cases h2

end Verif.Services.Fine
