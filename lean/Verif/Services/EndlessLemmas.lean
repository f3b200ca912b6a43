import Verif.Services.Endless
import Verif.Services.SettledLemmas
/-
An honest peer that answers everything is loaded in the end: lemmas for property C110.
-/

set_option autoImplicit false

namespace Verif.Services.Fine

open Verif
open Verif.Chains (Addr BlockID ProtoBlock MicroInv Linkage)
open Verif.Peers (Lib Registry Peer Conn)
open Verif.Loading (Ctx Starts History Serving Sent AsksIDs asking)
open Verif.Loading.Fine (World Shared Disk Input Answer Call Own Proc Underway Entry Owing Afterwards Then NoFail All)

variable {lib : Lib} {g : ProtoBlock} {N : Nat} {peer : Addr} {s s0 : Nat} {ch : List ProtoBlock} {x x' : Sys} {W : List Word} {T : List Entry}
  {run : Nat → Sys} {ev : Nat → Ev}

/-! ### the events of an execution -/

theorem upto_succ (ev : Nat → Ev) (n : Nat) : upto ev (n + 1) = upto ev n ++ [ev n] := by simp [upto, List.range_succ]

theorem since_succ (ev : Nat → Ev) (n k : Nat) : since ev n (k + 1) = since ev n k ++ [ev (n + k)] := by simp [since, List.range_succ]

theorem upto_add (ev : Nat → Ev) (n : Nat) : ∀ k, upto ev (n + k) = upto ev n ++ since ev n k
  | 0 => by simp [since]
  | k + 1 => by rw [← Nat.add_assoc, upto_succ, upto_add ev n k, since_succ, List.append_assoc]

theorem since_add (ev : Nat → Ev) (n k : Nat) : ∀ j, since ev n (k + j) = since ev n k ++ since ev (n + k) j
  | 0 => by simp [since]
  | j + 1 => by rw [← Nat.add_assoc, since_succ, since_add ev n k j, since_succ, List.append_assoc, Nat.add_assoc]

theorem since_zero (ev : Nat → Ev) (k : Nat) : since ev 0 k = upto ev k := by simp [since, upto]

/-- the events determine the execution -/
theorem Path.same {x0 x x' : Sys} {es : List Ev} {tr tr' : List Answer} (h : Path lib x0 es tr x) (h' : Path lib x0 es tr' x') : x = x' := by
  induction h generalizing x' tr' with
  | nil =>
    generalize hes : ([] : List Ev) = es at h'
    cases h' with
    | nil => rfl
    | snoc h e he => simp at hes
  | @snoc es tr y y' h e he ih =>
    generalize hes : es ++ [e] = es' at h'
    cases h' with
    | nil => simp at hes
    | @snoc es2 tr2 z z' h2 e2 he2 =>
      have e1 := List.append_inj_left' hes rfl
      have e3 := List.append_inj_right' hes rfl
      cases e1
      cases e3
      cases ih h2
      exact Except.ok.inj (Option.some.inj (he.symm.trans he2))

theorem Endless.path (E : Endless lib run ev) (n : Nat) : ∀ k, ∃ tr, Path lib (run n) (since ev n k) tr (run (n + k))
  | 0 => ⟨_, .nil⟩
  | k + 1 => by
    obtain ⟨tr, h⟩ := E.path n k
    rw [since_succ]
    exact ⟨_, h.snoc _ (E (n + k))⟩

theorem Endless.talk_add (E : Endless lib run ev) (n k j : Nat) :
    talk lib (run n) (since ev n (k + j)) = talk lib (run n) (since ev n k) ++ talk lib (run (n + k)) (since ev (n + k) j) := by
  obtain ⟨_, h⟩ := E.path n k
  rw [since_add, talk_append h]

theorem Endless.side (E : Endless lib run ev) (hc : ∀ n, During run n → Civil peer s s0 ch (run n) (ev n)) :
    ∀ n, NotYet run n → Side lib peer s s0 ch (run 0) (upto ev n) (run n)
  | 0, _ => .start
  | n + 1, h => by
    rw [upto_succ]
    exact .step _ (E.side hc n (fun i hi => h i (by omega))) (h n (by omega)) (hc n (fun i hi => h i (by omega))) (E n)

/-! ### the loader comes to rest -/

/-- only `go` changes what the loader still has to do -/
theorem todo_stays {e : Ev} (hs : x.step lib e = some (.ok x')) {p : Proc (Go Own)} (ht : x.world.todo = some p) (he : ∀ D, e ≠ .go D) :
    x'.world.todo = some p ∧ x'.world.own = x.world.own := by
  obtain ⟨_, hcase⟩ := step_case hs
  have hw : x.waits ≠ true := by
    intro h
    rw [(waits_iff h).2] at ht
    cases ht
  cases hcase with
  | take c p hd h => exact absurd h hw
  | tick c h => exact absurd h hw
  | timer c h => exact absurd h hw
  | call D => exact absurd rfl (he D)
  | finish D => exact absurd rfl (he D)
  | respawn D now failed hu' har =>
    unfold Sys.respawn
    split
    · exact ⟨ht, rfl⟩
    · dsimp only
      split <;> exact ⟨ht, rfl⟩
  | _ => exact ⟨ht, rfl⟩

/-- the next `go` -/
theorem next_go (E : Endless lib run ev) {p : Proc (Go Own)} : ∀ (d n : Nat), (run n).world.todo = some p → (∃ D, ev (n + d) = .go D) →
    ∃ k, n ≤ k ∧ (run k).world.todo = some p ∧ ∃ D, ev k = .go D
  | 0, n, ht, h => ⟨n, Nat.le_refl _, ht, h⟩
  | d + 1, n, ht, h => by
    by_cases he : ∃ D, ev n = .go D
    · exact ⟨n, Nat.le_refl _, ht, he⟩
    · obtain ⟨k, h1, h2⟩ := next_go E d (n + 1) (todo_stays (E n) ht (fun D h => he ⟨D, h⟩)).1 (by rw [show n + 1 + d = n + (d + 1) by omega]; exact h)
      exact ⟨k, by omega, h2⟩

theorem rests_from (E : Endless lib run ev) (hg : ∀ n, (run n).world.todo ≠ none → ∃ k, n ≤ k ∧ ∃ D, ev k = .go D) : ∀ (p : Proc (Go Own)) (n : Nat),
    (run n).world.todo = some p → ∃ k, n ≤ k ∧ (run k).world.todo = none := by
  intro p
  induction p with
  | ret a =>
    intro n ht
    obtain ⟨k, hk, hg⟩ := hg n (by rw [ht]; simp)
    obtain ⟨j, hj, htj, D, hD⟩ := next_go E (k - n) n ht (by rw [show n + (k - n) = k by omega]; exact hg)
    have hs := E j
    rw [hD] at hs
    obtain ⟨_, hcase⟩ := step_case hs
    refine ⟨j + 1, by omega, ?_⟩
    generalize run (j + 1) = y at hcase
    cases hcase with
    | handled hd' hr => cases hr
    | call _ c f ht' => rw [htj] at ht'; cases ht'
    | finish _ o ht' => rfl
  | call c f ih =>
    intro n ht
    obtain ⟨k, hk, hg⟩ := hg n (by rw [ht]; simp)
    obtain ⟨j, hj, htj, D, hD⟩ := next_go E (k - n) n ht (by rw [show n + (k - n) = k by omega]; exact hg)
    have hs := E j
    rw [hD] at hs
    obtain ⟨_, hcase⟩ := step_case hs
    have : ∃ r, (run (j + 1)).world.todo = some (f r) := by
      generalize run (j + 1) = y at hcase
      cases hcase with
      | handled hd' hr => cases hr
      | call _ c' f' ht' => rw [htj] at ht'; cases ht'; exact ⟨_, rfl⟩
      | finish _ o ht' => rw [htj] at ht'; cases ht'
    obtain ⟨r, hr⟩ := this
    obtain ⟨k', h1, h2⟩ := ih r (j + 1) hr
    exact ⟨k', by omega, h2⟩

theorem rests (E : Endless lib run ev) (hd : Diligent run ev) (ha : ∀ n, During run n) (n : Nat) : ∃ k, n ≤ k ∧ (run k).world.todo = none := by
  cases h : (run n).world.todo with
  | none => exact ⟨n, Nat.le_refl _, h⟩
  | some p => exact rests_from E (fun n h => hd.goes n (ha n) h) p n h

/-! ### the loader asks only so often -/

/-- how far the synchronisation has come: the requests for ids count twice -/
def rank (o : Own) : Nat := 2 * asking o.out + if o.obj.state = .waitingForBlocks then 1 else 0

theorem asking_last {l : List Sent} {m : Sent} {req : List BlockID} (h : l.getLast? = some m) (ha : AsksIDs m.to req m.msg) : 1 ≤ asking l := by
  have hm := List.mem_of_getLast? h
  unfold asking
  have : 0 < l.countP (fun m => Loading.asksIDs m.msg) := by
    rw [List.countP_pos_iff]
    refine ⟨m, hm, ?_⟩
    cases hw : m.msg with
    | getBlock id => rw [hw] at ha; exact ha.elim
    | _ => rfl
  omega

theorem rank_then {o o' : Own} {i : Input} {new : List Sent} (ho : o'.out = o.out ++ new) (h : Then o i new o') :
    rank o ≤ rank o' ∧ (rank o = rank o' → o'.out = o.out) := by
  have hs : rank o ≤ 2 * asking o.out + 1 := by unfold rank; split <;> omega
  cases h with
  | asked m req hm hs' hc ha =>
    have h1 := asking_last hm ha
    have h2 : rank o' = 2 * (asking o.out + asking new) + if o'.obj.state = .waitingForBlocks then 1 else 0 := by
      unfold rank; rw [ho, Loading.asking_append]
    exact ⟨by omega, fun h => by omega⟩
  | requested l req cn now h ht hs' hr hl hq hc hn =>
    have h1 : rank o = 2 * asking o.out := by unfold rank; rw [h]; rfl
    have h2 : rank o' = 2 * (asking o.out + asking new) + 1 := by unfold rank; rw [ho, Loading.asking_append, hs']; rfl
    exact ⟨by omega, fun h => by omega⟩
  | ids ha hp h hs' hn =>
    rw [hn, List.append_nil] at ho
    unfold rank
    rw [ho, h, hs']
    exact ⟨Nat.le_refl _, fun _ => rfl⟩
  | blocks ha hp h hs' hn =>
    rw [hn, List.append_nil] at ho
    unfold rank
    rw [ho, h, hs']
    exact ⟨Nat.le_refl _, fun _ => rfl⟩

/-- only at the end of an event the memory of the loader changes -/
theorem own_stays {e : Ev} (hs : x.step lib e = some (.ok x')) : x'.world.own = x.world.own ∨ x.world.todo = some (.ret (.ok x'.world.own)) := by
  obtain ⟨_, hcase⟩ := step_case hs
  cases hcase with
  | finish D o ht => exact Or.inr ht
  | respawn D now failed hu' har =>
    refine Or.inl ?_
    unfold Sys.respawn
    split
    · rfl
    · dsimp only
      split <;> rfl
  | _ => exact Or.inl rfl

theorem rank_step {p0 : Peer} {e : Ev} (h : Heeds lib peer ch p0 W x T) (hs : x.step lib e = some (.ok x')) (ha : x'.world.own.active = true) :
    rank x.world.own ≤ rank x'.world.own ∧ (rank x.world.own = rank x'.world.own → x'.world.own.out = x.world.own.out) := by
  rcases own_stays hs with e | e
  · rw [e]; exact ⟨Nat.le_refl _, fun _ => rfl⟩
  · obtain ⟨tr, T0, c, i, _, h2, _, h4, _⟩ := h.busy _ e
    obtain ⟨_, _, new, ho, hth⟩ := h4 _ rfl h2
    exact rank_then ho (hth ha).2

theorem words_same {e : Ev} (h : x'.world.own.out = x.world.own.out) (m : Sent) : .said m ∉ x.words e x' := by
  unfold Sys.words
  split
  · intro h; cases List.mem_singleton.mp h
  · rw [h]; simp

/-- a sequence that only grows, up to a bound, stays the same from some moment on -/
theorem settles_down (f : Nat → Nat) (B : Nat) (h1 : ∀ n, f n ≤ f (n + 1)) (h2 : ∀ n, f n ≤ B) : ∃ n, ∀ k, f (n + k) = f n := by
  suffices h : ∀ d n, B - f n = d → ∃ n, ∀ k, f (n + k) = f n from h _ 0 rfl
  intro d
  induction d using Nat.strongRecOn with
  | ind d ih =>
    intro n hd
    by_cases h : ∃ k, f (n + k) ≠ f n
    · obtain ⟨k, hk⟩ := h
      have hm : ∀ k, f n ≤ f (n + k) := by
        intro k
        induction k with
        | zero => exact Nat.le_refl _
        | succ k ih => exact Nat.le_trans ih (h1 _)
      have := hm k
      have := h2 (n + k)
      exact ih _ (by omega) (n + k) rfl
    · exact ⟨n, fun k => Classical.byContradiction (fun hk => h ⟨k, hk⟩)⟩

/-! ### the answers come -/

theorem Answered.mono {m : Sent} {A B : List Word} (h : Answered peer m A) (hs : ∀ w, w ∈ A → w ∈ B) : Answered peer m B where
  ids := fun req hr => by
    obtain ⟨q, msg, l, h1, h2⟩ := h.ids req hr
    exact ⟨q, msg, l, hs _ h1, h2⟩
  block := fun id hi => by
    obtain ⟨q, msg, b, h1, h2⟩ := h.block id hi
    exact ⟨q, msg, b, hs _ h1, h2⟩

/-- what holds from some moment on for each of finitely many holds from some moment on for all -/
theorem all_from {α : Type} (P : α → Nat → Prop) : ∀ (l : List α), (∀ a, a ∈ l → ∃ K, ∀ k, K ≤ k → P a k) → ∃ K, ∀ k, K ≤ k → ∀ a, a ∈ l → P a k
  | [], _ => ⟨0, fun _ _ _ h => (List.not_mem_nil h).elim⟩
  | a :: l, h => by
    obtain ⟨K1, h1⟩ := h a (List.mem_cons_self)
    obtain ⟨K2, h2⟩ := all_from P l (fun b hb => h b (List.mem_cons_of_mem _ hb))
    refine ⟨max K1 K2, fun k hk b hb => ?_⟩
    rcases List.mem_cons.mp hb with rfl | hb
    · exact h1 k (by omega)
    · exact h2 k (by omega) b hb

theorem talk_upto (E : Endless lib run ev) (n k : Nat) :
    talk lib (run 0) (upto ev (n + k)) = talk lib (run 0) (upto ev n) ++ talk lib (run n) (since ev n k) := by
  have := E.talk_add 0 n k
  rw [since_zero, since_zero, Nat.zero_add] at this
  exact this

theorem talk_one (E : Endless lib run ev) (n : Nat) : talk lib (run n) (since ev n 1) = (run n).words (ev n) (run (n + 1)) := by
  have : since ev n 1 = [ev n] := rfl
  rw [this]
  simp only [talk, E n, List.append_nil]

/-- everything said up to the moment `n` is answered from some moment on -/
theorem answers_come {m : Sent} (E : Endless lib run ev) (hr : Responsive lib peer m run ev) (ha : ∀ n, During run n) : ∀ n,
    ∃ K, n ≤ K ∧ ∀ k, K ≤ k → ∀ W1 m' W2, .said m :: talk lib (run 0) (upto ev k) = W1 ++ .said m' :: W2 → m'.to = m.to →
      W1.length < (.said m :: talk lib (run 0) (upto ev n)).length → Answered peer m' W2
  | 0 => by
    obtain ⟨K, hK⟩ := hr.first
    rw [since_zero] at hK
    refine ⟨K, Nat.zero_le _, fun k hk W1 m' W2 e ht hl => ?_⟩
    cases W1 with
    | nil =>
      cases e
      refine hK.mono (fun w hw => ?_)
      have := talk_upto E K (k - K)
      rw [show K + (k - K) = k by omega] at this
      rw [this]
      exact List.mem_append_left _ hw
    | cons a W1 => simp [upto, talk] at hl
  | n + 1 => by
    obtain ⟨K, hnK, hK⟩ := answers_come E hr ha n
    obtain ⟨K', hK'⟩ := all_from (fun w k => ∀ m', w = .said m' → m'.to = m.to → Answered peer m' (talk lib (run (n + 1)) (since ev (n + 1) k)))
      ((run n).words (ev n) (run (n + 1))) (by
        intro w hw
        cases w with
        | told q msg => exact ⟨0, fun _ _ _ h => by cases h⟩
        | said m' =>
          by_cases ht : m'.to = m.to
          · obtain ⟨K, hK⟩ := hr.later n m' (ha n) hw ht
            refine ⟨K, fun k hk m'' e _ => ?_⟩
            cases e
            refine hK.mono (fun w hw => ?_)
            have := E.talk_add (n + 1) K (k - K)
            rw [show K + (k - K) = k by omega] at this
            rw [this]
            exact List.mem_append_left _ hw
          · exact ⟨0, fun _ _ m'' e h => by cases e; exact absurd h ht⟩)
    refine ⟨max K (n + 1 + K'), by omega, fun k hk W1 m' W2 e ht hl => ?_⟩
    by_cases hlt : W1.length < (.said m :: talk lib (run 0) (upto ev n)).length
    · exact hK k (by omega) W1 m' W2 e ht hlt
    · have h1 := talk_upto E n 1
      have h2 := talk_upto E (n + 1) (k - (n + 1))
      rw [show n + 1 + (k - (n + 1)) = k by omega] at h2
      rw [talk_one E] at h1
      rw [h2, h1] at e
      rw [h1] at hl
      have e' : (.said m :: talk lib (run 0) (upto ev n)) ++ ((run n).words (ev n) (run (n + 1)) ++ talk lib (run (n + 1)) (since ev (n + 1) (k - (n + 1)))) =
          W1 ++ .said m' :: W2 := by rw [← e]; simp
      obtain ⟨A, hA, hB⟩ | ⟨A, hA, hB⟩ := List.append_eq_append_iff.mp e'
      · -- `W1` reaches into the words of the event
        obtain ⟨B, hA', hB'⟩ | ⟨B, hA', hB'⟩ := List.append_eq_append_iff.mp hB
        · rw [hA, hA'] at hl
          simp only [List.length_append, List.length_cons] at hl
          omega
        · cases B with
          | nil =>
            rw [List.append_nil] at hA'
            rw [hA, hA'] at hl
            simp only [List.length_append, List.length_cons] at hl
            omega
          | cons w B =>
            simp only [List.cons_append, List.cons.injEq] at hB'
            obtain ⟨rfl, rfl⟩ := hB'
            refine (hK' (k - (n + 1)) (by omega) _ (by rw [hA']; simp) m' rfl ht).mono (fun w hw => List.mem_append_right _ hw)
      · rw [hA] at hlt
        simp only [List.length_append] at hlt
        cases A with
        | nil =>
          simp only [List.nil_append] at hB
          cases hw : (run n).words (ev n) (run (n + 1)) with
          | nil =>
            have := congrArg List.length hA
            rw [hw] at hl
            simp only [List.length_append, List.length_cons, List.length_nil] at hl this
            omega
          | cons w B =>
            rw [hw] at hB
            simp only [List.cons_append, List.cons.injEq] at hB
            obtain ⟨rfl, rfl⟩ := hB
            exact (hK' (k - (n + 1)) (by omega) _ (by rw [hw]; simp) m' rfl ht).mono (fun w hw => List.mem_append_right _ hw)
        | cons a A => simp only [List.length_cons] at hlt; omega

/-! ### the end -/

/-- nothing is said in the part that was added -/
theorem split_before {T new T1 T2 : List Entry} {m : Sent} (h : T ++ new = T1 ++ .said m :: T2) (hn : ∀ m, .said m ∉ new) :
    ∃ T3, T2 = T3 ++ new ∧ T = T1 ++ .said m :: T3 := by
  obtain ⟨A, hA, hB⟩ | ⟨A, hA, hB⟩ := List.append_eq_append_iff.mp h
  · exact absurd (by rw [hB]; simp) (hn m)
  · cases A with
    | nil =>
      simp only [List.nil_append] at hB
      exact absurd (by rw [← hB]; simp) (hn m)
    | cons a A =>
      simp only [List.cons_append, List.cons.injEq] at hB
      obtain ⟨rfl, rfl⟩ := hB
      exact ⟨A, rfl, hA⟩

theorem ends {reg : Registry} {lk : Linkage} {tr : List Answer} {m : Sent} (H : History ch) (S : Serving g N lk) (R : Peers.Reachable lib reg)
    (h0 : Loading.Fine.RdRun lib (World.start reg lk) tr (run 0).world) (ht : (run 0).world.todo = none)
    (hb : Starts peer s s0 ch ((run 0).world.own.on (run 0).world.sh)) (ho : Opens (run 0) m) (E : Endless lib run ev)
    (hc : ∀ n, During run n → Civil peer s s0 ch (run n) (ev n))
    (hu : ∀ n D c q m b, During run n → ev n = .message D c q m → q.remote = some peer → m.theBlock = some b → D = .good ∧ ∀ j, c.fates j = .ok)
    (hd : Diligent run ev) (hr : Responsive lib peer m run ev) (hN : ∀ n, NotYet run n → Chains.Spec.inserts (run n).world.calls < N) :
    ∃ n, NotYet run n ∧ (run n).world.own.active = false := by
  suffices h : ∃ n, (run n).world.own.active = false by
    obtain ⟨n, hn⟩ := h
    induction n using Nat.strongRecOn with
    | ind n ih =>
      by_cases h : NotYet run n
      · exact ⟨n, h, hn⟩
      · obtain ⟨i, hi⟩ := Classical.not_forall.mp h
        obtain ⟨h1, h2⟩ := Classical.not_imp.mp hi
        exact ih i h1 (by simpa using h2)
  refine Classical.byContradiction (fun hne => ?_)
  have hact : ∀ n, (run n).world.own.active = true := by
    intro n
    cases h : (run n).world.own.active with
    | true => rfl
    | false => exact absurd ⟨n, h⟩ hne
  replace hN : ∀ n, Chains.Spec.inserts (run n).world.calls < N := fun n => hN n (fun i _ => hact i)
  have ha : ∀ n, During run n := fun n i _ => hact i
  have hS : ∀ n, Side lib peer s s0 ch (run 0) (upto ev n) (run n) := fun n => E.side hc n (fun i _ => hact i)
  have hK := fun n => side_kept H S R h0 ht hb (hS n) (Nat.le_of_lt (hN n))
  have hum : ∀ n, Undamaged peer (upto ev n) := by
    intro n D c q m b hm
    obtain ⟨i, _, he⟩ := List.mem_map.mp hm
    exact hu i D c q m b (ha i) he
  have hT := fun n => heeds_side H S R h0 ht hb ho (hS n) (hN n) (hum n)
  -- the loader stops asking
  have hrank : ∀ n, rank (run n).world.own ≤ rank (run (n + 1)).world.own ∧
      (rank (run n).world.own = rank (run (n + 1)).world.own → (run (n + 1)).world.own.out = (run n).world.own.out) := by
    intro n
    obtain ⟨T, hT⟩ := hT n
    exact rank_step hT (E n) (hact (n + 1))
  have hmono : ∀ n k, rank (run n).world.own ≤ rank (run (n + k)).world.own := by
    intro n k
    induction k with
    | zero => exact Nat.le_refl _
    | succ k ih => exact Nat.le_trans ih (hrank _).1
  obtain ⟨n0, hn0⟩ := settles_down (fun n => rank (run n).world.own) (2 * (asking (run 0).world.own.out + ch.length) + 1) (fun n => (hrank n).1) (by
    intro n
    obtain ⟨k, hk, hrest⟩ := rests E hd ha n
    obtain ⟨more, hout, P, _⟩ := (hK k).phase
    have h1 := (P hrest).bound
    have h2 : rank (run k).world.own ≤ 2 * (asking (run 0).world.own.out + asking more) + 1 := by
      unfold rank
      rw [hout, Loading.asking_append]
      split <;> omega
    have h3 := hmono n (k - n)
    rw [show n + (k - n) = k by omega] at h3
    show rank (run n).world.own ≤ _
    omega)
  have hquiet : ∀ n, n0 ≤ n → ∀ m', .said m' ∉ (run n).words (ev n) (run (n + 1)) := by
    intro n hn m'
    refine words_same ((hrank n).2 ?_) m'
    have h1 := hn0 (n - n0)
    have h2 := hn0 (n + 1 - n0)
    rw [show n0 + (n - n0) = n by omega] at h1
    rw [show n0 + (n + 1 - n0) = n + 1 by omega] at h2
    exact h1.trans h2.symm
  -- all that was said is answered
  obtain ⟨K, hK0, hans⟩ := answers_come E hr ha n0
  have hall : ∀ k, K ≤ k → AllAnswered peer m.to (.said m :: talk lib (run 0) (upto ev k)) := by
    intro k hk W1 m' W2 e hto
    refine hans k hk W1 m' W2 e hto (Nat.lt_of_not_le (fun hle => ?_))
    have hq : ∀ j, ∀ m', .said m' ∉ talk lib (run n0) (since ev n0 j) := by
      intro j
      induction j with
      | zero => intro m' h; cases h
      | succ j ih =>
        intro m' h
        rw [E.talk_add n0 j 1, talk_one E] at h
        rcases List.mem_append.mp h with h | h
        · exact ih m' h
        · exact hquiet (n0 + j) (by omega) m' h
    have h1 := talk_upto E n0 (k - n0)
    rw [show n0 + (k - n0) = k by omega] at h1
    rw [h1] at e
    have e' : (.said m :: talk lib (run 0) (upto ev n0)) ++ talk lib (run n0) (since ev n0 (k - n0)) = W1 ++ .said m' :: W2 := by rw [← e]; simp
    obtain ⟨A, hA, hB⟩ | ⟨A, hA, hB⟩ := List.append_eq_append_iff.mp e'
    · exact hq _ m' (by rw [hB]; simp)
    · have := congrArg List.length hA
      rw [List.length_append] at this
      cases A with
      | nil =>
        simp only [List.nil_append] at hB
        exact hq _ m' (by rw [← hB]; simp)
      | cons a A => simp only [List.length_cons] at this hle; omega
  -- the distributor has passed on what it held
  obtain ⟨n2, hn2, hd2⟩ : ∃ n2, K ≤ n2 ∧ ∀ pk, (run n2).dist ≠ .sending pk := by
    by_cases h : ∃ pk, (run K).dist = .sending pk
    · obtain ⟨pk, hpk⟩ := h
      obtain ⟨k, hk, c, hc'⟩ := hd.takes K pk (ha K) hpk
      have hs := E k
      rw [hc'] at hs
      obtain ⟨_, hcase⟩ := step_case hs
      refine ⟨k + 1, by omega, fun pk' => ?_⟩
      generalize run (k + 1) = y at hcase
      cases hcase with
      | handled _ hr' => cases hr'
      | take => intro h; cases h
    · exact ⟨K, Nat.le_refl _, fun pk hpk => h ⟨pk, hpk⟩⟩
  -- until the loader rests it says nothing
  obtain ⟨n3, hn3, hrest⟩ := rests E hd ha n2
  obtain ⟨T, hT2⟩ := hT n2
  have hadd : ∀ k, ∃ new, Heeds lib peer ch (run 0).world.own.obj.peer (.said m :: talk lib (run 0) (upto ev (n2 + k))) (run (n2 + k)) (T ++ new) ∧
      ∀ m', .said m' ∉ new := by
    intro k
    induction k with
    | zero => exact ⟨[], by rw [List.append_nil]; exact hT2, fun _ h => (List.not_mem_nil h).elim⟩
    | succ k ih =>
      obtain ⟨new, h1, h2⟩ := ih
      obtain ⟨new', h3, h4⟩ := heeds_step H hb.who (hK (n2 + k)) h1 (hact _) (hc (n2 + k) (ha _)) (E (n2 + k)) (hN (n2 + k + 1))
        (fun D c q m b he => hu (n2 + k) D c q m b (ha _) he)
      refine ⟨new ++ new', ?_, fun m' hm' => ?_⟩
      · rw [← List.append_assoc, ← Nat.add_assoc, talk_upto E (n2 + k) 1, talk_one E]
        exact h3
      · rcases List.mem_append.mp hm' with h | h
        · exact h2 m' h
        · exact hquiet (n2 + k) (by omega) m' (h4 m' h)
  obtain ⟨new, hT3, hnew⟩ := hadd (n3 - n2)
  rw [show n2 + (n3 - n2) = n3 by omega] at hT3
  have hend := waits_unheard (W := .said m :: talk lib (run 0) (upto ev n2)) hb.who ho.conn (hK n3)
    (fun q msg b hm hb' => told_genuine (hS n2) ((List.mem_cons.mp hm).resolve_left (fun h => by cases h)) hb') hrest hT3.who (hT3.rest hrest)
    (fun T1 m' T2 e => by
      obtain ⟨T3, rfl, e3⟩ := split_before e hnew
      obtain ⟨W1, W2, hW, h⟩ := hT2.tracks.settled ⟨fun l => hd2 _, fun b => hd2 _⟩ T1 m' T3 e3
      exact ⟨W1, W2, hW, fun q msg hm pk hp => List.mem_append_left _ (h q msg hm pk hp)⟩)
    (hall n2 hn2)
  rw [hact n3] at hend
  cases hend

end Verif.Services.Fine
