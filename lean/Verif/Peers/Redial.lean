import Verif.Peers.Dial
/-
An address that is free to be dialled stays so until it is handed out.
-/

set_option autoImplicit false

namespace Verif.Peers

open Verif
open Verif.Chains (Addr BytesN Env)
open Verif.KV (Fate)

variable {lib : Lib} {r : Registry}

/-- The call may change whether and when the address is dialled: it registers, unregisters, marks
or starts to dial the address, or restarts the program. -/
def Event.concerns (e : Event) (a : Addr) : Bool :=
  match e.op with
  | .register _ a' _ _ => decide (a' = a)
  | .unregister _ a' => decide (a' = a)
  | .markHostile _ arg => decide (arg = some a)
  | .suggest _ a' => decide (a' = a)
  | .reopen _ => true
  | _ => false

/-- Some `TakeAvailableAddresses` call of the history hands out the address with the port. -/
def Offered (lib : Lib) (r : Registry) (es : List Event) (ap : AddrPort) : Prop :=
  ∃ es1 e es2 l, es = es1 ++ e :: es2 ∧ e.op = .take ∧
    (TakeAvailableAddresses e.now (exec lib r es1)).2 = .ok l ∧ ap ∈ l

/-- only `TakeAvailableAddresses` adds to the pending set -/
theorem step_pending_sub {e : Event} (G : Good r.db) {a : Addr} (hop : e.op ≠ .take)
    (hm : a ∈ (step lib r e).pending) : a ∈ r.pending := by
  obtain ⟨now, op⟩ := e
  have mem_del : ∀ a', a ∈ delPending r.pending a' → a ∈ r.pending := by
    intro a' h; simp [delPending] at h; exact h.1
  cases op with
  | take => exact absurd rfl hop
  | reopen c => simp [step, NewRegistry] at hm
  | append fs l =>
    obtain ⟨_, db', h⟩ := append_good (fs := fs) (l := l) G
    simp only [step, h] at hm; exact hm
  | register f a' np h =>
    simp only [step] at hm
    cases register_outcome (lib := lib) (f := f) (now := now) (a := a') (np := np) (h := h) G with
    | accepted _ eq => rw [eq] at hm; exact mem_del a' hm
    | hostile _ _ eq => rw [eq] at hm; exact mem_del a' hm
    | refused _ _ _ eq => rw [eq] at hm; exact mem_del a' hm
  | unregister f a' =>
    simp only [step, UnregisterPeer] at hm
    cases hp : peer r.db a' with
    | error e => rw [hp] at hm; exact hm
    | ok p => rw [hp] at hm; exact mem_del a' hm
  | updateScore f a' s =>
    simp only [step, UpdatePeerScore] at hm
    cases hp : peer r.db a' <;> rw [hp] at hm <;> exact hm
  | markHostile f arg =>
    cases arg with
    | none => exact hm
    | some a' =>
      simp only [step, MarkAsHostile] at hm
      split at hm <;> exact mem_del a' hm
  | suggest f a' =>
    simp only [step, SuggestVersion] at hm
    split at hm
    · split at hm <;> exact hm
    · exact hm
    · split at hm
      · split at hm <;> exact hm
      · exact hm
      · exact hm

/-- The address is free to be dialled from time `T` on. -/
def Free (r : Registry) (b : BytesN 4) (port : UInt16) (T : Int) : Prop :=
  (∃ v, view r.db b = some v ∧ v.state ≠ .hostile ∧ v.port = port ∧ v.nextAttempt * second ≤ T) ∧ port ≠ 0 ∧
  Addr.v4 b ≠ r.declared ∧ (¬ ∃ c, (Addr.v4 b, c) ∈ r.connections) ∧ Addr.v4 b ∉ r.pending

theorem Free.take {b : BytesN 4} {port : UInt16} {T now : Int} (I : Inv r) (h : Free r b port T) (ht : T ≤ now) :
    ∃ l, (TakeAvailableAddresses now r).2 = .ok l ∧ (⟨.v4 b, port⟩ : AddrPort) ∈ l := by
  obtain ⟨⟨v, hv, h1, h2, h3⟩, h4, h5, h6, h7⟩ := h
  obtain ⟨l, pend', g1, g2, _, _⟩ := I.take now
  refine ⟨l, by rw [g1], (g2 _).mpr ⟨b, v, hv, ⟨h1, ?_, h5, ?_, h6⟩, h7, by rw [h2]⟩⟩
  · show v.port ≠ 0
    rw [h2]; exact h4
  · show v.nextAttempt * second ≤ now
    omega

theorem Free.step {b : BytesN 4} {port : UInt16} {T : Int} {e : Event} (I : Inv r) (h : Free r b port T)
    (hc : e.concerns (.v4 b) = false) :
    (e.op = .take ∧ ∃ l, (TakeAvailableAddresses e.now r).2 = .ok l ∧ (⟨.v4 b, port⟩ : AddrPort) ∈ l) ∨
    Free (Peers.step lib r e) b port T := by
  obtain ⟨⟨v, hv, h1, h2, h3⟩, h4, h5, h6, h7⟩ := h
  have hnr : ∀ c, e.op ≠ .reopen c := by intro c ho; simp [Event.concerns, ho] at hc
  have hview : ∃ v, view (Peers.step lib r e).db b = some v ∧ v.state ≠ .hostile ∧ v.port = port ∧
      v.nextAttempt * second ≤ T := by
    rcases step_view (lib := lib) (e := e) I.good b with h' | ⟨v', h', w⟩
    · exact ⟨v, h' ▸ hv, h1, h2, h3⟩
    · cases w with
      | connected f np h op => simp [Event.concerns, op] at hc
      | shut f np h op => simp [Event.concerns, op] at hc
      | left f op v0 old eq => simp [Event.concerns, op] at hc
      | marked f op name eq => simp [Event.concerns, op] at hc
      | scored f s op v0 old eq =>
        rw [hv] at old; cases old
        subst eq
        exact ⟨_, h', h1, h2, h3⟩
      | first f op old ver best eq => simp [Event.concerns, op] at hc
      | again f op v0 old st ver next eq => simp [Event.concerns, op] at hc
      | added fs l op old => rw [hv] at old; cases old
  have hconn : ¬ ∃ c, (Addr.v4 b, c) ∈ (Peers.step lib r e).connections := by
    rintro ⟨c, hm⟩
    rw [step_connections I.good] at hm
    split at hm
    · rename_i f a np h hop
      have hne : a ≠ .v4 b := by simpa [Event.concerns, hop] using hc
      cases register_outcome (lib := lib) (f := f) (now := e.now) (a := a) (np := np) (h := h) I.good with
      | accepted _ eq =>
        rw [eq] at hm
        rcases mem_setConn.mp hm with e' | ⟨hm, _⟩
        · exact hne (Prod.mk.inj e').1.symm
        · exact h6 ⟨c, hm⟩
      | hostile _ _ eq => rw [eq] at hm; exact h6 ⟨c, hm⟩
      | refused _ _ _ eq => rw [eq] at hm; exact h6 ⟨c, hm⟩
    · split at hm
      · exact h6 ⟨c, (mem_delConn.mp hm).1⟩
      · exact h6 ⟨c, hm⟩
    · simp at hm
    · exact h6 ⟨c, hm⟩
  have hdecl := (step_config (lib := lib) I.good hnr).1
  by_cases htake : e.op = .take
  · obtain ⟨l, pend', g1, g2, _, g4⟩ := I.take e.now
    by_cases hin : (⟨.v4 b, port⟩ : AddrPort) ∈ l
    · exact Or.inl ⟨htake, l, by rw [g1], hin⟩
    · right
      refine ⟨hview, h4, by rw [hdecl]; exact h5, hconn, ?_⟩
      simp only [Peers.step, htake, g1]
      intro hm
      rcases (g4 _).mp hm with hm | ⟨ap, hap, e'⟩
      · exact h7 hm
      · obtain ⟨b', v', hv', _, _, rfl⟩ := (g2 ap).mp hap
        cases e'
        rw [hv] at hv'; cases hv'
        rw [h2] at hap
        exact hin hap
  · exact Or.inr ⟨hview, h4, by rw [hdecl]; exact h5, hconn, fun hm => h7 (step_pending_sub I.good htake hm)⟩

/-- A free address is handed out by the first `TakeAvailableAddresses` call that is late enough, or
before. -/
theorem Free.offered {b : BytesN 4} {port : UInt16} {T t' : Int} (I : Inv r) (h : Free r b port T) {es : List Event}
    (hes : ∀ e, e ∈ es → e.concerns (.v4 b) = false) (ht : T ≤ t') :
    Offered lib r (es ++ [⟨t', .take⟩]) ⟨.v4 b, port⟩ := by
  induction es generalizing r with
  | nil =>
    obtain ⟨l, h1, h2⟩ := h.take I ht
    exact ⟨[], _, [], l, rfl, rfl, h1, h2⟩
  | cons e es ih =>
    rcases h.step (lib := lib) I (hes e (by simp)) with ⟨ho, l, h1, h2⟩ | h'
    · exact ⟨[], e, es ++ [⟨t', .take⟩], l, rfl, ho, h1, h2⟩
    · obtain ⟨es1, e', es2, l, he, ho, h1, h2⟩ := ih I.step h' (fun e' h => hes e' (List.mem_cons_of_mem _ h))
      exact ⟨e :: es1, e', es2, l, by rw [List.cons_append, he]; rfl, ho, h1, h2⟩

/-- every pending address is on record -/
def PendingKnown (r : Registry) : Prop := ∀ a, a ∈ r.pending → ∃ b, a = .v4 b ∧ view r.db b ≠ none

theorem PendingKnown.step {e : Event} (I : Inv r) (h : PendingKnown r) : PendingKnown (Peers.step lib r e) := by
  intro a hm
  have keep : a ∈ r.pending → ∃ b, a = .v4 b ∧ view (Peers.step lib r e).db b ≠ none := by
    intro hm
    obtain ⟨b, e1, hb⟩ := h a hm
    exact ⟨b, e1, step_known I.good hb⟩
  by_cases htake : e.op = .take
  · obtain ⟨l, pend', g1, g2, _, g4⟩ := I.take e.now
    simp only [Peers.step, htake, g1] at hm
    rcases (g4 _).mp hm with hm | ⟨ap, hap, e'⟩
    · exact keep hm
    · obtain ⟨b', v', hv', _, _, rfl⟩ := (g2 ap).mp hap
      exact ⟨b', e'.symm, step_known I.good (by rw [hv']; simp)⟩
  · exact keep (step_pending_sub I.good htake hm)

theorem Reachable.pendingKnown (R : Reachable lib r) : PendingKnown r := by
  obtain ⟨c, es, rfl⟩ := R
  have key : ∀ r, Inv r → PendingKnown r → PendingKnown (Peers.exec lib r es) := by
    induction es with
    | nil => exact fun _ _ h => h
    | cons e es ih => exact fun r I h => ih _ I.step (h.step I)
  exact key _ (Inv.start c) (by intro a h; simp [NewRegistry] at h)

end Verif.Peers
