import Verif.Loading.FineStuck
/-
With which peer a synchronisation begins, whatever the calls are answered.
-/

set_option autoImplicit false

namespace Verif.Loading.Fine

open Verif
open Verif.Chains (Addr BlockID ProtoBlock)
open Verif.Peers (Peer Lib)

theorem bind_ret {α : Type} : ∀ p : Proc α, p.bind .ret = p
  | .ret _ => rfl
  | .call c k => by
    show Proc.call c (fun r => (k r).bind .ret) = _
    rw [funext (fun r => bind_ret (k r))]

/-- the same peer, still being synchronised with; no trigger waits -/
def Holds (p : Peer) (o : Own) : Prop := o.active = true ∧ o.obj.peer = p ∧ o.obj.triggers = []

theorem holds_requestFrom {p : Peer} (c : Ctx) {o : Own} (h : Holds p o) (id : BlockID) (tr : List Answer) :
    All (fun _ r => Holds p r.1) tr (requestFrom c o id) := by
  intro r
  rcases (r : Go (List BlockID)) with e | ids
  · exact h
  · show All _ _ (andThen (requestBlockIDs c o ids) _)
    unfold requestBlockIDs
    cases o.obj.peer.conn with
    | none => exact h
    | some cn =>
      simp only
      by_cases hi : ids = []
      · rw [if_pos hi]; exact h
      · rw [if_neg hi]
        split
        · exact h
        · exact h

theorem holds_requestIDs {p : Peer} (c : Ctx) {o : Own} (h : Holds p o) (tr : List Answer) :
    All (fun _ r => Holds p r.1) tr (requestIDs c o) := by
  intro r
  rcases (r : Go BlockID) with e | id
  · exact h
  · exact holds_requestFrom c h id _

theorem holds_requestIDsFromLCA {p : Peer} (c : Ctx) {o : Own} (h : Holds p o) (tr : List Answer) :
    All (fun _ r => Holds p r.1) tr (requestIDsFromLCA c o) := by
  intro r
  rcases (r : Go BlockID) with e | id
  · exact h
  · exact holds_requestFrom c h id _

/-- the first trigger of a synchronisation -/
theorem holds_execute {p : Peer} (c : Ctx) {o : Own} (h : Holds p o) {t : Trigger} (ht : t = .start ∨ t = .restart) (tr : List Answer) :
    All (fun _ r => Holds p r.1) tr (execute c o t) := by
  unfold execute
  rcases ht with rfl | rfl
  · cases o.obj.state
    · exact holds_requestIDs c (o := { o with obj := { o.obj with state := .waitingForIDs } }) h tr
    · exact h
    · exact h
    · exact h
  · cases o.obj.state
    · exact holds_requestIDsFromLCA c (o := { o with obj := { o.obj with state := .waitingForIDs } }) h tr
    · exact h
    · exact h
    · exact h

theorem holds_fire {p : Peer} (c : Ctx) {o : Own} (h : Holds p o) {t : Trigger} (ht : t = .start ∨ t = .restart) (tr : List Answer) :
    All (fun _ r => Holds p r.1) tr (fire c o t) := by
  show All _ tr (drain c 3 (enqueue o t))
  have e : (enqueue o t).obj.triggers = [t] := by
    show o.obj.triggers ++ [t] = [t]
    rw [h.2.2]; rfl
  rw [drain, e]
  refine (holds_execute c (o := { enqueue o t with obj := { (enqueue o t).obj with triggers := [] } }) ⟨h.1, h.2.1, rfl⟩ ht tr).bind ?_
  rintro ⟨o', r⟩ tr' _ h'
  unfold andThen
  cases r with
  | error e => exact h'
  | ok u =>
    simp only
    rw [drain, h'.2.2]
    exact h'

theorem holds_logged {p : Peer} {c : Ctx} {o : Own} {t : Trigger} {tr : List Answer} (H : All (fun _ r => Holds p r.1) tr (fire c o t)) :
    All (fun _ r => ∀ o', r = .ok o' → Holds p o') tr ((fire c o t).bind (fun r => .ret (logged r))) := by
  refine H.bind ?_
  rintro ⟨o', r⟩ tr' _ h' o'' e
  unfold logged at e
  split at e
  · cases e
  · cases e; exact h'

theorem holds_continue {p : Peer} (c : Ctx) {o : Own} (h : Holds p o) (tr : List Answer) :
    All (fun _ r => ∀ o', r = .ok o' → Holds p o') tr (continueSync c o) := by
  unfold continueSync
  rw [if_pos h.1]
  exact holds_logged (holds_fire c (o := { o with ticking := true }) h (Or.inl rfl) tr)

/-- the peers that lag, as far as their scores could be read -/
theorem all_lagLoop : ∀ (ps : List Peer) (tr : List Answer),
    All (fun tr' lag =>
      (∀ p, p ∈ lag → p ∈ ps ∧ ∃ s score, p.score = some s ∧ (⟨.leashScore p.addr, (.ok score : Go Nat)⟩ : Answer) ∈ tr' ∧ score < s) ∧
      (lag = [] → ∀ p, p ∈ ps → ∀ s, p.score = some s → ∃ r : Go Nat, (⟨.leashScore p.addr, r⟩ : Answer) ∈ tr' ∧
        ∀ score, r = .ok score → s ≤ score)) tr (lagLoop ps)
  | [], tr => ⟨fun p h => (List.not_mem_nil h).elim, fun _ p h => (List.not_mem_nil h).elim⟩
  | q :: ps, tr => by
    unfold lagLoop
    cases hq : q.score with
    | none =>
      refine (all_lagLoop ps tr).mono ?_
      rintro tr' lag ⟨h1, h2⟩
      refine ⟨fun p hp => ⟨List.mem_cons_of_mem _ (h1 p hp).1, (h1 p hp).2⟩, fun e p hp s hs => ?_⟩
      rcases List.mem_cons.mp hp with rfl | hp
      · rw [hq] at hs; cases hs
      · exact h2 e p hp s hs
    | some s0 =>
      intro r
      rcases (r : Go Nat) with e | score
      · have H := (all_lagLoop ps (tr ++ [⟨.leashScore q.addr, (.error e : Go Nat)⟩])).bind
          (Q' := fun tr' lag => (∃ l, tr' = tr ++ [⟨.leashScore q.addr, (.error e : Go Nat)⟩] ++ l) ∧ _) (f := .ret)
          (fun a tr' hl h => ⟨hl, h⟩)
        have e' : (lagLoop ps).bind .ret = lagLoop ps := bind_ret _
        rw [e'] at H
        refine H.mono ?_
        rintro tr' lag ⟨⟨l, hl⟩, h1, h2⟩
        refine ⟨fun p hp => ⟨List.mem_cons_of_mem _ (h1 p hp).1, (h1 p hp).2⟩, fun ee p hp s hs => ?_⟩
        rcases List.mem_cons.mp hp with rfl | hp
        · exact ⟨.error e, by rw [hl]; simp, fun _ h => by cases h⟩
        · exact h2 ee p hp s hs
      · refine (all_lagLoop ps _).bind ?_
        rintro lag tr' ⟨l, hl⟩ ⟨h1, h2⟩
        have here : (⟨.leashScore q.addr, (.ok score : Go Nat)⟩ : Answer) ∈ tr' := by rw [hl]; simp
        by_cases hlt : s0 > score
        · rw [if_pos hlt]
          refine ⟨fun p hp => ?_, fun e => by cases e⟩
          rcases List.mem_cons.mp hp with rfl | hp
          · exact ⟨List.mem_cons_self, s0, score, hq, here, hlt⟩
          · exact ⟨List.mem_cons_of_mem _ (h1 p hp).1, (h1 p hp).2⟩
        · rw [if_neg hlt]
          refine ⟨fun p hp => ⟨List.mem_cons_of_mem _ (h1 p hp).1, (h1 p hp).2⟩, fun ee p hp s hs => ?_⟩
          rcases List.mem_cons.mp hp with rfl | hp
          · rw [hq] at hs
            cases hs
            exact ⟨.ok score, here, fun _ h => by cases h; omega⟩
          · exact h2 ee p hp s hs

/-- how a synchronisation begins, and why none does -/
def Chosen (o0 : Own) (tr : List Answer) (r : Go Own) : Prop :=
  ∀ o, r = .ok o →
    (∃ env ps p s score, (⟨.connections env, (.ok ps : Go (List Peer))⟩ : Answer) ∈ tr ∧ p ∈ ps ∧ p.score = some s ∧
      (⟨.leashScore p.addr, (.ok score : Go Nat)⟩ : Answer) ∈ tr ∧ score < s ∧ o.active = true ∧ o.obj.peer = p) ∨
    (o = o0 ∧ ∃ (env : Chains.Env) (l : Go (List Peer)), (⟨.connections env, l⟩ : Answer) ∈ tr ∧
      ∀ ps, l = .ok ps → ∀ p, p ∈ ps → ∀ s, p.score = some s → ∃ x : Go Nat, (⟨.leashScore p.addr, x⟩ : Answer) ∈ tr ∧
        ∀ score, x = .ok score → s ≤ score)

theorem all_chosen (c : Ctx) {o : Own} (ha : o.active = false) : All (Chosen o) [] (sync c o) := by
  unfold sync
  rw [if_neg (by simp [ha])]
  intro r
  rcases (r : Go (List Peer)) with (e | _) | ps
  · intro o' h
    cases h
    exact Or.inr ⟨rfl, c.env, .error (.err e), by simp, fun _ h => by cases h⟩
  · intro o' h
    cases h
  · refine (all_lagLoop ps _).bind ?_
    rintro lag tr' ⟨l, hl⟩ ⟨h1, h2⟩
    have here : (⟨.connections c.env, (.ok ps : Go (List Peer))⟩ : Answer) ∈ tr' := by rw [hl]; simp
    by_cases e : lag = []
    · rw [if_pos e]
      intro o' h
      cases h
      exact Or.inr ⟨rfl, c.env, .ok ps, here, fun ps' h => by cases h; exact h2 e⟩
    · rw [if_neg e]
      cases hi : goIndex lag (c.rand lag.length % lag.length) with
      | error x => intro o' h; cases h
      | ok p =>
        have hp : p ∈ lag := by
          unfold goIndex at hi
          split at hi
          · rename_i x hx
            cases hi
            exact List.mem_of_getElem? hx
          · cases hi
        obtain ⟨hps, s, score, hs, hm, hlt⟩ := h1 p hp
        have fin : ∀ {q : Proc (Go Own)}, All (fun _ r => ∀ o', r = .ok o' → Holds p o') tr' q → All (Chosen o) tr' q := by
          intro q H
          have H' := H.bind (Q' := fun t r => (∃ l, t = tr' ++ l) ∧ ∀ o', r = .ok o' → Holds p o') (f := .ret) (fun a t hl h => ⟨hl, h⟩)
          rw [bind_ret] at H'
          refine H'.mono ?_
          rintro t r ⟨⟨l, hl⟩, h⟩ o' ho
          obtain ⟨x1, x2, _⟩ := h o' ho
          subst hl
          exact Or.inl ⟨c.env, ps, p, s, score, List.mem_append.mpr (Or.inl here), hps, hs, List.mem_append.mpr (Or.inl hm), hlt, x1, x2⟩
        have hh : ∀ fc tk, Holds p { { o with active := true, obj := newPeerLoader p } with ticking := tk, fc := fc } :=
          fun _ _ => ⟨rfl, rfl, rfl⟩
        refine fin ?_
        simp only
        split
        · refine (holds_logged (holds_fire c (hh _ true) (Or.inr rfl) tr')).bind ?_
          rintro (x | o') t _ h
          · intro o' h'; cases h'
          · exact holds_continue c (h o' rfl) t
        · exact holds_continue c (hh o.fc o.ticking) tr'

/-! ### which blocks are requested -/

/-- The list is split as the store says: the blocks passed over are stored, the first one left is not. -/
def Split (ids : List BlockID) (tr : List Answer) (req : List BlockID) : Prop :=
  (∃ pre, ids = pre ++ req ∧ ∀ id, id ∈ pre → (⟨.hasBlock id, (.ok true : Go Bool)⟩ : Answer) ∈ tr) ∧
  ∀ id, req.head? = some id → (⟨.hasBlock id, (.ok false : Go Bool)⟩ : Answer) ∈ tr

/-- What `requestBlocks` leads to.  Either no call failed: the stored blocks at the beginning of the list are passed over, and the first one
that is not stored and all that follow it are requested, in this order.  Or a call failed, and the error comes back and nothing is
requested; or the loader panics, having requested nothing. -/
def Requested (c : Ctx) (o : Own) (ids : List BlockID) (tr : List Answer) (r : Own × Go Unit) : Prop :=
  ((∀ x, x ∈ tr → ¬ x.Failed) ∧ r.2 = .ok () ∧ ∃ req, Split ids tr req ∧
    ((req = [] ∧ r.1.out = o.out) ∨
      ∃ cn, o.obj.peer.conn = some cn ∧ r.1.out = o.out ++ req.map (fun id => ⟨c.now, cn, .getBlock id⟩))) ∨
  (r.1.out = o.out ∧ (r.2 = goPanic ∨ ∃ e, r.2 = fail e ∧ ∃ x, x ∈ tr ∧ x.Failed))

theorem requestBlockEach_out (c : Ctx) {cn : Peers.Conn} : ∀ (ids : List BlockID) (o : Own), o.obj.peer.conn = some cn →
    (requestBlockEach c o ids).2 = .ok () ∧
      (requestBlockEach c o ids).1.out = o.out ++ ids.map (fun id => ⟨c.now, cn, .getBlock id⟩)
  | [], o, _ => ⟨rfl, by simp [requestBlockEach]⟩
  | id :: ids, o, hc => by
    unfold requestBlockEach
    rw [hc]
    obtain ⟨h1, h2⟩ := requestBlockEach_out c ids { o with out := o.out ++ [⟨c.now, cn, .getBlock id⟩] } hc
    exact ⟨h1, by simp only [h2]; simp⟩

/-- what the loop of `requestBlocks` leads to -/
def Looped (ids : List BlockID) (tr tr' : List Answer) (r : Go (List BlockID)) : Prop :=
  (∃ l, tr' = tr ++ l) ∧ (∀ req, r = .ok req → Split ids tr' req ∧ ∀ x, x ∈ tr' → ¬ x.Failed) ∧
  (∀ e, r = fail e → ∃ x, x ∈ tr' ∧ x.Failed)

theorem Looped.cons {id : BlockID} {ids : List BlockID} {tr l tr' : List Answer} {r : Go (List BlockID)}
    (h : Looped ids (tr ++ (⟨.hasBlock id, (.ok true : Go Bool)⟩ : Answer) :: l) tr' r) : Looped (id :: ids) tr tr' r := by
  obtain ⟨⟨l', hl⟩, h1, h2⟩ := h
  have hex : tr' = tr ++ ((⟨.hasBlock id, (.ok true : Go Bool)⟩ : Answer) :: (l ++ l')) := by rw [hl]; simp
  refine ⟨⟨_, hex⟩, fun req e => ?_, h2⟩
  obtain ⟨⟨⟨pre, a1, a2⟩, a3⟩, a4⟩ := h1 req e
  refine ⟨⟨⟨id :: pre, by rw [a1]; rfl, fun x hx => ?_⟩, a3⟩, a4⟩
  rcases List.mem_cons.mp hx with rfl | hx
  · rw [hex]; simp
  · exact a2 x hx

theorem none_failed {tr : List Answer} (hn : ∀ x, x ∈ tr → ¬ x.Failed) {y : Answer} (hy : ¬ y.Failed) :
    ∀ x, x ∈ tr ++ [y] → ¬ x.Failed := fun x hx => by
  rcases List.mem_append.mp hx with hx | hx
  · exact hn x hx
  · rw [List.mem_singleton.mp hx]; exact hy

theorem all_looped (c : Ctx) (peer : Addr) : ∀ (ids : List BlockID) (i : Nat) (tr : List Answer), (∀ x, x ∈ tr → ¬ x.Failed) →
    All (Looped ids tr) tr (requestLoop c peer i ids)
  | [], _, tr, hn => by
    refine ⟨⟨[], by simp⟩, fun req e => ?_, fun e h => by cases h⟩
    cases e
    exact ⟨⟨⟨[], rfl, fun _ h => (List.not_mem_nil h).elim⟩, fun _ h => by cases h⟩, hn⟩
  | id :: ids, i, tr, hn => by
    unfold requestLoop
    intro r
    rcases (r : Go Bool) with e | (_ | _)
    · exact ⟨⟨_, rfl⟩, fun req h => (by cases h), fun e' h => ⟨⟨.hasBlock id, (.error e : Go Bool)⟩, by simp, e', by cases h; rfl⟩⟩
    · refine ⟨⟨_, rfl⟩, fun req h => ?_, fun e h => by cases h⟩
      cases h
      exact ⟨⟨⟨[], rfl, fun _ h => (List.not_mem_nil h).elim⟩, fun x h => by cases h; simp⟩,
        none_failed hn (by rintro ⟨e, h⟩; cases h)⟩
    · have hn1 := none_failed hn (y := ⟨.hasBlock id, (.ok true : Go Bool)⟩) (by rintro ⟨e, h⟩; cases h)
      intro r
      rcases (r : Go BlockID) with e | leash
      · exact ⟨⟨[⟨.hasBlock id, (.ok true : Go Bool)⟩, ⟨.leashOf peer, (.error e : Go BlockID)⟩], by simp⟩, fun req h => (by cases h),
          fun e' h => ⟨⟨.leashOf peer, (.error e : Go BlockID)⟩, by simp, e', by cases h; rfl⟩⟩
      · have hn2 := none_failed hn1 (y := ⟨.leashOf peer, (.ok leash : Go BlockID)⟩) (by rintro ⟨e, h⟩; cases h)
        show All _ _ (if id ≠ leash then _ else _)
        by_cases hne : id ≠ leash
        · rw [if_pos hne]
          intro r
          rcases (r : Go Unit) with e | _
          · exact ⟨⟨[⟨.hasBlock id, (.ok true : Go Bool)⟩, ⟨.leashOf peer, (.ok leash : Go BlockID)⟩,
              ⟨.moveLeash (c.fates i) id peer, (.error e : Go Unit)⟩], by simp⟩, fun req h => (by cases h),
              fun e' h => ⟨⟨.moveLeash (c.fates i) id peer, (.error e : Go Unit)⟩, by simp, e', by cases h; rfl⟩⟩
          · have hn3 := none_failed hn2 (y := ⟨.moveLeash (c.fates i) id peer, (.ok () : Go Unit)⟩) (by rintro ⟨e, h⟩; cases h)
            refine (all_looped c peer ids (i + 1) _ hn3).mono (fun tr' r h => ?_)
            refine Looped.cons (l := [⟨.leashOf peer, (.ok leash : Go BlockID)⟩, ⟨.moveLeash (c.fates i) id peer, (.ok () : Go Unit)⟩]) ?_
            simpa using h
        · rw [if_neg hne]
          refine (all_looped c peer ids (i + 1) _ hn2).mono (fun tr' r h => ?_)
          refine Looped.cons (l := [⟨.leashOf peer, (.ok leash : Go BlockID)⟩]) ?_
          simpa using h

theorem all_requested (c : Ctx) (o : Own) (ids : List BlockID) : All (Requested c o ids) [] (requestBlocks c o ids) := by
  unfold requestBlocks
  refine (all_looped c o.peerID ids 0 [] (fun _ h => (List.not_mem_nil h).elim)).bind ?_
  rintro r tr' _ ⟨_, h, hf⟩
  rcases r with e | (_ | ⟨id, req⟩)
  · rcases e with e | _
    · exact Or.inr ⟨rfl, Or.inr ⟨e, rfl, hf e rfl⟩⟩
    · exact Or.inr ⟨rfl, Or.inl rfl⟩
  · obtain ⟨h1, h2⟩ := h _ rfl
    exact Or.inl ⟨h2, rfl, [], h1, Or.inl ⟨rfl, by simp [enqueue]⟩⟩
  · obtain ⟨h1, h2⟩ := h _ rfl
    show All _ _ (andThen _ _)
    unfold andThen
    cases hc : o.obj.peer.conn with
    | none =>
      have e : requestBlockEach c { o with obj := { o.obj with queue := newQueue (id :: req) } } (id :: req) =
          ({ o with obj := { o.obj with queue := newQueue (id :: req) } }, goPanic) := by
        show (match o.obj.peer.conn with | none => _ | some cn => _) = _
        rw [hc]
      rw [e]
      exact Or.inr ⟨rfl, Or.inl rfl⟩
    | some cn =>
      obtain ⟨a, b⟩ := requestBlockEach_out c (id :: req) { o with obj := { o.obj with queue := newQueue (id :: req) } } hc
      rw [a]
      exact Or.inl ⟨h2, rfl, id :: req, h1, Or.inr ⟨cn, hc, b⟩⟩

end Verif.Loading.Fine
