import Verif.Loading.FineReadsInv
import Verif.Loading.AmongSteps
/-
For whom the loader writes: every call of a handler that writes is made for the peer of the synchronisation, whatever the calls are answered.
Lemmas for property C111.
-/

set_option autoImplicit false

namespace Verif.Loading.Fine

open Verif
open Verif.Chains (Addr BlockID ProtoBlock)
open Verif.Peers (Peer Lib)

variable {lib : Lib} {α β : Type} {a : Addr}

/-- a call that writes moves the position of `a` only -/
def Call.For (a : Addr) (c : Call) : Prop := ∀ o t, c.op = some o → Chains.Spec.target o = some t → t.1 = a

/-- all calls of the program are of the kind `C`, and it ends with `Q`, whatever its calls are answered -/
def Each (C : Call → Prop) (Q : α → Prop) : Proc α → Prop
  | .ret r => Q r
  | .call c k => C c ∧ ∀ r, Each C Q (k r)

theorem Each.bind {C : Call → Prop} {Q : α → Prop} {Q' : β → Prop} {f : α → Proc β} : ∀ {p : Proc α}, Each C Q p → (∀ r, Q r → Each C Q' (f r)) →
    Each C Q' (p.bind f)
  | .ret r, h, hf => hf r h
  | .call _ _, h, hf => ⟨h.1, fun r => Each.bind (h.2 r) hf⟩

theorem Each.mono {C C' : Call → Prop} {Q Q' : α → Prop} (hc : ∀ c, C c → C' c) : ∀ {p : Proc α}, Each C Q p → (∀ r, Q r → Q' r) → Each C' Q' p
  | .ret r, h, hq => hq r h
  | .call _ _, h, hq => ⟨hc _ h.1, fun r => Each.mono hc (h.2 r) hq⟩

/-- the calls of the program that write are made for `a` -/
abbrev For (a : Addr) (Q : α → Prop) : Proc α → Prop := Each (Call.For a) Q

theorem Call.For.none {c : Call} (h : c.op = none) : c.For a := fun o t ho => by rw [h] at ho; cases ho

/-- the peer is the same -/
def Of (a : Addr) (r : Own × Go Unit) : Prop := r.1.peerID = a

theorem for_andThen {r : Own × Go Unit} {f : Own → Proc (Own × Go Unit)} (hr : Of a r) (hf : ∀ o : Own, o.peerID = a → For a (Of a) (f o)) :
    For a (Of a) (andThen r f) := by
  unfold andThen
  split
  · exact hr
  · exact hf _ hr

theorem requestBlockIDs_of (c : Ctx) {o : Own} (ids : List BlockID) (h : o.peerID = a) : Of a (requestBlockIDs c o ids) := by
  unfold requestBlockIDs
  split
  · exact h
  · split
    · exact h
    · split <;> exact h

theorem requestBlockEach_of (c : Ctx) : ∀ (ids : List BlockID) {o : Own}, o.peerID = a → Of a (requestBlockEach c o ids)
  | [], _, h => h
  | id :: ids, o, h => by
    unfold requestBlockEach
    split
    · exact h
    · exact requestBlockEach_of c ids (by exact h)

theorem for_OK {o : Own} (h : o.peerID = a) : For a (Of a) (OK o) := by
  unfold OK
  split
  · refine ⟨.none rfl, fun r => ?_⟩
    rcases (r : Go Peer) with (_ | _) | p
    · exact h
    · exact h
    · refine ⟨.none rfl, fun r => ?_⟩
      rcases (r : Go Nat) with (_ | _) | s
      · exact h
      · exact h
      · show For a (Of a) (match p.score with | none => _ | some ps => _)
        cases p.score with
        | none => exact h
        | some ps =>
          simp only
          split <;> exact h
  · exact h

theorem fail_of {o : Own} (h : o.peerID = a) : (Fail o).peerID = a := by
  unfold Fail
  split <;> exact h

theorem for_requestFrom (c : Ctx) {o : Own} (id : BlockID) (h : o.peerID = a) : For a (Of a) (requestFrom c o id) := by
  refine ⟨.none rfl, fun r => ?_⟩
  rcases (r : Go (List BlockID)) with e | ids
  · exact h
  · exact for_andThen (requestBlockIDs_of c ids h) (fun o ho => ho)

theorem for_requestIDs (c : Ctx) {o : Own} (h : o.peerID = a) : For a (Of a) (requestIDs c o) := by
  refine ⟨.none rfl, fun r => ?_⟩
  rcases (r : Go BlockID) with e | id
  · exact h
  · exact for_requestFrom c id h

theorem for_requestIDsFromLCA (c : Ctx) {o : Own} (h : o.peerID = a) : For a (Of a) (requestIDsFromLCA c o) := by
  refine ⟨.none rfl, fun r => ?_⟩
  rcases (r : Go BlockID) with e | id
  · exact h
  · exact for_requestFrom c id h

theorem for_requestLoop (c : Ctx) : ∀ (ids : List BlockID) (i : Nat), For a (fun _ => True) (requestLoop c a i ids)
  | [], _ => trivial
  | id :: ids, i => by
    refine ⟨.none rfl, fun r => ?_⟩
    rcases (r : Go Bool) with e | (_ | _)
    · exact trivial
    · exact trivial
    · refine ⟨.none rfl, fun r => ?_⟩
      rcases (r : Go BlockID) with e | leash
      · exact trivial
      · show For a _ (if id ≠ leash then _ else _)
        split
        · refine ⟨fun o t ho ht => ?_, fun r => ?_⟩
          · cases ho; cases ht; rfl
          · rcases (r : Go Unit) with e | _
            · exact trivial
            · exact for_requestLoop c ids (i + 1)
        · exact for_requestLoop c ids (i + 1)

theorem for_requestBlocks (c : Ctx) {o : Own} (ids : List BlockID) (h : o.peerID = a) : For a (Of a) (requestBlocks c o ids) := by
  subst h
  refine (for_requestLoop c ids 0).bind (fun r _ => ?_)
  rcases r with e | (_ | ⟨id, req⟩)
  · rfl
  · rfl
  · exact for_andThen (requestBlockEach_of c _ rfl) (fun o ho => ho)

theorem for_put {c : Call} {b : ProtoBlock} {f1 f2 : KV.Fate} (hc : c = .putBlock f1 f2 b a) : c.For a := by
  subst hc
  intro o t ho ht
  cases ho; cases ht; rfl

theorem for_applyAll (c : Ctx) : ∀ (q : List Item) (i : Nat), For a (fun _ => True) (applyAll c a i q)
  | [], _ => trivial
  | it :: q, i => by
    rw [applyAll]
    split
    · exact trivial
    · refine ⟨for_put rfl, fun r => ?_⟩
      rcases (r : Go Unit) with e | _
      · exact trivial
      · exact for_applyAll c q (i + 1)

theorem for_appendBlock (c : Ctx) {o : Own} (b : Option ProtoBlock) (h : o.peerID = a) : For a (Of a) (appendBlock c o b) := by
  unfold appendBlock
  simp only
  split
  · have := for_applyAll (a := a) c (putOpt o.obj.queue b) 0
    rw [← h] at this ⊢
    refine this.bind (fun r _ => ?_)
    rcases r with e | _
    · rfl
    · rfl
  · exact h

theorem for_applyPrefix (c : Ctx) : ∀ (q : List Item) (i : Nat), For a (fun _ => True) (applyPrefix c a i q)
  | [], _ => trivial
  | it :: q, i => by
    rw [applyPrefix]
    split
    · exact trivial
    · split
      · refine ⟨for_put rfl, fun r => ?_⟩
        rcases (r : Go Unit) with e | _
        · exact trivial
        · exact for_applyPrefix c q (i + 1)
      · exact trivial

theorem for_handleFailure (c : Ctx) {o : Own} (h : o.peerID = a) : For a (Of a) (handleFailure c o) := by
  subst h
  refine (for_applyPrefix c o.obj.queue 0).bind (fun r _ => ?_)
  rcases r with e | _
  · rfl
  · exact fail_of rfl

theorem for_execute (c : Ctx) {o : Own} (t : Trigger) (h : o.peerID = a) : For a (Of a) (execute c o t) := by
  unfold execute
  split
  · exact h
  · exact h
  · unfold onEntry
    split
    · exact for_OK h
    · exact for_requestIDs c h
    · exact for_requestIDsFromLCA c h
    · exact for_requestBlocks c _ h
    · exact for_handleFailure c h
    · exact h
  · unfold onInternal
    split
    · exact for_appendBlock c _ h
    · unfold onTick
      split <;> exact h
    · exact h

theorem for_drain (c : Ctx) : ∀ (n : Nat) {o : Own}, o.peerID = a → For a (Of a) (drain c n o)
  | 0, _, h => h
  | n + 1, o, h => by
    rw [drain]
    split
    · exact h
    · exact (for_execute c _ (by exact h)).bind (fun r hr => for_andThen hr (fun o' ho => for_drain c n ho))

/-- the handling of an event of the state machine -/
theorem for_fire (c : Ctx) {o : Own} (t : Trigger) (h : o.peerID = a) : For a (fun _ => True) ((fire c o t).bind (fun r => .ret (logged r))) :=
  (for_drain c 3 (by exact h)).bind (fun _ _ => trivial)

/-! ### a handler that only opens a synchronisation writes nothing -/

/-- the program does not write -/
abbrev Reads (Q : α → Prop) : Proc α → Prop := Each (fun c => c.op = none) Q

theorem Reads.for {Q : α → Prop} {p : Proc α} (h : Reads Q p) (a : Addr) : For a (fun _ => True) p := h.mono (fun _ h => .none h) (fun _ _ => trivial)

/-- ids were asked for, or the asking failed -/
def Waiting (r : Own × Go Unit) : Prop := r.1.active = true ∧ r.1.obj.state = .waitingForIDs ∧ r.1.obj.triggers = []

theorem reads_requestFrom (c : Ctx) {o : Own} (id : BlockID) (h : Waiting (o, .ok ())) : Reads Waiting (requestFrom c o id) := by
  refine ⟨rfl, fun r => ?_⟩
  rcases (r : Go (List BlockID)) with e | ids
  · exact h
  · show Reads Waiting (andThen (requestBlockIDs c o ids) _)
    unfold requestBlockIDs
    split
    · exact h
    · split
      · exact h
      · split <;> exact h

theorem reads_opening (c : Ctx) {o : Own} {t : Trigger} (ha : o.active = true) (hs : o.obj.state = .idle) (hq : o.obj.triggers = [])
    (ht : t = .start ∨ t = .restart) : Reads Waiting (fire c o t) := by
  have he : Reads Waiting (execute c { enqueue o t with obj := { (enqueue o t).obj with triggers := [] } } t) := by
    have hst : ({ enqueue o t with obj := { (enqueue o t).obj with triggers := [] } } : Own).obj.state = .idle := hs
    unfold execute
    rw [hst]
    rcases ht with rfl | rfl
    · refine ⟨rfl, fun r => ?_⟩
      rcases (r : Go BlockID) with e | id
      · exact ⟨ha, rfl, rfl⟩
      · exact reads_requestFrom c id ⟨ha, rfl, rfl⟩
    · refine ⟨rfl, fun r => ?_⟩
      rcases (r : Go BlockID) with e | id
      · exact ⟨ha, rfl, rfl⟩
      · exact reads_requestFrom c id ⟨ha, rfl, rfl⟩
  have henq : (enqueue o t).obj.triggers = [t] := by show o.obj.triggers ++ _ = _; rw [hq]; rfl
  unfold fire
  rw [drain, henq]
  refine he.bind (fun r hr => ?_)
  unfold andThen
  split
  · exact hr
  · rw [drain, hr.2.2]; exact hr

theorem reads_lagLoop : ∀ ps : List Peer, Reads (fun _ => True) (lagLoop ps)
  | [] => trivial
  | p :: ps => by
    rw [lagLoop]
    split
    · exact reads_lagLoop ps
    · refine ⟨rfl, fun r => ?_⟩
      rcases (r : Go Nat) with e | s
      · exact reads_lagLoop ps
      · exact (reads_lagLoop ps).bind (fun _ _ => trivial)

/-- the timer, when no synchronisation runs -/
theorem reads_sync (c : Ctx) {o : Own} (hn : o.active = false) : Reads (fun _ => True) (sync c o) := by
  unfold sync
  rw [if_neg (by rw [hn]; simp)]
  refine ⟨rfl, fun r => ?_⟩
  rcases (r : Go (List Peer)) with (_ | _) | ps
  · exact trivial
  · exact trivial
  · refine (reads_lagLoop ps).bind (fun lag _ => ?_)
    split
    · exact trivial
    · split
      · exact trivial
      · rename_i p _
        simp only
        split
        · refine Each.bind ((reads_opening c (o := { o with active := true, obj := newPeerLoader p, ticking := true, fc := reset o.fc p.addr }) (t := .restart)
            rfl rfl rfl (Or.inr rfl)).bind (Q' := fun (r : Go Own) => ∀ o', r = .ok o' → Waiting (o', .ok ())) (fun r hr => ?_)) (fun r hr => ?_)
          · intro o' ho
            unfold logged at ho
            split at ho
            · cases ho
            · cases ho; exact hr
          · rcases r with e | o'
            · exact trivial
            · obtain ⟨h1, h2, h3⟩ := hr o' rfl
              simp only [continueSync]
              rw [if_pos h1]
              rw [fire_ignored c _ _ (by exact h3) (by rw [show ({ o' with ticking := true } : Own).obj.state = .waitingForIDs from h2]; rfl)]
              exact trivial
        · unfold continueSync
          rw [if_pos rfl]
          exact (reads_opening c rfl rfl rfl (Or.inl rfl)).bind (fun _ _ => trivial)

/-- For whom a handler writes: for the peer of the synchronisation; and for nobody, if there is none. -/
theorem for_handle (c : Ctx) (o : Own) (i : Input) (a : Addr) (h : o.active = true → o.peerID = a) : For a (fun _ => True) (handle c o i) := by
  cases hn : o.active with
  | true =>
    have h := h hn
    cases i with
    | ids peer ids =>
      simp only [handle, handleIDs]
      split
      · exact trivial
      · split
        · exact trivial
        · split
          · exact trivial
          · exact for_fire c _ h
    | block peer b =>
      simp only [handle, handleBlock]
      split
      · exact trivial
      · split
        · exact trivial
        · exact for_fire c _ h
    | tick =>
      simp only [handle, tick]
      rw [if_pos hn]
      exact for_fire c _ h
    | timer =>
      simp only [handle, sync]
      rw [if_pos hn]
      exact trivial
  | false =>
    cases i with
    | ids peer ids => simp only [handle, handleIDs, hn, if_true]; exact trivial
    | block peer b => simp only [handle, handleBlock, hn, if_true]; exact trivial
    | tick => simp only [handle, tick, hn]; exact trivial
    | timer => exact (reads_sync c hn).for a

/-! ### along a run -/

/-- what is left to do writes for the peer of the synchronisation only -/
def World.Minds (w : World) : Prop := ∀ p, w.todo = some p → ∀ a, (w.own.active = true → w.own.peerID = a) → For a (fun _ => True) p

theorem minds_step {w w' : World} {tr : List Answer} (h : RdStep lib w tr w') (hw : w.Minds) : w'.Minds := by
  cases h with
  | receive c i ht => intro p hp a ha; cases hp; exact for_handle c w.own i a ha
  | call D c k ht => intro p hp a ha; cases hp; exact (hw _ ht a ha).2 _
  | finish o ht => intro p hp; cases hp
  | other D x => exact hw

theorem minds_run {reg : Peers.Registry} {lk : Chains.Linkage} {w : World} {tr : List Answer} (h : RdRun lib (World.start reg lk) tr w) : w.Minds := by
  induction h with
  | nil => intro p hp; cases hp
  | snoc h t ih => exact minds_step t ih

end Verif.Loading.Fine
