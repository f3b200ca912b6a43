import Verif.Loading.BillLemmas
/-
The messages of the loader go to connections that the registry listed: lemmas for property C135.
-/

set_option autoImplicit false

namespace Verif.Loading.Fine

open Verif
open Verif.Chains (Addr BlockID)
open Verif.Peers (Peer Conn)

/-- Every message went to a connection with `J`, and so will the next ones of this synchronisation. -/
structure Sure (J : Conn → Prop) (o : Own) : Prop where
  out : ∀ m, m ∈ o.out → J m.to
  conn : ∀ cn, o.obj.peer.conn = some cn → J cn

variable {J : Conn → Prop}

theorem Sure.same {o o' : Own} (h : Sure J o) (h1 : o'.out = o.out) (h2 : o'.obj.peer = o.obj.peer) : Sure J o' :=
  ⟨by rw [h1]; exact h.out, by rw [h2]; exact h.conn⟩

theorem Sure.send {o : Own} (h : Sure J o) {m : Sent} (hm : J m.to) : Sure J { o with out := o.out ++ [m] } := by
  refine ⟨fun x hx => ?_, h.conn⟩
  rcases List.mem_append.mp hx with hx | hx
  · exact h.out x hx
  · rw [List.mem_singleton] at hx; rw [hx]; exact hm

abbrev Surely (J : Conn → Prop) : Proc (Own × Go Unit) → Prop := Every (fun x => Sure J x.1)

theorem surely_andThen {x : Own × Go Unit} {f : Own → Proc (Own × Go Unit)} (h : Sure J x.1) (hf : ∀ o, Sure J o → Surely J (f o)) :
    Surely J (andThen x f) := by
  unfold andThen
  split
  · exact h
  · exact hf _ h

theorem sure_requestBlockIDs (c : Ctx) (ids : List BlockID) {o : Own} (h : Sure J o) : Sure J (requestBlockIDs c o ids).1 := by
  unfold requestBlockIDs
  split
  · exact h
  · rename_i cn hcn
    split
    · exact h
    · split
      · exact h.send (h.conn cn hcn)
      · exact h.send (h.conn cn hcn)

theorem sure_requestBlockEach (c : Ctx) : ∀ (ids : List BlockID) (o : Own), Sure J o → Sure J (requestBlockEach c o ids).1
  | [], _, h => h
  | id :: ids, o, h => by
    unfold requestBlockEach
    split
    · exact h
    · rename_i cn hcn
      exact sure_requestBlockEach c ids _ (h.send (h.conn cn hcn))

theorem surely_requestFrom (c : Ctx) (id : BlockID) {o : Own} (h : Sure J o) : Surely J (requestFrom c o id) := by
  unfold requestFrom
  intro x
  cases x with
  | error e => exact h
  | ok ids => exact surely_andThen (sure_requestBlockIDs c ids h) (fun o' h' => h'.same rfl rfl)

theorem surely_requestBlocks (c : Ctx) (ids : List BlockID) {o : Own} (h : Sure J o) : Surely J (requestBlocks c o ids) := by
  unfold requestBlocks
  refine Every.any.bind (fun x _ => ?_)
  cases x with
  | error e => exact h
  | ok req =>
    cases req with
    | nil => exact h.same rfl rfl
    | cons id req => exact surely_andThen (sure_requestBlockEach c _ _ (h.same rfl rfl)) (fun o' h' => h'.same rfl rfl)

theorem surely_OK {o : Own} (h : Sure J o) : Surely J (OK o) := by
  unfold OK
  split
  · intro x
    match x with
    | .error .panic => exact h.same rfl rfl
    | .error (.err _) => exact h.same rfl rfl
    | .ok p =>
      intro x
      match x with
      | .error .panic => exact h.same rfl rfl
      | .error (.err _) => exact h.same rfl rfl
      | .ok score =>
        dsimp only
        split
        · exact h.same rfl rfl
        · split
          · exact h.same rfl rfl
          · exact h.same rfl rfl
  · exact h

theorem sure_Fail {o : Own} (h : Sure J o) : Sure J (Fail o) := by
  unfold Fail
  split
  · exact h.same rfl rfl
  · exact h

theorem surely_execute (c : Ctx) (t : Trigger) {o : Own} (h : Sure J o) : Surely J (execute c o t) := by
  unfold execute
  split
  · exact h
  · exact h
  · rename_i st hh
    have h : Sure J { o with obj := { o.obj with state := st } } := h.same rfl rfl
    unfold onEntry
    split
    · exact surely_OK h
    · unfold requestIDs
      intro x
      cases x with
      | error e => exact h
      | ok leash => exact surely_requestFrom c leash h
    · unfold requestIDsFromLCA
      intro x
      cases x with
      | error e => exact h
      | ok leash => exact surely_requestFrom c leash h
    · exact surely_requestBlocks c _ h
    · unfold handleFailure
      refine Every.any.bind (fun x _ => ?_)
      cases x with
      | error e => exact h
      | ok _ => exact sure_Fail h
    · exact h
  · unfold onInternal
    split
    · rename_i bk _
      unfold appendBlock
      dsimp only
      have h : Sure J { o with obj := { o.obj with queue := putOpt o.obj.queue bk } } := h.same rfl rfl
      split
      · refine Every.any.bind (fun x _ => ?_)
        cases x with
        | error e => exact h
        | ok _ => exact h.same rfl rfl
      · exact h
    · unfold onTick
      split
      · exact h.same rfl rfl
      · exact h
    · exact h

theorem surely_drain (c : Ctx) : ∀ (k : Nat) (o : Own), Sure J o → Surely J (drain c k o)
  | 0, _, h => h
  | k + 1, o, h => by
    unfold drain
    split
    · exact h
    · refine Every.bind (Q := fun x => Sure J x.1) (fun x hx => surely_andThen hx (fun o' h' => surely_drain c k o' h')) (surely_execute c _ ?_)
      exact h.same rfl rfl

theorem surely_fire (c : Ctx) (t : Trigger) {o : Own} (h : Sure J o) : Surely J (fire c o t) := surely_drain c 3 _ (h.same rfl rfl)

/-! ### the inputs -/

/-- the answer to a question for the connections has only connections with `J` -/
def Lists (J : Conn → Prop) : (c : Call) → c.Res → Prop
  | .connections _, r => ∀ ps, r = .ok ps → ∀ p, p ∈ ps → ∀ cn, p.conn = some cn → J cn
  | _, _ => True

/-- what holds if the answers are such -/
def Listing {α : Type} (J : Conn → Prop) (Q : α → Prop) : Proc α → Prop
  | .ret a => Q a
  | .call c k => ∀ r, Lists J c r → Listing J Q (k r)

theorem Every.listing {α : Type} {Q : α → Prop} : ∀ {p : Proc α}, Every Q p → Listing J Q p
  | .ret _, h => h
  | .call _ k, h => fun r _ => Every.listing (p := k r) (h r)

/-- the result of a handler -/
abbrev Handed (J : Conn → Prop) : Proc (Go Own) → Prop := Every (fun x => ∀ o, x = .ok o → Sure J o)

theorem handed_logged {p : Proc (Own × Go Unit)} (h : Surely J p) : Handed J (p.bind (fun x => .ret (logged x))) := by
  refine Every.bind (Q := fun x => Sure J x.1) (fun x hx => ?_) h
  intro o ho
  unfold logged at ho
  split at ho
  · cases ho
  · cases ho; exact hx

theorem handed_keep {o : Own} (h : Sure J o) : Handed J (.ret (.ok o)) := by
  intro o' e
  cases e
  exact h

theorem handed_continue (c : Ctx) {o : Own} (h : Sure J o) : Handed J (continueSync c o) := by
  unfold continueSync
  split
  · exact handed_logged (surely_fire c _ (h.same rfl rfl))
  · intro o e; cases e

theorem handed_restart (c : Ctx) {o : Own} (h : Sure J o) : Handed J (restartSync c o) := by
  unfold restartSync
  exact handed_logged (surely_fire c _ (h.same rfl rfl))

theorem every_lagLoop : ∀ (ps : List Peer), Every (fun l => ∀ p, p ∈ l → p ∈ ps) (lagLoop ps)
  | [] => fun p h => h
  | q :: ps => by
    unfold lagLoop
    split
    · exact (every_lagLoop ps).mono (fun _ h p hp => List.mem_cons_of_mem _ (h p hp))
    · intro r
      cases r with
      | error e => exact (every_lagLoop ps).mono (fun _ h p hp => List.mem_cons_of_mem _ (h p hp))
      | ok score =>
        refine (every_lagLoop ps).bind (fun rest hr => ?_)
        intro p hp
        split at hp
        · rcases List.mem_cons.mp hp with rfl | hp
          · exact List.mem_cons_self
          · exact List.mem_cons_of_mem _ (hr p hp)
        · exact List.mem_cons_of_mem _ (hr p hp)

theorem listing_sync (c : Ctx) {o : Own} (h : Sure J o) : Listing J (fun x => ∀ o, x = .ok o → Sure J o) (sync c o) := by
  unfold sync
  split
  · exact (handed_keep h).listing
  · intro r hr
    match r, hr with
    | .error .panic, _ => intro o e; cases e
    | .error (.err _), _ => exact (handed_keep h).listing
    | .ok connections, hr =>
      refine Every.listing ((every_lagLoop connections).bind (fun lag hl => ?_))
      split
      · exact handed_keep h
      · split
        · intro o e; cases e
        · rename_i p hp
          have hm : p ∈ lag := by
            unfold goIndex at hp
            split at hp
            · rename_i x hx
              cases hp
              exact List.mem_of_getElem? hx
            · cases hp
          have h' : Sure J { o with active := true, obj := newPeerLoader p } :=
            ⟨h.out, fun cn hcn => hr connections rfl p (hl p hm) cn hcn⟩
          dsimp only
          split
          · refine Every.bind (Q := fun x => ∀ o, x = .ok o → Sure J o) (fun x hx => ?_) (handed_restart c h')
            cases x with
            | error e => intro o e; cases e
            | ok o => exact handed_continue c (hx o rfl)
          · exact handed_continue c h'

theorem listing_handle (c : Ctx) (i : Input) {o : Own} (h : Sure J o) : Listing J (fun x => ∀ o, x = .ok o → Sure J o) (handle c o i) := by
  cases i with
  | ids a l =>
    refine Every.listing ?_
    show Handed J (handleIDs c o a l)
    unfold handleIDs
    split
    · exact handed_keep h
    · split
      · exact handed_keep h
      · split
        · exact handed_keep h
        · exact handed_logged (surely_fire c _ h)
  | block a b =>
    refine Every.listing ?_
    show Handed J (handleBlock c o a b)
    unfold handleBlock
    split
    · exact handed_keep h
    · split
      · exact handed_keep h
      · exact handed_logged (surely_fire c _ h)
  | tick =>
    refine Every.listing ?_
    show Handed J (tick c o)
    unfold tick
    split
    · exact handed_logged (surely_fire c _ h)
    · exact handed_keep h
  | timer => exact listing_sync c h

end Verif.Loading.Fine
