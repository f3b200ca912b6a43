import Verif.Loading.FineStuck
/-
While a synchronisation is under way, the loader does not change to another peer, also when its calls fail: a lemma for property C108.
-/

set_option autoImplicit false

namespace Verif.Loading.Fine

open Verif
open Verif.Chains (Addr BlockID ProtoBlock)
open Verif.Peers (Lib Peer Conn)

/-- the peer is the same afterwards -/
def SamePeer (o : Own) (_ : List Answer) (r : Own × Go Unit) : Prop := r.1.obj.peer = o.obj.peer

theorem samePeer_any {α : Type} {Q : List Answer → α → Prop} (h : ∀ tr a, Q tr a) (tr : List Answer) (p : Proc α) : All Q tr p := all_any Q h tr p

theorem samePeer_bind {α : Type} {o : Own} (p : Proc α) (f : α → Proc (Own × Go Unit)) (tr : List Answer) (h : ∀ a tr, All (SamePeer o) tr (f a)) :
    All (SamePeer o) tr (p.bind f) :=
  (samePeer_any (Q := fun _ _ => True) (fun _ _ => trivial) tr p).bind (fun a tr' _ _ => h a tr')

theorem samePeer_andThen {o : Own} (r : Own × Go Unit) (f : Own → Proc (Own × Go Unit)) (tr : List Answer) (hr : r.1.obj.peer = o.obj.peer)
    (h : ∀ o', o'.obj.peer = o.obj.peer → All (SamePeer o) tr (f o')) : All (SamePeer o) tr (andThen r f) := by
  obtain ⟨o', x⟩ := r
  cases x with
  | error e => exact hr
  | ok u => exact h o' hr

theorem requestBlockIDs_peer (c : Ctx) (o : Own) (ids : List BlockID) : (requestBlockIDs c o ids).1.obj.peer = o.obj.peer := by
  unfold requestBlockIDs
  split
  · rfl
  · split
    · rfl
    · split <;> rfl

theorem samePeer_requestFrom (c : Ctx) {o : Own} (o' : Own) (h : o'.obj.peer = o.obj.peer) (id : BlockID) (tr : List Answer) :
    All (SamePeer o) tr (requestFrom c o' id) := by
  intro r
  rcases (r : Go (List BlockID)) with e | ids
  · exact h
  · exact samePeer_andThen _ _ _ ((requestBlockIDs_peer c o' ids).trans h) (fun _ h => h)

theorem samePeer_execute (c : Ctx) {o : Own} (o' : Own) (h : o'.obj.peer = o.obj.peer) (t : Trigger) (tr : List Answer) :
    All (SamePeer o) tr (execute c o' t) := by
  unfold execute
  split
  · exact h
  · exact h
  · rename_i s _
    unfold onEntry
    split
    · -- OK
      unfold OK
      split
      · intro r
        rcases (r : Go Peer) with (e | _) | p
        · exact h
        · exact h
        · intro r
          rcases (r : Go Nat) with (e | _) | sc
          · exact h
          · exact h
          · show All _ _ (match p.score with | none => _ | some ps => _)
            split
            · exact h
            · dsimp only
              split <;> exact h
      · exact h
    · intro r
      rcases (r : Go BlockID) with e | id
      · exact h
      · exact samePeer_requestFrom c { o' with obj := { o'.obj with state := .waitingForIDs } } h id _
    · intro r
      rcases (r : Go BlockID) with e | id
      · exact h
      · exact samePeer_requestFrom c { o' with obj := { o'.obj with state := .waitingForIDs } } h id _
    · -- requestBlocks
      unfold requestBlocks
      refine samePeer_bind _ _ _ ?_
      rintro (e | (_ | ⟨id, req⟩)) tr
      · exact h
      · exact h
      · refine samePeer_andThen _ _ _ ?_ (fun _ h => h)
        rw [(requestBlockEach_same c _ _).1]
        exact h
    · unfold handleFailure
      refine samePeer_bind _ _ _ ?_
      rintro (e | u) tr
      · exact h
      · show (Fail _).obj.peer = _
        unfold Fail
        split <;> exact h
    · exact h
  · unfold onInternal
    split
    · unfold appendBlock
      dsimp only
      split
      · refine samePeer_bind _ _ _ ?_
        rintro (e | u) tr <;> exact h
      · exact h
    · show (onTick o' _).1.obj.peer = _
      unfold onTick
      split <;> exact h
    · exact h

theorem samePeer_drain (c : Ctx) {o : Own} : ∀ (n : Nat) (o' : Own), o'.obj.peer = o.obj.peer → ∀ tr, All (SamePeer o) tr (drain c n o')
  | 0, o', h, tr => h
  | n + 1, o', h, tr => by
    rw [drain]
    split
    · exact h
    · refine All.bind (samePeer_execute c _ (by exact h) _ tr) ?_
      intro r tr' _ hr
      exact samePeer_andThen r _ _ hr (fun o2 h2 => samePeer_drain c n o2 h2 tr')

/-- an event of a synchronisation -/
theorem all_samePeer (c : Ctx) (o : Own) (i : Input) (ha : o.active = true) (tr : List Answer) :
    All (fun _ r => ∀ o', r = .ok o' → o'.obj.peer = o.obj.peer) tr (handle c o i) := by
  have same : ∀ o', (.ok o : Go Own) = .ok o' → o'.obj.peer = o.obj.peer := fun o' h => by cases h; rfl
  have fired : ∀ t, All (fun _ r => ∀ o', r = .ok o' → o'.obj.peer = o.obj.peer) tr ((fire c o t).bind (fun r => .ret (logged r))) := by
    intro t
    refine All.bind (samePeer_drain c 3 (enqueue o t) rfl tr) ?_
    rintro ⟨o1, r⟩ tr' _ hr o' h
    unfold logged at h
    dsimp only at h
    split at h
    · cases h
    · cases h; exact hr
  cases i with
  | ids a l =>
    show All _ tr (handleIDs c o a l)
    unfold handleIDs
    split
    · exact same
    · split
      · exact same
      · split
        · exact same
        · exact fired _
  | block a b =>
    show All _ tr (handleBlock c o a b)
    unfold handleBlock
    split
    · exact same
    · split
      · exact same
      · exact fired _
  | tick =>
    show All _ tr (tick c o)
    unfold tick
    rw [if_pos ha]
    exact fired _
  | timer =>
    show All _ tr (sync c o)
    unfold sync
    rw [if_pos ha]
    exact same

end Verif.Loading.Fine
