import Verif.Loading.Fine
/-
Without other goroutines the handlers of `Loading/Fine.lean` do what `Loading/Loader.lean` says.
-/

set_option autoImplicit false

namespace Verif.Loading.Fine

open Verif
open Verif.Chains (Addr BlockID ProtoBlock MicroInv Linkage Env PutBlock MoveLeash HasBlock LeashOf LeashScore LastIDs LCB)
open Verif.Peers (Peer Conn Registry Lib)
open Verif.KV (Fate)

variable {lib : Lib}

theorem alone_bind {α β : Type} (p : Proc α) (f : α → Proc β) (s : Shared) :
    (p.bind f).alone lib s = (f (p.alone lib s).1).alone lib (p.alone lib s).2 := by
  induction p generalizing s with
  | ret a => rfl
  | call c k ih => exact ih _ _

/-- a result of `Loading/Loader.lean`, taken apart -/
def parts (r : Loader × Go Unit) : (Own × Go Unit) × Shared := ((own r.1, r.2), shared r.1)

/-- the same for the handlers of whole events; there is no state after a panic -/
def outcome : Go Loader → Go Own
  | .ok l => .ok (own l)
  | .error e => .error e

@[simp] theorem own_on (o : Own) (s : Shared) : own (o.on s) = o := rfl
@[simp] theorem shared_on (o : Own) (s : Shared) : shared (o.on s) = s := rfl

theorem alone_requestFrom (c : Ctx) (o : Own) (s : Shared) (id : BlockID) :
    (requestFrom c o id).alone lib s = parts (match LastIDs s.link.db id idsBatchSize with
      | .error e => (o.on s, .error e)
      | .ok lastIDs => Loading.andThen (Loading.requestBlockIDs c (o.on s) lastIDs)
          (fun l' => ({ l' with obj := { l'.obj with timestamp := c.now } }, .ok ()))) := by
  simp only [requestFrom, Proc.alone, Call.res, Call.effect, Call.op]
  cases LastIDs s.link.db id idsBatchSize with
  | error e => rfl
  | ok ids =>
    simp only [requestBlockIDs, Loading.requestBlockIDs, Own.on]
    cases hc : o.obj.peer.conn with
    | none => rfl
    | some cn =>
      simp only
      by_cases h1 : ids = []
      · simp only [h1, if_true]; rfl
      · simp only [h1, if_false]
        by_cases h2 : cn.handshake.version.lt protobufVersion = true
        · simp only [h2, if_true]; rfl
        · simp only [h2]; rfl

theorem alone_requestIDs (c : Ctx) (o : Own) (s : Shared) :
    (requestIDs c o).alone lib s = parts (Loading.requestIDs c (o.on s)) := by
  simp only [requestIDs, Proc.alone, Call.res, Call.effect, Call.op, Loading.requestIDs, Loader.peerID, Own.peerID]
  have e : LeashOf (o.on s).link (o.on s).obj.peer.addr = LeashOf s.link o.obj.peer.addr := rfl
  rw [e]
  cases LeashOf s.link o.obj.peer.addr with
  | error e => rfl
  | ok leash => exact alone_requestFrom c o s leash

theorem alone_requestIDsFromLCA (c : Ctx) (o : Own) (s : Shared) :
    (requestIDsFromLCA c o).alone lib s = parts (Loading.requestIDsFromLCA c (o.on s)) := by
  simp only [requestIDsFromLCA, Proc.alone, Call.res, Call.effect, Call.op, Loading.requestIDsFromLCA, Loader.peerID, Own.peerID]
  have e : LCB c.env (o.on s).link (o.on s).obj.peer.addr = LCB c.env s.link o.obj.peer.addr := rfl
  rw [e]
  cases LCB c.env s.link o.obj.peer.addr with
  | error e => rfl
  | ok leash => exact alone_requestFrom c o s leash

theorem alone_OK (o : Own) (s : Shared) : (OK o).alone lib s = parts (Loading.OK (o.on s)) := by
  unfold OK Loading.OK
  by_cases h : o.active = true ∧ o.obj.state = .idle
  · rw [if_pos h, if_pos (show (o.on s).active = true ∧ (o.on s).obj.state = .idle from h)]
    simp only [Proc.alone, Call.res, Call.effect, Call.op, Own.peerID, Loader.peerID, Own.on]
    cases Peers.PeerOf s.reg o.obj.peer.addr with
    | error e => cases e <;> rfl
    | ok p =>
      simp only [Proc.alone, Call.res, Call.effect, Call.op]
      cases LeashScore s.link o.obj.peer.addr with
      | error e => cases e <;> rfl
      | ok score =>
        simp only
        cases p.score with
        | none => rfl
        | some ps =>
          simp only
          by_cases hl : (isLagging o.prevDiff ps score).2 = true
          · simp only [hl, if_true]; rfl
          · simp only [hl]; rfl
  · rw [if_neg h, if_neg (show ¬ ((o.on s).active = true ∧ (o.on s).obj.state = .idle) from h)]; rfl

theorem alone_requestLoop (c : Ctx) (peer : Addr) (i : Nat) (ids : List BlockID) (s : Shared) :
    (requestLoop c peer i ids).alone lib s =
      ((Loading.requestLoop c peer i s.link ids).2, ⟨(Loading.requestLoop c peer i s.link ids).1, s.reg⟩) := by
  induction ids generalizing i s with
  | nil => rfl
  | cons id ids ih =>
    simp only [requestLoop, Loading.requestLoop, Proc.alone, Call.res, Call.effect, Call.op]
    cases HasBlock s.link.db id with
    | error e => rfl
    | ok b =>
      cases b with
      | false => rfl
      | true =>
        simp only [Proc.alone, Call.res, Call.effect, Call.op]
        cases LeashOf s.link peer with
        | error e => rfl
        | ok leash =>
          simp only
          by_cases hne : id ≠ leash
          · rw [if_pos hne, if_pos hne]
            simp only [Proc.alone, Call.res, Call.effect, Call.op, Chains.Spec.step]
            cases h : (MoveLeash (c.fates i) s.link.db id peer).2 with
            | error e => rfl
            | ok u => exact ih (i + 1) _
          · rw [if_neg hne, if_neg hne]; exact ih (i + 1) s

theorem alone_applyAll (c : Ctx) (peer : Addr) (i : Nat) (q : List Item) (s : Shared) :
    (applyAll c peer i q).alone lib s =
      ((Loading.applyAll c peer i s.link q).2, ⟨(Loading.applyAll c peer i s.link q).1, s.reg⟩) := by
  induction q generalizing i s with
  | nil => rfl
  | cons it q ih =>
    simp only [applyAll, Loading.applyAll]
    cases it.received with
    | none => rfl
    | some b =>
      simp only [Proc.alone, Call.res, Call.effect, Call.op, Chains.Spec.step]
      cases h : (PutBlock (c.fates (2 * i)) (c.fates (2 * i + 1)) s.link.db b peer).2 with
      | error e => rfl
      | ok u => exact ih (i + 1) _

theorem alone_applyPrefix (c : Ctx) (peer : Addr) (i : Nat) (q : List Item) (s : Shared) :
    (applyPrefix c peer i q).alone lib s =
      ((Loading.applyPrefix c peer i s.link q).2, ⟨(Loading.applyPrefix c peer i s.link q).1, s.reg⟩) := by
  induction q generalizing i s with
  | nil => rfl
  | cons it q ih =>
    simp only [applyPrefix, Loading.applyPrefix]
    cases it.received with
    | none => rfl
    | some b =>
      simp only
      by_cases he : b.id = it.requested
      · simp only [he, if_true, Proc.alone, Call.res, Call.effect, Call.op, Chains.Spec.step]
        cases h : (PutBlock (c.fates (2 * i)) (c.fates (2 * i + 1)) s.link.db b peer).2 with
        | error e => rfl
        | ok u => exact ih (i + 1) _
      · simp only [he, if_false]; rfl

theorem requestBlockEach_on (c : Ctx) (o : Own) (s : Shared) (ids : List BlockID) :
    (((requestBlockEach c o ids).1, (requestBlockEach c o ids).2), s) = parts (Loading.requestBlockEach c (o.on s) ids) := by
  induction ids generalizing o with
  | nil => rfl
  | cons id ids ih =>
    simp only [requestBlockEach, Loading.requestBlockEach]
    have e : (o.on s).obj.peer.conn = o.obj.peer.conn := rfl
    rw [e]
    cases o.obj.peer.conn with
    | none => rfl
    | some cn => exact ih _

theorem alone_andThen (r : Own × Go Unit) (l : Loader × Go Unit) (s : Shared) (f : Own → Proc (Own × Go Unit))
    (f' : Loader → Loader × Go Unit) (h : (r, s) = parts l) (hf : ∀ o s, (f o).alone lib s = parts (f' (o.on s))) :
    (andThen r f).alone lib s = parts (Loading.andThen l f') := by
  obtain ⟨l, x⟩ := l
  unfold parts at h
  cases h
  cases x with
  | error e => rfl
  | ok u => exact hf _ _

theorem alone_requestBlocks (c : Ctx) (o : Own) (s : Shared) (ids : List BlockID) :
    (requestBlocks c o ids).alone lib s = parts (Loading.requestBlocks c (o.on s) ids) := by
  unfold requestBlocks Loading.requestBlocks
  rw [alone_bind, alone_requestLoop]
  have e : Loading.requestLoop c (o.on s).peerID 0 (o.on s).link ids = Loading.requestLoop c o.peerID 0 s.link ids := rfl
  rw [e]
  rcases Loading.requestLoop c o.peerID 0 s.link ids with ⟨lk, (e | req)⟩
  · rfl
  · cases req with
    | nil => rfl
    | cons id req =>
      simp only
      refine alone_andThen _ _ _ _ _ ?_ ?_
      · exact requestBlockEach_on c { o with obj := { o.obj with queue := newQueue (id :: req) } } ⟨lk, s.reg⟩ (id :: req)
      · intro o' s'; rfl

theorem alone_appendBlock (c : Ctx) (o : Own) (s : Shared) (b : Option ProtoBlock) :
    (appendBlock c o b).alone lib s = parts (Loading.appendBlock c (o.on s) b) := by
  unfold appendBlock Loading.appendBlock
  simp only
  by_cases h : ready (putOpt o.obj.queue b) = true
  · have h' : ready (putOpt (o.on s).obj.queue b) = true := h
    rw [if_pos h, if_pos h', alone_bind, alone_applyAll]
    have e : Loading.applyAll c (Loader.peerID { o.on s with obj := { (o.on s).obj with queue := putOpt (o.on s).obj.queue b } }) 0 (o.on s).link
        (putOpt (o.on s).obj.queue b) = Loading.applyAll c o.obj.peer.addr 0 s.link (putOpt o.obj.queue b) := rfl
    rw [e]
    simp only [Own.peerID]
    rcases Loading.applyAll c o.obj.peer.addr 0 s.link (putOpt o.obj.queue b) with ⟨lk, (e | u)⟩ <;> rfl
  · have h' : ¬ ready (putOpt (o.on s).obj.queue b) = true := h
    rw [if_neg h, if_neg h']; rfl

theorem alone_handleFailure (c : Ctx) (o : Own) (s : Shared) :
    (handleFailure c o).alone lib s = parts (Loading.handleFailure c (o.on s)) := by
  unfold handleFailure Loading.handleFailure
  rw [alone_bind, alone_applyPrefix]
  have e : Loading.applyPrefix c (o.on s).peerID 0 (o.on s).link (o.on s).obj.queue = Loading.applyPrefix c o.peerID 0 s.link o.obj.queue := rfl
  rw [e]
  rcases Loading.applyPrefix c o.peerID 0 s.link o.obj.queue with ⟨lk, (e | u)⟩
  · rfl
  · show ((Fail o, Except.ok ()), _) = parts (Loading.Fail _, .ok ())
    unfold Fail Loading.Fail
    by_cases h : o.active = true ∧ o.obj.state = .done
    · rw [if_pos h, if_pos (by exact h)]; rfl
    · rw [if_neg h, if_neg (by exact h)]; rfl

theorem alone_onEntry (c : Ctx) (o : Own) (s : Shared) (d : State) (t : Trigger) :
    (onEntry c o d t).alone lib s = parts (Loading.onEntry c (o.on s) d t) := by
  unfold onEntry Loading.onEntry
  cases d with
  | idle =>
    cases t with
    | queueReady => exact alone_OK o s
    | _ => rfl
  | waitingForIDs =>
    cases t with
    | start => exact alone_requestIDs c o s
    | restart => exact alone_requestIDsFromLCA c o s
    | _ => rfl
  | waitingForBlocks =>
    cases t with
    | ids l => exact alone_requestBlocks c o s l
    | _ => rfl
  | done => cases t <;> exact alone_handleFailure c o s

theorem alone_onInternal (c : Ctx) (o : Own) (s : Shared) (t : Trigger) :
    (onInternal c o t).alone lib s = parts (Loading.onInternal c (o.on s) t) := by
  unfold onInternal Loading.onInternal
  cases t with
  | block b => exact alone_appendBlock c o s b
  | tick tm =>
    simp only [Proc.alone, onTick, Loading.onTick]
    by_cases h : tm - o.obj.timestamp > timeoutDuration
    · rw [if_pos h, if_pos (by exact h)]; rfl
    · rw [if_neg h, if_neg (by exact h)]; rfl
  | _ => rfl

theorem alone_execute (c : Ctx) (o : Own) (s : Shared) (t : Trigger) :
    (execute c o t).alone lib s = parts (Loading.execute c (o.on s) t) := by
  unfold execute Loading.execute
  have e : handler (o.on s).obj.state t = handler o.obj.state t := rfl
  rw [e]
  cases handler o.obj.state t with
  | none => rfl
  | some h =>
    cases h with
    | ignored => rfl
    | goto d => exact alone_onEntry c _ s d t
    | internal => exact alone_onInternal c o s t

theorem alone_drain (c : Ctx) (n : Nat) (o : Own) (s : Shared) :
    (drain c n o).alone lib s = parts (Loading.drain c n (o.on s)) := by
  induction n generalizing o s with
  | zero => rfl
  | succ n ih =>
    unfold drain Loading.drain
    have e : (o.on s).obj.triggers = o.obj.triggers := rfl
    rw [e]
    cases o.obj.triggers with
    | nil => rfl
    | cons t ts =>
      simp only
      rw [alone_bind, alone_execute]
      exact alone_andThen _ _ _ _ _ rfl ih

theorem alone_fire (c : Ctx) (o : Own) (s : Shared) (t : Trigger) :
    (fire c o t).alone lib s = parts (Loading.fire c (o.on s) t) := alone_drain c 3 _ s

theorem logged_parts (r : Loader × Go Unit) : logged (parts r).1 = outcome (Loading.logged r) := by
  obtain ⟨l, x⟩ := r
  cases x with
  | ok u => rfl
  | error e => cases e <;> rfl

/-- the result of the handler of a whole event, and the store and the registry after it, if there was no panic -/
structure Agree (x : Go Own × Shared) (r : Go Loader) : Prop where
  result : x.1 = outcome r
  shared : ∀ l, r = .ok l → x.2 = Fine.shared l

theorem agree_ok (o : Own) (s : Shared) : Agree (.ok o, s) (.ok (o.on s)) := ⟨rfl, fun l h => by cases h; rfl⟩

theorem agree_logged (c : Ctx) (o : Own) (s : Shared) (t : Trigger) :
    Agree (((fire c o t).bind (fun r => .ret (logged r))).alone lib s) (Loading.logged (Loading.fire c (o.on s) t)) := by
  rw [alone_bind, alone_fire]
  refine ⟨logged_parts _, fun l h => ?_⟩
  have : l = (Loading.fire c (o.on s) t).1 := by
    generalize Loading.fire c (o.on s) t = r at h
    obtain ⟨m, x⟩ := r
    cases x with
    | ok u => cases h; rfl
    | error e => cases e <;> cases h; rfl
  rw [this]; rfl

theorem agree_continueSync (c : Ctx) (o : Own) (s : Shared) :
    Agree ((continueSync c o).alone lib s) (Loading.continueSync c (o.on s)) := by
  unfold continueSync Loading.continueSync
  by_cases h : o.active = true
  · rw [if_pos h, if_pos (by exact h)]; exact agree_logged c { o with ticking := true } s .start
  · rw [if_neg h, if_neg (by exact h)]; exact ⟨rfl, fun l h => by cases h⟩

theorem agree_restartSync (c : Ctx) (o : Own) (s : Shared) :
    Agree ((restartSync c o).alone lib s) (Loading.restartSync c (o.on s)) :=
  agree_logged c { o with ticking := true, fc := reset o.fc o.peerID } s .restart

theorem alone_lagLoop (ps : List Peer) (s : Shared) : (lagLoop ps).alone lib s = (ps.filter (lagging s.link), s) := by
  induction ps with
  | nil => rfl
  | cons p ps ih =>
    simp only [lagLoop]
    rw [List.filter_cons]
    unfold lagging
    cases hs : p.score with
    | none => simp only [Bool.false_eq_true, if_false]; exact ih
    | some n =>
      simp only [Proc.alone, Call.res, Call.effect, Call.op]
      cases hl : LeashScore s.link p.addr with
      | error e => simp only [Bool.false_eq_true, if_false]; exact ih
      | ok score =>
        simp only [alone_bind, ih, Proc.alone]
        by_cases h : n > score <;> simp [h] <;> rfl

theorem agree_sync (c : Ctx) (o : Own) (s : Shared) : Agree ((sync c o).alone lib s) (Loading.sync lib c (o.on s)) := by
  unfold sync Loading.sync
  by_cases h : o.active = true
  · rw [if_pos h, if_pos (by exact h)]; exact agree_ok o s
  · rw [if_neg h, if_neg (by exact h)]
    simp only [Proc.alone, Call.res, Call.effect, Call.op]
    have e : Peers.Connections lib c.env (o.on s).reg = Peers.Connections lib c.env s.reg := rfl
    rw [e]
    cases Peers.Connections lib c.env s.reg with
    | error e =>
      cases e with
      | panic => exact ⟨rfl, fun l h => by cases h⟩
      | err e => exact agree_ok o s
    | ok ps =>
      simp only
      rw [alone_bind, alone_lagLoop]
      have e : List.filter (lagging (o.on s).link) ps = List.filter (lagging s.link) ps := rfl
      simp only [e]
      by_cases hn : ps.filter (lagging s.link) = []
      · rw [if_pos hn, if_pos hn]; exact agree_ok o s
      · rw [if_neg hn, if_neg hn]
        generalize ps.filter (lagging s.link) = lag
        cases goIndex lag (c.rand lag.length % lag.length) with
        | error e => exact ⟨rfl, fun l h => by cases h⟩
        | ok p =>
          simp only [go_bind_ok]
          by_cases hk : count o.fc p.addr ≥ restartThreshold
          · rw [if_pos hk, if_pos (by exact hk), alone_bind]
            have A := agree_restartSync (lib := lib) c { o with active := true, obj := newPeerLoader p } s
            have hr : Loading.restartSync c (Own.on { o with active := true, obj := newPeerLoader p } s) =
              Loading.restartSync c { o.on s with active := true, obj := newPeerLoader p } := rfl
            rw [hr] at A
            cases hx : Loading.restartSync c { o.on s with active := true, obj := newPeerLoader p } with
            | error e =>
              rw [hx] at A
              rw [A.result]
              exact ⟨rfl, fun l h => by cases h⟩
            | ok l1 =>
              rw [hx] at A
              rw [A.result, A.shared l1 rfl]
              exact agree_continueSync c (own l1) (shared l1)
          · rw [if_neg hk, if_neg (by exact hk)]
            exact agree_continueSync c _ s

theorem agree_handle (c : Ctx) (o : Own) (s : Shared) (i : Input) :
    Agree ((handle c o i).alone lib s) (Loading.step lib (o.on s) ⟨c, i.event⟩) := by
  cases i with
  | ids peer ids =>
    show Agree ((handleIDs c o peer ids).alone lib s) (Loading.handleIDs c (o.on s) peer ids)
    unfold handleIDs Loading.handleIDs
    by_cases h : o.active = false
    · rw [if_pos h, if_pos (by exact h)]; exact agree_ok o s
    · rw [if_neg h, if_neg (show ¬ (o.on s).active = false from h)]
      by_cases h : ids = []
      · rw [if_pos h, if_pos h]; exact agree_ok o s
      · rw [if_neg h, if_neg h]
        by_cases h : peer ≠ o.peerID
        · rw [if_pos h, if_pos (by exact h)]; exact agree_ok o s
        · rw [if_neg h, if_neg (by exact h)]; exact agree_logged c o s _
  | block peer b =>
    show Agree ((handleBlock c o peer b).alone lib s) (Loading.handleBlock c (o.on s) peer b)
    unfold handleBlock Loading.handleBlock
    by_cases h : o.active = false
    · rw [if_pos h, if_pos (by exact h)]; exact agree_ok o s
    · rw [if_neg h, if_neg (show ¬ (o.on s).active = false from h)]
      by_cases h : peer ≠ o.peerID
      · rw [if_pos h, if_pos (by exact h)]; exact agree_ok o s
      · rw [if_neg h, if_neg (by exact h)]; exact agree_logged c o s _
  | tick =>
    show Agree ((tick c o).alone lib s) (Loading.tick c (o.on s))
    unfold tick Loading.tick
    by_cases h : o.active = true
    · rw [if_pos h, if_pos (by exact h)]; exact agree_logged c o s _
    · rw [if_neg h, if_neg (by exact h)]; exact agree_ok o s
  | timer => exact agree_sync c o s

end Verif.Loading.Fine
