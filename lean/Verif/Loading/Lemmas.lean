import Verif.Loading.Spec
/-
The state machine of the peer loader without its queue.
-/

set_option autoImplicit false

namespace Verif.Loading

open Verif
open Verif.Chains (Addr BlockID ProtoBlock Linkage Env PutBlock MoveLeash HasBlock LeashOf LeashScore LastIDs LCB)
open Verif.Peers (Peer Conn Version Registry Lib second)
open Verif.KV (Fate)

/-- no trigger is waiting -/
def Quiet (l : Loader) : Prop := l.obj.triggers = []

/-! ### what the actions leave alone -/

theorem requestBlockIDs_cases (c : Ctx) (l : Loader) (ids : List BlockID) :
    requestBlockIDs c l ids = (l, goPanic) ∨
    ∃ cn m, l.obj.peer.conn = some cn ∧ ids ≠ [] ∧
      m = (if cn.handshake.version.lt protobufVersion then Msg.getSignatures ids else Msg.getBlockIds ids) ∧
      requestBlockIDs c l ids = ({ l with out := l.out ++ [⟨c.now, cn, m⟩] }, .ok ()) := by
  unfold requestBlockIDs
  cases hc : l.obj.peer.conn with
  | none => exact Or.inl rfl
  | some cn =>
    by_cases hi : ids = []
    · left; simp only [hi, if_true]
    · right
      refine ⟨cn, _, rfl, hi, rfl, ?_⟩
      simp only [hi, if_false]
      by_cases hv : cn.handshake.version.lt protobufVersion = true
      · simp [hv]
      · simp [hv]

theorem requestBlockEach_eq (c : Ctx) (l : Loader) (cn : Conn) (hc : l.obj.peer.conn = some cn) (ids : List BlockID) :
    requestBlockEach c l ids = ({ l with out := l.out ++ ids.map (fun id => ⟨c.now, cn, .getBlock id⟩) }, .ok ()) := by
  induction ids generalizing l with
  | nil => simp [requestBlockEach]
  | cons id ids ih =>
    rw [requestBlockEach]
    simp only [hc]
    rw [ih { l with out := l.out ++ [⟨c.now, cn, .getBlock id⟩] } hc]
    simp

theorem requestBlockEach_none (c : Ctx) (l : Loader) (hc : l.obj.peer.conn = none) (id : BlockID) (ids : List BlockID) :
    requestBlockEach c l (id :: ids) = (l, goPanic) := by
  simp [requestBlockEach, hc]

/-- the effect of an id request -/
def afterRequest (c : Ctx) (l : Loader) (cn : Conn) (ids : List BlockID) : Loader :=
  { l with out := l.out ++ [⟨c.now, cn, if cn.handshake.version.lt protobufVersion then .getSignatures ids
                                        else .getBlockIds ids⟩],
           obj := { l.obj with timestamp := c.now } }

theorem requestIDs_cases (c : Ctx) (l : Loader) :
    (∃ e, requestIDs c l = (l, .error e)) ∨
    ∃ leash ids cn, LeashOf l.link l.peerID = .ok leash ∧ LastIDs l.link.db leash idsBatchSize = .ok ids ∧
      l.obj.peer.conn = some cn ∧ ids ≠ [] ∧ requestIDs c l = (afterRequest c l cn ids, .ok ()) := by
  unfold requestIDs
  cases h1 : LeashOf l.link l.peerID with
  | error e => exact Or.inl ⟨e, rfl⟩
  | ok leash =>
    simp only
    cases h2 : LastIDs l.link.db leash idsBatchSize with
    | error e => exact Or.inl ⟨e, rfl⟩
    | ok ids =>
      simp only
      rcases requestBlockIDs_cases c l ids with h | ⟨cn, m, hc, hi, hm, h⟩
      · rw [h]; exact Or.inl ⟨.panic, rfl⟩
      · rw [h]; subst hm; exact Or.inr ⟨leash, ids, cn, rfl, h2, hc, hi, rfl⟩

theorem requestIDsFromLCA_cases (c : Ctx) (l : Loader) :
    (∃ e, requestIDsFromLCA c l = (l, .error e)) ∨
    ∃ lca ids cn, LCB c.env l.link l.peerID = .ok lca ∧ LastIDs l.link.db lca idsBatchSize = .ok ids ∧
      l.obj.peer.conn = some cn ∧ ids ≠ [] ∧ requestIDsFromLCA c l = (afterRequest c l cn ids, .ok ()) := by
  unfold requestIDsFromLCA
  cases h1 : LCB c.env l.link l.peerID with
  | error e => exact Or.inl ⟨e, rfl⟩
  | ok lca =>
    simp only
    cases h2 : LastIDs l.link.db lca idsBatchSize with
    | error e => exact Or.inl ⟨e, rfl⟩
    | ok ids =>
      simp only
      rcases requestBlockIDs_cases c l ids with h | ⟨cn, m, hc, hi, hm, h⟩
      · rw [h]; exact Or.inl ⟨.panic, rfl⟩
      · rw [h]; subst hm; exact Or.inr ⟨lca, ids, cn, rfl, h2, hc, hi, rfl⟩

/-! ### firing -/

/-- the state of the machine is changed -/
def enter (l : Loader) (s : State) : Loader := { l with obj := { l.obj with state := s } }

theorem drain_quiet (c : Ctx) (n : Nat) (l : Loader) (h : Quiet l) : drain c n l = (l, .ok ()) := by
  cases n with
  | zero => rfl
  | succ n => unfold Quiet at h; simp [drain, h]

/-- one trigger in the queue -/
theorem drain_one (c : Ctx) (n : Nat) (l : Loader) (t : Trigger) (h : Quiet l) :
    drain c (n + 1) (enqueue l t) =
      andThen (execute c l t) (drain c n) := by
  unfold Quiet at h
  have : { enqueue l t with obj := { (enqueue l t).obj with triggers := [] } } = l := by
    cases l with
    | mk active obj prevDiff fc link reg out ticking =>
      cases obj
      simp only at h
      simp [enqueue, h]
  rw [drain]
  have ht : (enqueue l t).obj.triggers = [t] := by simp [enqueue, h]
  rw [ht]
  simp only [this]

theorem fire_one (c : Ctx) (l : Loader) (t : Trigger) (h : Quiet l) :
    fire c l t = andThen (execute c l t) (drain c 2) := drain_one c 2 l t h

/-- a trigger that is ignored -/
theorem fire_ignored (c : Ctx) (l : Loader) (t : Trigger) (h : Quiet l) (hh : handler l.obj.state t = some .ignored) :
    fire c l t = (l, .ok ()) := by
  rw [fire_one c l t h]
  simp only [execute, hh]
  exact drain_quiet c 2 l h

/-- the start trigger in the idle state -/
def startNow (c : Ctx) (l : Loader) : Loader × Go Unit := requestIDs c (enter l .waitingForIDs)

theorem quiet_requestIDs (c : Ctx) (l : Loader) (h : Quiet l) : Quiet (requestIDs c l).1 := by
  rcases requestIDs_cases c l with ⟨e, he⟩ | ⟨_, _, _, _, _, _, _, he⟩ <;> rw [he] <;> exact h

theorem quiet_requestIDsFromLCA (c : Ctx) (l : Loader) (h : Quiet l) : Quiet (requestIDsFromLCA c l).1 := by
  rcases requestIDsFromLCA_cases c l with ⟨e, he⟩ | ⟨_, _, _, _, _, _, _, he⟩ <;> rw [he] <;> exact h

theorem drain_start (c : Ctx) (n : Nat) (l : Loader) (h : Quiet l) (hs : l.obj.state = .idle) :
    drain c (n + 1) (enqueue l .start) = startNow c l := by
  rw [drain_one c n l _ h]
  simp only [execute, hs, handler, onEntry]
  have hq : Quiet (startNow c l).1 := quiet_requestIDs c _ h
  show andThen (startNow c l) (drain c n) = startNow c l
  rcases hr : startNow c l with ⟨l', (e | u)⟩
  · rfl
  · rw [hr] at hq
    exact drain_quiet c n l' hq

theorem fire_start (c : Ctx) (l : Loader) (h : Quiet l) (hs : l.obj.state = .idle) :
    fire c l .start = startNow c l := drain_start c 2 l h hs

theorem fire_restart (c : Ctx) (l : Loader) (h : Quiet l) (hs : l.obj.state = .idle) :
    fire c l .restart = requestIDsFromLCA c (enter l .waitingForIDs) := by
  rw [fire_one c l _ h]
  simp only [execute, hs, handler, onEntry]
  have hq : Quiet (requestIDsFromLCA c (enter l .waitingForIDs)).1 := quiet_requestIDsFromLCA c _ h
  show andThen (requestIDsFromLCA c (enter l .waitingForIDs)) (drain c 2) = _
  rcases hr : requestIDsFromLCA c (enter l .waitingForIDs) with ⟨l', (e | u)⟩
  · rfl
  · rw [hr] at hq
    exact drain_quiet c 2 l' hq

/-- how `OK` ends: it goes on with the peer, or releases it, or leaves everything as it is
because the registry or the store gave an error, or panics -/
inductive OkOutcome (l : Loader) : Loader × Go Unit → Prop where
  | again (p : Peer) (ps score : Nat) (hp : Peers.PeerOf l.reg l.peerID = .ok p) (hps : p.score = some ps)
      (hsc : LeashScore l.link l.peerID = .ok score) (lag : ps > score)
      (changed : l.prevDiff ≠ some ((ps : Int) - score)) :
      OkOutcome l (enqueue { l with fc := reset l.fc l.peerID, prevDiff := some ((ps : Int) - score), ticking := true }
        .start, .ok ())
  | release (p : Peer) (ps score : Nat) (hp : Peers.PeerOf l.reg l.peerID = .ok p) (hps : p.score = some ps)
      (hsc : LeashScore l.link l.peerID = .ok score)
      (stop : ¬ (ps > score ∧ l.prevDiff ≠ some ((ps : Int) - score))) :
      OkOutcome l ({ l with fc := reset l.fc l.peerID, prevDiff := none, active := false }, .ok ())
  | stuck (e : Err) (h : Peers.PeerOf l.reg l.peerID = .error (.err e) ∨
      (∃ p, Peers.PeerOf l.reg l.peerID = .ok p) ∧ LeashScore l.link l.peerID = .error (.err e)) :
      OkOutcome l ({ l with fc := reset l.fc l.peerID }, .ok ())
  | panic (h : Peers.PeerOf l.reg l.peerID = goPanic ∨ LeashScore l.link l.peerID = goPanic ∨
      ∃ p, Peers.PeerOf l.reg l.peerID = .ok p ∧ p.score = none) :
      OkOutcome l ({ l with fc := reset l.fc l.peerID }, goPanic)

theorem ok_outcome (l : Loader) (ha : l.active = true) (hs : l.obj.state = .idle) : OkOutcome l (OK l) := by
  unfold OK
  rw [if_pos ⟨ha, hs⟩]
  have hid : Loader.peerID { l with fc := reset l.fc l.peerID } = l.peerID := rfl
  simp only [hid]
  cases hp : Peers.PeerOf l.reg l.peerID with
  | error e =>
    cases e with
    | panic => exact .panic (Or.inl hp)
    | err e => exact .stuck e (Or.inl hp)
  | ok p =>
    simp only
    cases hsc : LeashScore l.link l.peerID with
    | error e =>
      cases e with
      | panic => exact .panic (Or.inr (Or.inl hsc))
      | err e => exact .stuck e (Or.inr ⟨⟨p, hp⟩, hsc⟩)
    | ok score =>
      simp only
      cases hps : p.score with
      | none => exact .panic (Or.inr (Or.inr ⟨p, hp, hps⟩))
      | some ps =>
        simp only
        cases hd : l.prevDiff with
        | none =>
          simp only [isLagging]
          by_cases hl : ps > score
          · simp only [hl, decide_true, if_true]
            exact .again p ps score hp hps hsc hl (by simp [hd])
          · simp only [hl, decide_false]
            exact .release p ps score hp hps hsc (fun h => hl h.1)
        | some d =>
          simp only [isLagging]
          by_cases hl : ps > score
          · by_cases hdd : d = (ps : Int) - score
            · simp only [hl, hdd, ne_eq, not_true, decide_true, decide_false, Bool.and_false]
              exact .release p ps score hp hps hsc (fun h => h.2 (by rw [hd, hdd]))
            · simp only [hl, hdd, ne_eq, not_false_iff, decide_true, Bool.and_self, if_true]
              exact .again p ps score hp hps hsc hl (by rw [hd]; simpa using hdd)
          · simp only [hl, decide_false, Bool.false_and]
            exact .release p ps score hp hps hsc (fun h => hl h.1)

theorem ok_inactive (l : Loader) (ha : l.active = false) : OK l = (l, .ok ()) := by
  unfold OK
  rw [if_neg (by simp [ha])]

theorem ok_shape (l : Loader) (h : Quiet l) (hs : l.obj.state = .idle) :
    (∃ x, OK l = (enqueue x .start, .ok ()) ∧ Quiet x ∧ x.obj.state = .idle) ∨ Quiet (OK l).1 := by
  cases ha : l.active with
  | false => rw [ok_inactive l ha]; exact Or.inr h
  | true =>
    have := ok_outcome l ha hs
    generalize OK l = r at this
    cases this with
    | again p ps score hp hps hsc lag changed => exact Or.inl ⟨_, rfl, h, hs⟩
    | release p ps score hp hps hsc stop => exact Or.inr h
    | stuck e he => exact Or.inr h
    | panic hp => exact Or.inr h

/-- the queue-ready trigger in the state that waits for blocks -/
def succeed (c : Ctx) (l : Loader) : Loader × Go Unit := andThen (OK (enter l .idle)) (drain c 1)

theorem drain_ready (c : Ctx) (n : Nat) (l : Loader) (h : Quiet l) (hs : l.obj.state = .waitingForBlocks) :
    drain c (n + 2) (enqueue l .queueReady) = succeed c l := by
  rw [drain_one c (n + 1) l _ h]
  simp only [execute, hs, handler, onEntry]
  show andThen (OK (enter l .idle)) (drain c (n + 1)) = andThen (OK (enter l .idle)) (drain c 1)
  rcases ok_shape (enter l .idle) h rfl with ⟨x, hx, hq, hxs⟩ | hq
  · rw [hx]
    show drain c (n + 1) (enqueue x .start) = drain c 1 (enqueue x .start)
    rw [drain_start c n x hq hxs, drain_start c 0 x hq hxs]
  · rcases hr : OK (enter l .idle) with ⟨l', (e | u)⟩
    · rfl
    · rw [hr] at hq
      show drain c (n + 1) l' = drain c 1 l'
      rw [drain_quiet c _ l' hq, drain_quiet c _ l' hq]

theorem quiet_startNow (c : Ctx) (l : Loader) (h : Quiet l) : Quiet (startNow c l).1 := quiet_requestIDs c _ h

theorem quiet_succeed (c : Ctx) (l : Loader) (h : Quiet l) : Quiet (succeed c l).1 := by
  unfold succeed
  rcases ok_shape (enter l .idle) h rfl with ⟨x, hx, hq, hxs⟩ | hq
  · rw [hx]
    show Quiet (drain c 1 (enqueue x .start)).1
    rw [drain_start c 0 x hq hxs]
    exact quiet_startNow c x hq
  · rcases hr : OK (enter l .idle) with ⟨l', (e | u)⟩
    · rw [hr] at hq; exact hq
    · rw [hr] at hq
      show Quiet (drain c 1 l').1
      rw [drain_quiet c _ l' hq]; exact hq

/-- `requestBlocks` before the trigger that it fires is executed -/
inductive RequestOutcome (c : Ctx) (l : Loader) (ids : List BlockID) : Loader × Go Unit → Prop where
  | failed (lk : Linkage) (e : Fault) (h : requestLoop c l.peerID 0 l.link ids = (lk, .error e)) :
      RequestOutcome c l ids ({ l with link := lk }, .error e)
  | known (lk : Linkage) (h : requestLoop c l.peerID 0 l.link ids = (lk, .ok [])) :
      RequestOutcome c l ids (succeed c { l with link := lk })
  | asked (lk : Linkage) (req : List BlockID) (cn : Conn) (h : requestLoop c l.peerID 0 l.link ids = (lk, .ok req))
      (hne : req ≠ []) (hc : l.obj.peer.conn = some cn) :
      RequestOutcome c l ids
        ({ l with link := lk, out := l.out ++ req.map (fun id => ⟨c.now, cn, .getBlock id⟩),
                  obj := { l.obj with queue := newQueue req, timestamp := c.now } }, .ok ())
  | panic (lk : Linkage) (req : List BlockID) (h : requestLoop c l.peerID 0 l.link ids = (lk, .ok req))
      (hne : req ≠ []) (hc : l.obj.peer.conn = none) :
      RequestOutcome c l ids ({ l with link := lk, obj := { l.obj with queue := newQueue req } }, goPanic)

theorem fire_ids (c : Ctx) (l : Loader) (ids : List BlockID) (h : Quiet l) (hs : l.obj.state = .waitingForIDs) :
    RequestOutcome c (enter l .waitingForBlocks) ids (fire c l (.ids ids)) := by
  rw [fire_one c l _ h]
  simp only [execute, hs, handler, onEntry]
  show RequestOutcome c (enter l .waitingForBlocks) ids
    (andThen (requestBlocks c (enter l .waitingForBlocks) ids) (drain c 2))
  have hq : Quiet (enter l .waitingForBlocks) := h
  have hst : (enter l .waitingForBlocks).obj.state = .waitingForBlocks := rfl
  generalize enter l .waitingForBlocks = l at hq hst
  unfold requestBlocks
  rcases hr : requestLoop c l.peerID 0 l.link ids with ⟨lk, (e | req)⟩
  · exact .failed lk e hr
  · cases req with
    | nil =>
      show RequestOutcome c l ids (drain c (0 + 2) (enqueue { l with link := lk } .queueReady))
      rw [drain_ready c 0 { l with link := lk } hq hst]
      exact .known lk hr
    | cons id req =>
      simp only
      cases hc : l.obj.peer.conn with
      | none =>
        rw [requestBlockEach_none c { l with link := lk, obj := { l.obj with queue := newQueue (id :: req) } } hc]
        exact .panic lk (id :: req) hr (by simp) hc
      | some cn =>
        rw [requestBlockEach_eq c { l with link := lk, obj := { l.obj with queue := newQueue (id :: req) } } cn hc]
        simp only [andThen]
        rw [drain_quiet c 2 _ (by exact hq)]
        exact .asked lk (id :: req) cn hr (by simp) hc

/-- `appendBlock` and what follows -/
inductive AppendOutcome (c : Ctx) (l : Loader) (b : Option ProtoBlock) : Loader × Go Unit → Prop where
  | waiting (h : ready (putOpt l.obj.queue b) = false) :
      AppendOutcome c l b ({ l with obj := { l.obj with queue := putOpt l.obj.queue b } }, .ok ())
  | failed (h : ready (putOpt l.obj.queue b) = true) (lk : Linkage) (e : Fault)
      (ha : applyAll c l.peerID 0 l.link (putOpt l.obj.queue b) = (lk, .error e)) :
      AppendOutcome c l b ({ l with link := lk, obj := { l.obj with queue := putOpt l.obj.queue b } }, .error e)
  | complete (h : ready (putOpt l.obj.queue b) = true) (lk : Linkage)
      (ha : applyAll c l.peerID 0 l.link (putOpt l.obj.queue b) = (lk, .ok ())) :
      AppendOutcome c l b (succeed c { l with link := lk, obj := { l.obj with queue := putOpt l.obj.queue b } })

theorem fire_block (c : Ctx) (l : Loader) (b : Option ProtoBlock) (h : Quiet l)
    (hs : l.obj.state = .waitingForBlocks) : AppendOutcome c l b (fire c l (.block b)) := by
  rw [fire_one c l _ h]
  simp only [execute, hs, handler, onInternal]
  unfold appendBlock
  cases hr : ready (putOpt l.obj.queue b) with
  | false =>
    simp only [hr, Bool.false_eq_true, if_false]
    show AppendOutcome c l b (drain c 2 { l with obj := { l.obj with queue := putOpt l.obj.queue b } })
    rw [drain_quiet c 2 { l with obj := { l.obj with queue := putOpt l.obj.queue b } } h]
    exact .waiting hr
  | true =>
    have hid : Loader.peerID { l with obj := { l.obj with queue := putOpt l.obj.queue b } } = l.peerID := rfl
    simp only [hr, if_true, hid]
    rcases ha : applyAll c l.peerID 0 l.link (putOpt l.obj.queue b) with ⟨lk, (e | u)⟩
    · exact .failed hr lk e ha
    · simp only [andThen]
      show AppendOutcome c l b
        (drain c (0 + 2) (enqueue { l with link := lk, obj := { l.obj with queue := putOpt l.obj.queue b } } .queueReady))
      rw [drain_ready c 0 { l with link := lk, obj := { l.obj with queue := putOpt l.obj.queue b } } h hs]
      exact .complete hr lk ha

/-- the state waits for an answer -/
def Waiting (l : Loader) : Prop := l.obj.state = .waitingForIDs ∨ l.obj.state = .waitingForBlocks

theorem quiet_fail (l : Loader) (h : Quiet l) : Quiet (Fail l) := by
  unfold Fail; split <;> exact h

theorem quiet_handleFailure (c : Ctx) (l : Loader) (h : Quiet l) : Quiet (handleFailure c l).1 := by
  unfold handleFailure
  rcases applyPrefix c l.peerID 0 l.link l.obj.queue with ⟨lk, (e | u)⟩
  · exact h
  · exact quiet_fail { l with link := lk } h

theorem drain_timeout (c : Ctx) (n : Nat) (l : Loader) (h : Quiet l) (hw : Waiting l) :
    drain c (n + 1) (enqueue l .timeout) = handleFailure c (enter l .done) := by
  rw [drain_one c n l _ h]
  have hx : execute c l .timeout = handleFailure c (enter l .done) := by
    unfold execute
    rcases hw with hs | hs <;> rw [hs] <;> rfl
  rw [hx]
  have hq := quiet_handleFailure c (enter l .done) h
  rcases hr : handleFailure c (enter l .done) with ⟨l', (e | u)⟩
  · rfl
  · rw [hr] at hq
    exact drain_quiet c n l' hq

theorem fire_tick (c : Ctx) (l : Loader) (t : Int) (h : Quiet l) (hw : Waiting l) :
    fire c l (.tick t) =
      if t - l.obj.timestamp > timeoutDuration then handleFailure c (enter l .done) else (l, .ok ()) := by
  rw [fire_one c l _ h]
  have hx : execute c l (.tick t) = onTick l t := by
    unfold execute
    rcases hw with hs | hs <;> rw [hs] <;> rfl
  rw [hx]
  unfold onTick
  by_cases ht : t - l.obj.timestamp > timeoutDuration
  · rw [if_pos ht, if_pos ht]
    exact drain_timeout c 1 l h hw
  · rw [if_neg ht, if_neg ht]
    exact drain_quiet c 2 l h

theorem fire_tick_resting (c : Ctx) (l : Loader) (t : Int) (h : Quiet l) (hw : ¬ Waiting l) :
    fire c l (.tick t) = (l, .ok ()) := by
  refine fire_ignored c l _ h ?_
  cases hs : l.obj.state with
  | idle => rfl
  | done => rfl
  | waitingForIDs => exact absurd (Or.inl hs) hw
  | waitingForBlocks => exact absurd (Or.inr hs) hw

theorem fire_block_other (c : Ctx) (l : Loader) (b : Option ProtoBlock) (h : Quiet l)
    (hs : l.obj.state ≠ .waitingForBlocks) : fire c l (.block b) = (l, .ok ()) := by
  refine fire_ignored c l _ h ?_
  cases hs' : l.obj.state with
  | waitingForBlocks => exact absurd hs' hs
  | _ => rfl

theorem fire_ids_other (c : Ctx) (l : Loader) (ids : List BlockID) (h : Quiet l)
    (hs : l.obj.state ≠ .waitingForIDs) : fire c l (.ids ids) = (l, .ok ()) := by
  refine fire_ignored c l _ h ?_
  cases hs' : l.obj.state with
  | waitingForIDs => exact absurd hs' hs
  | _ => rfl

theorem quiet_fire_ids (c : Ctx) (l : Loader) (ids : List BlockID) (h : Quiet l) : Quiet (fire c l (.ids ids)).1 := by
  by_cases hs : l.obj.state = .waitingForIDs
  · have := fire_ids c l ids h hs
    generalize fire c l (.ids ids) = r at this
    cases this with
    | failed => exact h
    | known lk _ => exact quiet_succeed c { enter l .waitingForBlocks with link := lk } h
    | asked => exact h
    | panic => exact h
  · rw [fire_ids_other c l ids h hs]; exact h

theorem quiet_fire_block (c : Ctx) (l : Loader) (b : Option ProtoBlock) (h : Quiet l) :
    Quiet (fire c l (.block b)).1 := by
  by_cases hs : l.obj.state = .waitingForBlocks
  · have := fire_block c l b h hs
    generalize fire c l (.block b) = r at this
    cases this with
    | waiting => exact h
    | failed => exact h
    | complete _ lk _ =>
      exact quiet_succeed c { l with link := lk, obj := { l.obj with queue := putOpt l.obj.queue b } } h
  · rw [fire_block_other c l b h hs]; exact h

theorem quiet_fire_tick (c : Ctx) (l : Loader) (t : Int) (h : Quiet l) : Quiet (fire c l (.tick t)).1 := by
  by_cases hw : Waiting l
  · rw [fire_tick c l t h hw]
    split
    · exact quiet_handleFailure c _ h
    · exact h
  · rw [fire_tick_resting c l t h hw]; exact h

end Verif.Loading
