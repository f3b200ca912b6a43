import Verif.Loading.Loops
import Verif.Peers.Queries
/-
What holds in every reachable state of the loader.
-/

set_option autoImplicit false

namespace Verif.Loading

open Verif
open Verif.Chains (Addr BlockID ProtoBlock Linkage Env PutBlock MoveLeash HasBlock LeashOf LeashScore LastIDs LCB)
open Verif.Peers (Peer Conn Version Registry Lib second)
open Verif.KV (Fate)

/-! ### failure counter -/

theorem count_filter (m : FailureCounter) (a b : Addr) (h : b ≠ a) :
    count (m.filter (fun x => decide (x.1 ≠ a))) b = count m b := by
  induction m with
  | nil => rfl
  | cons x m ih =>
    obtain ⟨y, k⟩ := x
    by_cases hy : y = a
    · subst hy
      have : (List.filter (fun x => decide (x.1 ≠ y)) ((y, k) :: m)) = List.filter (fun x => decide (x.1 ≠ y)) m := by simp
      rw [this, ih, count, if_neg (fun e => h e.symm)]
    · have : (List.filter (fun x => decide (x.1 ≠ a)) ((y, k) :: m)) = (y, k) :: List.filter (fun x => decide (x.1 ≠ a)) m := by
        simp [hy]
      rw [this, count, count, ih]

theorem count_setCount (m : FailureCounter) (a b : Addr) (k : Nat) :
    count (setCount m a k) b = if b = a then k else count m b := by
  unfold setCount
  rw [count]
  by_cases h : b = a
  · rw [if_pos h.symm, if_pos h]
  · rw [if_neg (fun e => h e.symm), if_neg h, count_filter m a b h]

/-! ### what an event on the current peer leaves alone -/

/-- the frame of one event that concerns the current peer -/
structure Frame (l l' : Loader) : Prop where
  peer : l'.obj.peer = l.obj.peer
  reg : l'.reg = l.reg
  ticking : l.ticking = true → l'.ticking = true
  active : l'.active = true → l.active = true
  fc : ∀ a, a ≠ l.peerID → count l'.fc a = count l.fc a
  sent : (l'.out = l.out ∧ l'.obj.timestamp = l.obj.timestamp) ∨
    ∃ ms s, l'.out = l.out ++ ms ∧ ms.getLast? = some s ∧ l'.obj.timestamp = s.time ∧
      ∀ m, m ∈ ms → l.obj.peer.conn = some m.to ∧ m.time = s.time

theorem Frame.refl (l : Loader) : Frame l l := ⟨rfl, rfl, id, id, fun _ _ => rfl, Or.inl ⟨rfl, rfl⟩⟩

theorem Frame.peerID {l l' : Loader} (h : Frame l l') : l'.peerID = l.peerID := by unfold Loader.peerID; rw [h.peer]

/-- a change that is invisible to the frame, first -/
theorem Frame.after {l m l' : Loader} (h : Frame m l') (h1 : m.obj.peer = l.obj.peer) (h2 : m.reg = l.reg)
    (h3 : m.ticking = l.ticking) (h4 : m.active = l.active) (h5 : m.fc = l.fc) (h6 : m.out = l.out)
    (h7 : m.obj.timestamp = l.obj.timestamp) : Frame l l' := by
  have hid : m.peerID = l.peerID := by unfold Loader.peerID; rw [h1]
  refine ⟨h.peer.trans h1, h.reg.trans h2, ?_, ?_, ?_, ?_⟩
  · rw [← h3]; exact h.ticking
  · rw [← h4]; exact h.active
  · rw [← h5, ← hid]; exact h.fc
  · rw [← h6, ← h7, ← h1]; exact h.sent

theorem frame_afterRequest (c : Ctx) (l : Loader) (cn : Conn) (ids : List BlockID) (h : l.obj.peer.conn = some cn) :
    Frame l (afterRequest c l cn ids) :=
  ⟨rfl, rfl, id, id, fun _ _ => rfl, Or.inr ⟨_, _, rfl, rfl, rfl, by
    intro m hm
    rw [List.mem_singleton.mp hm]
    exact ⟨h, rfl⟩⟩⟩

theorem frame_requestIDs (c : Ctx) (l : Loader) : Frame l (requestIDs c l).1 := by
  rcases requestIDs_cases c l with ⟨e, he⟩ | ⟨_, _, cn, _, _, hc, _, he⟩
  · rw [he]; exact Frame.refl l
  · rw [he]; exact frame_afterRequest c l cn _ hc

theorem frame_requestIDsFromLCA (c : Ctx) (l : Loader) : Frame l (requestIDsFromLCA c l).1 := by
  rcases requestIDsFromLCA_cases c l with ⟨e, he⟩ | ⟨_, _, cn, _, _, hc, _, he⟩
  · rw [he]; exact Frame.refl l
  · rw [he]; exact frame_afterRequest c l cn _ hc

theorem frame_startNow (c : Ctx) (l : Loader) : Frame l (startNow c l).1 :=
  (frame_requestIDs c (enter l .waitingForIDs)).after rfl rfl rfl rfl rfl rfl rfl

/-- what follows a completed batch -/
inductive SucceedOutcome (c : Ctx) (l : Loader) : Loader × Go Unit → Prop where
  | again (p : Peer) (ps score : Nat) (hp : Peers.PeerOf l.reg l.peerID = .ok p) (hps : p.score = some ps)
      (hsc : LeashScore l.link l.peerID = .ok score) (lag : ps > score)
      (changed : l.prevDiff ≠ some ((ps : Int) - score)) :
      SucceedOutcome c l (requestIDs c { l with
        fc := reset l.fc l.peerID, prevDiff := some ((ps : Int) - score), ticking := true,
        obj := { l.obj with state := .waitingForIDs } })
  | release (p : Peer) (ps score : Nat) (hp : Peers.PeerOf l.reg l.peerID = .ok p) (hps : p.score = some ps)
      (hsc : LeashScore l.link l.peerID = .ok score)
      (stop : ¬ (ps > score ∧ l.prevDiff ≠ some ((ps : Int) - score))) :
      SucceedOutcome c l ({ l with
        fc := reset l.fc l.peerID, prevDiff := none, active := false, obj := { l.obj with state := .idle } }, .ok ())
  | stuck (e : Err) (h : Peers.PeerOf l.reg l.peerID = .error (.err e) ∨
      (∃ p, Peers.PeerOf l.reg l.peerID = .ok p) ∧ LeashScore l.link l.peerID = .error (.err e)) :
      SucceedOutcome c l ({ l with fc := reset l.fc l.peerID, obj := { l.obj with state := .idle } }, .ok ())
  | panic (h : Peers.PeerOf l.reg l.peerID = goPanic ∨ LeashScore l.link l.peerID = goPanic ∨
      ∃ p, Peers.PeerOf l.reg l.peerID = .ok p ∧ p.score = none) :
      SucceedOutcome c l ({ l with fc := reset l.fc l.peerID, obj := { l.obj with state := .idle } }, goPanic)

theorem succeed_outcome (c : Ctx) (l : Loader) (h : Quiet l) (ha : l.active = true) : SucceedOutcome c l (succeed c l) := by
  unfold succeed
  have ho := ok_outcome (enter l .idle) ha rfl
  generalize OK (enter l .idle) = r at ho
  cases ho with
  | again p ps score hp hps hsc lag changed =>
    show SucceedOutcome c l (drain c 1 (enqueue { enter l .idle with
      fc := reset l.fc l.peerID, prevDiff := some ((ps : Int) - score), ticking := true } .start))
    rw [drain_start c 0 { enter l .idle with
      fc := reset l.fc l.peerID, prevDiff := some ((ps : Int) - score), ticking := true } h rfl]
    exact .again p ps score hp hps hsc lag changed
  | release p ps score hp hps hsc stop =>
    show SucceedOutcome c l (drain c 1 _)
    rw [drain_quiet c 1 _ (by exact h)]
    exact .release p ps score hp hps hsc stop
  | stuck e he =>
    show SucceedOutcome c l (drain c 1 _)
    rw [drain_quiet c 1 _ (by exact h)]
    exact .stuck e he
  | panic hp => exact .panic hp

theorem frame_succeed (c : Ctx) (l : Loader) (h : Quiet l) (ha : l.active = true) : Frame l (succeed c l).1 := by
  have ho := succeed_outcome c l h ha
  have hfc : ∀ a, a ≠ l.peerID → count (reset l.fc l.peerID) a = count l.fc a := by
    intro a hne; unfold reset; rw [count_setCount, if_neg hne]
  generalize succeed c l = r at ho
  cases ho with
  | again p ps score hp hps hsc lag changed =>
    have hf := frame_requestIDs c { l with
        fc := reset l.fc l.peerID, prevDiff := some ((ps : Int) - score), ticking := true,
        obj := { l.obj with state := .waitingForIDs } }
    exact ⟨hf.peer, hf.reg, fun _ => hf.ticking rfl, hf.active, fun a hne => (hf.fc a hne).trans (hfc a hne), hf.sent⟩
  | release => exact ⟨rfl, rfl, id, (fun h => by cases h), hfc, Or.inl ⟨rfl, rfl⟩⟩
  | stuck => exact ⟨rfl, rfl, id, id, hfc, Or.inl ⟨rfl, rfl⟩⟩
  | panic => exact ⟨rfl, rfl, id, id, hfc, Or.inl ⟨rfl, rfl⟩⟩

theorem frame_fire_ids (c : Ctx) (l : Loader) (ids : List BlockID) (h : Quiet l) (ha : l.active = true) :
    Frame l (fire c l (.ids ids)).1 := by
  by_cases hs : l.obj.state = .waitingForIDs
  · have ho := fire_ids c l ids h hs
    generalize fire c l (.ids ids) = r at ho
    cases ho with
    | failed lk e hr => exact ⟨rfl, rfl, id, id, fun _ _ => rfl, Or.inl ⟨rfl, rfl⟩⟩
    | known lk hr =>
      exact (frame_succeed c { enter l .waitingForBlocks with link := lk } h ha).after rfl rfl rfl rfl rfl rfl rfl
    | asked lk req cn hr hne hc =>
      refine ⟨rfl, rfl, id, id, fun _ _ => rfl, Or.inr ⟨_, ⟨c.now, cn, .getBlock (req.getLast hne)⟩, rfl, ?_, rfl, ?_⟩⟩
      · rw [List.getLast?_map, List.getLast?_eq_some_getLast hne]; rfl
      · intro m hm
        obtain ⟨id, _, rfl⟩ := List.mem_map.mp hm
        exact ⟨hc, rfl⟩
    | panic lk req hr hne hc => exact ⟨rfl, rfl, id, id, fun _ _ => rfl, Or.inl ⟨rfl, rfl⟩⟩
  · rw [fire_ids_other c l ids h hs]; exact Frame.refl l

theorem frame_fire_block (c : Ctx) (l : Loader) (b : Option ProtoBlock) (h : Quiet l) (ha : l.active = true) :
    Frame l (fire c l (.block b)).1 := by
  by_cases hs : l.obj.state = .waitingForBlocks
  · have ho := fire_block c l b h hs
    generalize fire c l (.block b) = r at ho
    cases ho with
    | waiting hr => exact ⟨rfl, rfl, id, id, fun _ _ => rfl, Or.inl ⟨rfl, rfl⟩⟩
    | failed hr lk e hap => exact ⟨rfl, rfl, id, id, fun _ _ => rfl, Or.inl ⟨rfl, rfl⟩⟩
    | complete hr lk hap =>
      exact (frame_succeed c { l with link := lk, obj := { l.obj with queue := putOpt l.obj.queue b } } h ha).after
        rfl rfl rfl rfl rfl rfl rfl
  · rw [fire_block_other c l b h hs]; exact Frame.refl l

/-- how a timeout ends -/
theorem handleFailure_cases (c : Ctx) (l : Loader) (ha : l.active = true) (hs : l.obj.state = .done) :
    (∃ lk e, applyPrefix c l.peerID 0 l.link l.obj.queue = (lk, .error e) ∧
      handleFailure c l = ({ l with link := lk }, .error e)) ∨
    (∃ lk, applyPrefix c l.peerID 0 l.link l.obj.queue = (lk, .ok ()) ∧
      handleFailure c l = ({ l with link := lk, fc := inc l.fc l.peerID, active := false }, .ok ())) := by
  unfold handleFailure
  rcases hr : applyPrefix c l.peerID 0 l.link l.obj.queue with ⟨lk, (e | u)⟩
  · exact Or.inl ⟨lk, e, rfl, rfl⟩
  · refine Or.inr ⟨lk, rfl, ?_⟩
    simp only [Fail]
    rw [if_pos ⟨ha, hs⟩]
    rfl

theorem frame_fire_tick (c : Ctx) (l : Loader) (t : Int) (h : Quiet l) (ha : l.active = true) :
    Frame l (fire c l (.tick t)).1 := by
  by_cases hw : Waiting l
  · rw [fire_tick c l t h hw]
    split
    · rcases handleFailure_cases c (enter l .done) ha rfl with ⟨lk, e, _, he⟩ | ⟨lk, _, he⟩
      · rw [he]; exact ⟨rfl, rfl, id, id, fun _ _ => rfl, Or.inl ⟨rfl, rfl⟩⟩
      · rw [he]
        refine ⟨rfl, rfl, id, (fun h => by cases h), ?_, Or.inl ⟨rfl, rfl⟩⟩
        intro a hne
        show count (inc l.fc l.peerID) a = _
        unfold inc; rw [count_setCount, if_neg hne]
    · exact Frame.refl l
  · rw [fire_tick_resting c l t h hw]; exact Frame.refl l

/-! ### queue -/

theorem requestIDs_queue (c : Ctx) (l : Loader) : (requestIDs c l).1.obj.queue = l.obj.queue := by
  rcases requestIDs_cases c l with ⟨e, he⟩ | ⟨_, _, cn, _, _, hc, _, he⟩ <;> rw [he] <;> rfl

theorem requestIDsFromLCA_queue (c : Ctx) (l : Loader) : (requestIDsFromLCA c l).1.obj.queue = l.obj.queue := by
  rcases requestIDsFromLCA_cases c l with ⟨e, he⟩ | ⟨_, _, cn, _, _, hc, _, he⟩ <;> rw [he] <;> rfl

theorem succeed_queue (c : Ctx) (l : Loader) (h : Quiet l) (ha : l.active = true) :
    (succeed c l).1.obj.queue = l.obj.queue := by
  have ho := succeed_outcome c l h ha
  generalize succeed c l = r at ho
  cases ho with
  | again => rw [requestIDs_queue]
  | release => rfl
  | stuck => rfl
  | panic => rfl

theorem matching_fire_ids (c : Ctx) (l : Loader) (ids : List BlockID) (h : Quiet l) (ha : l.active = true)
    (hm : Matching l.obj.queue) : Matching (fire c l (.ids ids)).1.obj.queue := by
  by_cases hs : l.obj.state = .waitingForIDs
  · have ho := fire_ids c l ids h hs
    generalize fire c l (.ids ids) = r at ho
    cases ho with
    | failed lk e hr => exact hm
    | known lk hr => rw [succeed_queue c { enter l .waitingForBlocks with link := lk } h ha]; exact hm
    | asked lk req cn hr hne hc => exact Matching.newQueue req
    | panic lk req hr hne hc => exact Matching.newQueue req
  · rw [fire_ids_other c l ids h hs]; exact hm

theorem matching_fire_block (c : Ctx) (l : Loader) (b : Option ProtoBlock) (h : Quiet l) (ha : l.active = true)
    (hm : Matching l.obj.queue) : Matching (fire c l (.block b)).1.obj.queue := by
  by_cases hs : l.obj.state = .waitingForBlocks
  · have ho := fire_block c l b h hs
    generalize fire c l (.block b) = r at ho
    cases ho with
    | waiting hr => exact hm.putOpt b
    | failed hr lk e hap => exact hm.putOpt b
    | complete hr lk hap =>
      rw [succeed_queue c { l with link := lk, obj := { l.obj with queue := putOpt l.obj.queue b } } h ha]
      exact hm.putOpt b
  · rw [fire_block_other c l b h hs]; exact hm

theorem queue_fire_tick (c : Ctx) (l : Loader) (t : Int) (h : Quiet l) (ha : l.active = true) :
    (fire c l (.tick t)).1.obj.queue = l.obj.queue := by
  by_cases hw : Waiting l
  · rw [fire_tick c l t h hw]
    split
    · rcases handleFailure_cases c (enter l .done) ha rfl with ⟨lk, e, _, he⟩ | ⟨lk, _, he⟩ <;> rw [he] <;> rfl
    · rfl
  · rw [fire_tick_resting c l t h hw]

/-! ### choosing a peer -/

theorem logged_ok {r : Loader × Go Unit} {l' : Loader} (h : logged r = .ok l') : l' = r.1 ∧ r.2 ≠ goPanic := by
  obtain ⟨l, x⟩ := r
  unfold logged at h
  simp only at h
  split at h
  · cases h
  · rename_i hne
    cases h
    exact ⟨rfl, fun e => hne e⟩

theorem connectionsLoop_mem {r : Registry} (I : Peers.Inv r) : ∀ (l : List (Addr × Conn)), (∀ x, x ∈ l → x ∈ r.connections) →
    ∀ ps, Peers.connectionsLoop r.db l = .ok ps → ∀ p, p ∈ ps →
      ∃ b v cn, p = { v.toPeer (.v4 b) with conn := some cn } ∧ Peers.view r.db b = some v ∧ (Addr.v4 b, cn) ∈ r.connections := by
  intro l
  induction l with
  | nil => intro _ ps h p hp; cases h; cases hp
  | cons x l ih =>
    intro hsub ps h p hp
    obtain ⟨a, cn⟩ := x
    have hm := hsub (a, cn) (by simp)
    obtain ⟨b, rfl⟩ := Peers.is4_iff.mp (I.ipv4 a cn hm).1
    rw [Peers.connectionsLoop] at h
    cases hpe : Peers.peer r.db (.v4 b) with
    | error e => rw [hpe] at h; cases h
    | ok sp =>
      rw [hpe] at h
      simp only [go_bind_ok] at h
      cases hl : Peers.connectionsLoop r.db l with
      | error e => rw [hl] at h; cases h
      | ok rest =>
        rw [hl] at h
        cases h
        rcases List.mem_cons.mp hp with rfl | hp
        · obtain ⟨v, hv, rfl⟩ := I.good.peer_v4_ok hpe
          exact ⟨b, v, cn, rfl, hv, hm⟩
        · exact ih (fun x hx => hsub x (List.mem_cons_of_mem _ hx)) rest hl p hp

/-- the peers that `Connections` returns -/
theorem connections_mem {lib : Lib} {env : Env} {r : Registry} (I : Peers.Inv r) {ps : List Peer}
    (h : Peers.Connections lib env r = .ok ps) (p : Peer) (hp : p ∈ ps) :
    ∃ b v cn, p = { v.toPeer (.v4 b) with conn := some cn } ∧ Peers.view r.db b = some v ∧ (Addr.v4 b, cn) ∈ r.connections := by
  unfold Peers.Connections at h
  cases hl : Peers.connectionsLoop r.db (env.mapOrder r.connections) with
  | error e => rw [hl] at h; cases h
  | ok rest =>
    rw [hl] at h
    cases h
    exact connectionsLoop_mem I _ (fun x hx => (env.mapOrder_perm _).mem_iff.mp hx) rest hl p
      ((env.sort_perm _ _).mem_iff.mp hp)

/-- the loader after a peer was chosen -/
def chosen (l : Loader) (p : Peer) : Loader := { l with active := true, obj := newPeerLoader p, ticking := true }

/-- how `sync` ends -/
inductive SyncOutcome (lib : Lib) (c : Ctx) (l : Loader) : Go Loader → Prop where
  | busy (h : l.active = true) : SyncOutcome lib c l (.ok l)
  | unlisted (h : l.active = false) (e : Err) (hc : Peers.Connections lib c.env l.reg = .error (.err e)) : SyncOutcome lib c l (.ok l)
  | panic (h : l.active = false) (hc : Peers.Connections lib c.env l.reg = goPanic) : SyncOutcome lib c l goPanic
  | nobody (h : l.active = false) (ps : List Peer) (hc : Peers.Connections lib c.env l.reg = .ok ps)
      (hl : ∀ p, p ∈ ps → lagging l.link p = false) : SyncOutcome lib c l (.ok l)
  | start (h : l.active = false) (ps : List Peer) (hc : Peers.Connections lib c.env l.reg = .ok ps) (p : Peer) (hp : p ∈ ps)
      (hl : lagging l.link p = true) (hn : count l.fc p.addr < restartThreshold)
      (hi : goIndex (ps.filter (lagging l.link)) (c.rand (ps.filter (lagging l.link)).length % (ps.filter (lagging l.link)).length) = .ok p) :
      SyncOutcome lib c l (logged (startNow c (chosen l p)))
  | restart (h : l.active = false) (ps : List Peer) (hc : Peers.Connections lib c.env l.reg = .ok ps) (p : Peer) (hp : p ∈ ps)
      (hl : lagging l.link p = true) (hn : count l.fc p.addr ≥ restartThreshold)
      (hi : goIndex (ps.filter (lagging l.link)) (c.rand (ps.filter (lagging l.link)).length % (ps.filter (lagging l.link)).length) = .ok p) :
      SyncOutcome lib c l
        (logged (requestIDsFromLCA c (enter { chosen l p with fc := reset l.fc p.addr } .waitingForIDs)))

theorem goIndex_mod {α : Type} (l : List α) (k : Nat) (h : l ≠ []) : ∃ a, a ∈ l ∧ goIndex l (k % l.length) = .ok a := by
  have hpos : 0 < l.length := List.length_pos_iff.mpr h
  have hlt : k % l.length < l.length := Nat.mod_lt _ hpos
  refine ⟨l[k % l.length], List.getElem_mem hlt, ?_⟩
  unfold goIndex
  rw [List.getElem?_eq_getElem hlt]

theorem sync_outcome (lib : Lib) (c : Ctx) (l : Loader) : SyncOutcome lib c l (sync lib c l) := by
  unfold sync
  cases ha : l.active with
  | true => simp only [if_true]; exact .busy ha
  | false =>
    simp only [Bool.false_eq_true, if_false]
    cases hc : Peers.Connections lib c.env l.reg with
    | error e =>
      cases e with
      | panic => exact .panic ha hc
      | err e => exact .unlisted ha e hc
    | ok ps =>
      simp only
      by_cases hlag : ps.filter (lagging l.link) = []
      · rw [if_pos hlag]
        refine .nobody ha ps hc (fun p hp => ?_)
        rw [List.filter_eq_nil_iff] at hlag
        simpa using hlag p hp
      · rw [if_neg hlag]
        obtain ⟨p, hp, hi⟩ := goIndex_mod _ (c.rand (ps.filter (lagging l.link)).length) hlag
        obtain ⟨hp1, hp2⟩ := List.mem_filter.mp hp
        rw [hi]
        simp only [go_bind_ok]
        by_cases hn : count l.fc p.addr ≥ restartThreshold
        · simp only [hn, if_true]
          have hr : restartSync c { l with active := true, obj := newPeerLoader p } =
              logged (requestIDsFromLCA c (enter { chosen l p with fc := reset l.fc p.addr } .waitingForIDs)) := by
            unfold restartSync
            have := fire_restart c { chosen l p with fc := reset l.fc p.addr } rfl rfl
            exact congrArg logged this
          rw [hr]
          have ho : SyncOutcome lib c l
            (logged (requestIDsFromLCA c (enter { chosen l p with fc := reset l.fc p.addr } .waitingForIDs))) :=
              .restart ha ps hc p hp1 hp2 hn hi
          -- the start trigger that follows is ignored
          suffices hs : (logged (requestIDsFromLCA c (enter { chosen l p with fc := reset l.fc p.addr } .waitingForIDs)) >>=
              fun l => continueSync c l) =
              logged (requestIDsFromLCA c (enter { chosen l p with fc := reset l.fc p.addr } .waitingForIDs)) by
            rw [hs]; exact ho
          have key : ∀ x : Loader, Quiet x → x.obj.state = .waitingForIDs → x.active = true → x.ticking = true →
              continueSync c x = .ok x := by
            intro x hq hst hact htk
            unfold continueSync
            rw [if_pos hact]
            have hx : { x with ticking := true } = x := by cases x; simp only at htk; rw [htk]
            rw [hx, fire_ignored c x .start hq (by rw [hst]; rfl)]
            rfl
          rcases requestIDsFromLCA_cases c (enter { chosen l p with fc := reset l.fc p.addr } .waitingForIDs) with
            ⟨e, he⟩ | ⟨_, _, _, _, _, _, _, he⟩
          · rw [he]
            cases e with
            | panic => rfl
            | err e => simp only [logged, go_bind_ok]; apply key <;> rfl
          · rw [he]; simp only [logged, go_bind_ok]; apply key <;> rfl
        · simp only [hn, if_false]
          have hr : continueSync c { l with active := true, obj := newPeerLoader p } = logged (startNow c (chosen l p)) := by
            unfold continueSync
            rw [if_pos rfl]
            exact congrArg logged (fire_start c (chosen l p) rfl rfl)
          rw [hr]
          exact .start ha ps hc p hp1 hp2 (by omega) hi

theorem with_conns : ∀ (l : List Peer), (∀ p, p ∈ l → p.conn ≠ none) →
    ∃ as : List (Addr × Conn), l.map (fun p => (p.addr, p.conn)) = as.map (fun x => (x.1, some x.2))
  | [], _ => ⟨[], rfl⟩
  | p :: l, h => by
    obtain ⟨as, ha⟩ := with_conns l (fun q hq => h q (List.mem_cons_of_mem _ hq))
    obtain ⟨cn, hc⟩ := Option.ne_none_iff_exists'.mp (h p List.mem_cons_self)
    exact ⟨(p.addr, cn) :: as, by simp [ha, hc]⟩

/-! ### the invariant -/

/-- the peer is on record with a score -/
def Scored (r : Registry) (a : Addr) : Prop := ∃ b v s, a = .v4 b ∧ Peers.view r.db b = some v ∧ v.score = some s

/-- the last message was sent when the timestamp was taken, to the current peer -/
def Stamped (l : Loader) : Prop := ∃ s, l.out.getLast? = some s ∧ s.time = l.obj.timestamp ∧ l.obj.peer.conn = some s.to

structure Inv (lib : Lib) (l : Loader) : Prop where
  quiet : Quiet l
  reg : Peers.Reachable lib l.reg
  ticking : l.active = true → l.ticking = true
  conn : l.active = true → l.obj.peer.conn ≠ none
  scored : l.active = true → Scored l.reg l.peerID
  matching : Matching l.obj.queue
  stamp : l.active = true → l.obj.timestamp = zeroTime ∨ Stamped l

theorem Inv.start {lib : Lib} {reg : Registry} {lk : Linkage} (h : Peers.Reachable lib reg) : Inv lib (NewLoader reg lk) :=
  ⟨rfl, h, (fun h => by cases h), (fun h => by cases h), (fun h => by cases h), (fun it hit => by cases hit), (fun h => by cases h)⟩

theorem scored_step {lib : Lib} {r : Registry} {e : Peers.Event} (I : Peers.Inv r) {a : Addr} (h : Scored r a) :
    Scored (Peers.step lib r e) a := by
  obtain ⟨b, v, s, rfl, hv, hs⟩ := h
  have keep : Scored r (.v4 b) := ⟨b, v, s, rfl, hv, hs⟩
  have hon : Peers.onFile r (.v4 b) = v.toPeer (.v4 b) := by rw [Peers.onFile_v4 I.good, hv]
  rcases Peers.step_view (lib := lib) (e := e) I.good b with h | ⟨v', h, w⟩
  · exact ⟨b, v, s, rfl, h.trans hv, hs⟩
  · suffices ∃ s', v'.score = some s' by
      obtain ⟨s', hs'⟩ := this
      exact ⟨b, v', s', rfl, h, hs'⟩
    have old' : ∀ v0, Peers.view r.db b = some v0 → v0 = v := by intro v0 h0; rw [hv] at h0; cases h0; rfl
    cases w with
    | connected f np hh op acc name applied eq =>
      subst eq
      refine ⟨s, ?_⟩
      simp only [Peers.acceptedPeer, Peers.Peer.toValue, hon, Peers.Value.toPeer, hs]
    | shut f np hh op rej v0 old name eq => cases old' v0 old; subst eq; exact ⟨s, hs⟩
    | left f op v0 old eq => cases old' v0 old; subst eq; exact ⟨s, hs⟩
    | marked f op name eq =>
      subst eq
      exact ⟨s, by simp only [Peers.Peer.toValue, hon, Peers.Value.toPeer, hs]⟩
    | scored f s' op v0 old eq => subst eq; exact ⟨s', rfl⟩
    | first f op old ver best eq => rw [hv] at old; cases old
    | again f op v0 old state ver next eq => cases old' v0 old; subst eq; exact ⟨s, hs⟩
    | added fs l op old port acc mem eq => rw [hv] at old; cases old

theorem Inv.frame {lib : Lib} {l l' : Loader} (I : Inv lib l) (F : Frame l l') (hq : Quiet l') (hm : Matching l'.obj.queue) :
    Inv lib l' := by
  refine ⟨hq, F.reg ▸ I.reg, fun h => F.ticking (I.ticking (F.active h)), fun h => F.peer ▸ I.conn (F.active h), ?_, hm, ?_⟩
  · intro h
    rw [F.peerID, F.reg]; exact I.scored (F.active h)
  · intro h
    rcases F.sent with ⟨h1, h2⟩ | ⟨ms, s, h1, h2, h3, h4⟩
    · rcases I.stamp (F.active h) with hz | ⟨s, a, b, c⟩
      · exact Or.inl (h2.trans hz)
      · exact Or.inr ⟨s, h1 ▸ a, b.trans h2.symm, F.peer ▸ c⟩
    · refine Or.inr ⟨s, ?_, h3.symm, F.peer ▸ (h4 s (List.mem_of_getLast? h2)).1⟩
      rw [h1, List.getLast?_append, h2]; rfl

theorem Inv.others {lib : Lib} {l l' : Loader} (I : Inv lib l) {r : Linkage × Go Unit} (h : Loading.others l r = .ok l') :
    Inv lib l' ∧ l' = { l with link := r.1 } := by
  have : l' = { l with link := r.1 } := by
    unfold Loading.others at h
    split at h
    · cases h
    · cases h; rfl
  subst this
  exact ⟨⟨I.quiet, I.reg, I.ticking, I.conn, I.scored, I.matching, I.stamp⟩, rfl⟩

/-- a freshly chosen peer -/
theorem Inv.chosen {lib : Lib} {c : Ctx} {l : Loader} (I : Inv lib l) {ps : List Peer}
    (hc : Peers.Connections lib c.env l.reg = .ok ps) {p : Peer} (hp : p ∈ ps) (hl : lagging l.link p = true) (m : FailureCounter) :
    Inv lib { chosen l p with fc := m } := by
  obtain ⟨b, v, cn, rfl, hv, hcn⟩ := connections_mem I.reg.inv hc p hp
  refine ⟨rfl, I.reg, fun _ => rfl, fun _ => by simp [Loading.chosen, newPeerLoader], ?_, (fun it hit => by cases hit), fun _ => Or.inl rfl⟩
  intro _
  unfold lagging at hl
  cases hs : v.score with
  | none => simp [Peers.Value.toPeer, hs] at hl
  | some s => exact ⟨b, v, s, rfl, hv, hs⟩

theorem Inv.enter {lib : Lib} {l : Loader} (I : Inv lib l) (s : State) : Inv lib (enter l s) :=
  ⟨I.quiet, I.reg, I.ticking, I.conn, I.scored, I.matching, I.stamp⟩

theorem Inv.step {lib : Lib} {l l' : Loader} {e : Event} (I : Inv lib l) (h : step lib l e = .ok l') : Inv lib l' := by
  obtain ⟨c, op⟩ := e
  cases op with
  | ids peer ids =>
    simp only [Loading.step, handleIDs] at h
    split at h
    · cases h; exact I
    · rename_i ha
      split at h
      · cases h; exact I
      · split at h
        · cases h; exact I
        · obtain ⟨rfl, _⟩ := logged_ok h
          have ha : l.active = true := by simpa using ha
          exact I.frame (frame_fire_ids c l ids I.quiet ha) (quiet_fire_ids c l ids I.quiet)
            (matching_fire_ids c l ids I.quiet ha I.matching)
  | block peer b =>
    simp only [Loading.step, handleBlock] at h
    split at h
    · cases h; exact I
    · rename_i ha
      split at h
      · cases h; exact I
      · obtain ⟨rfl, _⟩ := logged_ok h
        have ha : l.active = true := by simpa using ha
        exact I.frame (frame_fire_block c l b I.quiet ha) (quiet_fire_block c l b I.quiet)
          (matching_fire_block c l b I.quiet ha I.matching)
  | tick =>
    simp only [Loading.step, tick] at h
    split at h
    · rename_i ha
      obtain ⟨rfl, _⟩ := logged_ok h
      refine I.frame (frame_fire_tick c l c.now I.quiet ha) (quiet_fire_tick c l c.now I.quiet) ?_
      rw [queue_fire_tick c l c.now I.quiet ha]; exact I.matching
    · cases h; exact I
  | timer =>
    simp only [Loading.step] at h
    have ho := sync_outcome lib c l
    rw [h] at ho
    generalize hr : (Except.ok l' : Go Loader) = r at ho
    cases ho with
    | busy _ => cases hr; exact I
    | unlisted _ _ _ => cases hr; exact I
    | panic _ _ => cases hr
    | nobody _ _ _ _ => cases hr; exact I
    | start _ ps hc p hp hl hn =>
      obtain ⟨rfl, _⟩ := logged_ok hr.symm
      have J := I.chosen hc hp hl l.fc
      refine J.frame (frame_startNow c (Loading.chosen l p)) (quiet_startNow c _ rfl) ?_
      show Matching (requestIDs c (Loading.enter (Loading.chosen l p) .waitingForIDs)).1.obj.queue
      rw [requestIDs_queue]; exact J.matching
    | restart _ ps hc p hp hl hn =>
      obtain ⟨rfl, _⟩ := logged_ok hr.symm
      have J := (I.chosen hc hp hl (reset l.fc p.addr)).enter .waitingForIDs
      refine J.frame (frame_requestIDsFromLCA c _) (quiet_requestIDsFromLCA c _ rfl) ?_
      rw [requestIDsFromLCA_queue]; exact J.matching
  | putBlock b a f1 f2 => exact (I.others h).1
  | putMicro inv a f1 f2 => exact (I.others h).1
  | registry ev =>
    simp only [Loading.step] at h
    cases h
    exact ⟨I.quiet, I.reg.step ev, I.ticking, I.conn, fun ha => scored_step I.reg.inv (I.scored ha), I.matching, I.stamp⟩

theorem Inv.exec {lib : Lib} {l l' : Loader} (I : Inv lib l) (es : List Event) (h : exec lib l es = .ok l') : Inv lib l' := by
  induction es generalizing l with
  | nil => cases h; exact I
  | cons e es ih =>
    rw [Loading.exec] at h
    cases hs : Loading.step lib l e with
    | error x => rw [hs] at h; cases h
    | ok l1 => rw [hs] at h; exact ih (I.step hs) h

theorem Reachable.inv {lib : Lib} {l : Loader} (h : Reachable lib l) : Inv lib l := by
  obtain ⟨reg, lk, es, hr, he⟩ := h
  exact (Inv.start hr).exec es he

end Verif.Loading
