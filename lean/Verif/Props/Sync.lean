import Verif.Loading.Outcomes
import Verif.Loading.Examples
/-
Properties C46, C48 to C51 and C61: the course of synchronisations.
-/

set_option autoImplicit false

namespace Verif.Loading

open Verif
open Verif.Chains (Addr BlockID ProtoBlock Linkage Env LeashOf LCB)
open Verif.Chains.Spec (Stored)
open Verif.Peers (Lib second)

/-! ### C46 -/

/-- The claim fails: a loader whose current peer is in state `Done` or `Idle` stays so whatever happens, with the same
peer and without sending anything. -/
theorem C46_stuck {lib : Lib} {l : Loader} (R : Reachable lib l) (ha : l.active = true)
    (hs : l.obj.state = .done ∨ l.obj.state = .idle) (es : List Event) (l' : Loader) (he : exec lib l es = .ok l') :
    l'.active = true ∧ l'.obj = l.obj ∧ l'.out = l.out := by
  have F := frozen_exec es R.inv ha hs he
  exact ⟨F.active, F.obj, F.out⟩

open Chains.Ex in
/-- One peer is enough to get there: it announces a high score, answers with an unknown id, sends the block of that id
without an ancestor, and falls silent. -/
theorem C46_one_peer :
    let l := Ex.after (Ex.asked ++ [Ex.at_ 101 (.ids Ex.peer [bid 9]), Ex.at_ 102 (.block Ex.peer (some (blk 9 8))),
      Ex.at_ 140 .tick])
    Reachable Peers.Ex.lib l ∧ l.active = true ∧ l.obj.state = .done :=
  ⟨Ex.reach _, by decide +kernel, by decide +kernel⟩

/-- What holds: ticks come as long as a synchronisation runs. -/
theorem C46_ticks_partial {lib : Lib} {l : Loader} (R : Reachable lib l) (ha : l.active = true) : l.ticking = true :=
  R.inv.ticking ha

/-- A peer that does not answer the request for ids is released by a late tick, if the writes succeed. -/
theorem C46_ids_partial {g : ProtoBlock} {n : Nat} {lib : Lib} {l : Loader} (R : Running lib g (n + l.obj.queue.length) l)
    (ha : l.active = true) (hs : l.obj.state = .waitingForIDs) (c : Ctx) (hf : ∀ j, c.fates j = .ok)
    (hlate : c.now - l.obj.timestamp > 30 * second) :
    ∃ l', step lib l ⟨c, .tick⟩ = .ok l' ∧ l'.active = false ∧ l'.out = l.out := by
  have I := R.reachable.inv
  have hlen : (l.obj.queue.takeWhile (fun it => it.received.isSome)).length ≤ l.obj.queue.length :=
    (List.takeWhile_sublist _).length_le
  obtain ⟨lk, a1⟩ := applyAll_known (g := g) (n := n) c l.peerID 0 hf
    (l.obj.queue.takeWhile (fun it => it.received.isSome)) (R.serving.mono (by omega)) (by
      intro it hit
      obtain ⟨b, hb⟩ := Option.isSome_iff_exists.mp (of_takeWhile (p := fun (it : Item) => it.received.isSome) hit)
      exact ⟨b, hb, R.held hs it ((List.takeWhile_sublist _).mem hit) b hb⟩)
  rw [← applyPrefix_eq c l.peerID 0 l.link l.obj.queue I.matching] at a1
  simp only [step, tick, ha, if_true]
  rw [fire_tick c l c.now I.quiet (Or.inl hs), if_pos (by unfold timeoutDuration; exact hlate)]
  rcases handleFailure_cases c (enter l .done) ha rfl with ⟨lk', e, h, _⟩ | ⟨lk', h, h'⟩
  · have := a1.symm.trans h; cases this
  · rw [h']; exact ⟨_, rfl, rfl, rfl⟩

/-- A peer that does not send all requested blocks is released by a late tick, if the writes succeed and the store
accepts the received blocks before the first missing one.  `C46_one_peer` shows that the last hypothesis is needed. -/
theorem C46_blocks_partial {g : ProtoBlock} {n : Nat} {lib : Lib} {l : Loader} (R : Reachable lib l)
    (ha : l.active = true) (hs : l.obj.state = .waitingForBlocks) (c : Ctx) (hf : ∀ j, c.fates j = .ok)
    (hlate : c.now - l.obj.timestamp > 30 * second) (bs : List ProtoBlock)
    (hb : (l.obj.queue.takeWhile (fun it => it.received.isSome)).map (·.received) = bs.map some)
    (S : Serving g (n + bs.length) l.link) (hc : Chained (Stored l.link.db) bs) :
    ∃ l', step lib l ⟨c, .tick⟩ = .ok l' ∧ l'.active = false ∧ l'.out = l.out := by
  have I := R.inv
  obtain ⟨lk, a1, _, _⟩ := applyAll_chained c l.peerID 0 hf _ bs hb S hc
  rw [← applyPrefix_eq c l.peerID 0 l.link l.obj.queue I.matching] at a1
  simp only [step, tick, ha, if_true]
  rw [fire_tick c l c.now I.quiet (Or.inr hs), if_pos (by unfold timeoutDuration; exact hlate)]
  rcases handleFailure_cases c (enter l .done) ha rfl with ⟨lk', e, h, _⟩ | ⟨lk', h, h'⟩
  · have := a1.symm.trans h; cases this
  · rw [h']; exact ⟨_, rfl, rfl, rfl⟩

open Chains.Ex in
/-- a loader that waits for ids with a batch behind it, and one that waits for blocks -/
example :
    let l := Ex.after (Ex.asked ++ [Ex.at_ 101 (.ids Ex.peer [bid 1]), Ex.at_ 102 (.block Ex.peer (some (blk 1 0)))])
    let m := Ex.after (Ex.listed ++ [Ex.at_ 102 (.block Ex.peer (some (blk 1 0)))])
    Running Peers.Ex.lib g0 (10 + l.obj.queue.length) l ∧ l.active = true ∧ l.obj.state = .waitingForIDs ∧
    l.obj.queue ≠ [] ∧ (Ex.ctx 200).now - l.obj.timestamp > 30 * second ∧
    Reachable Peers.Ex.lib m ∧ m.active = true ∧ m.obj.state = .waitingForBlocks ∧
    (m.obj.queue.takeWhile (fun it => it.received.isSome)).map (·.received) = [blk 1 0].map some ∧
    Serving g0 (10 + 1) m.link ∧ Chained (Stored m.link.db) [blk 1 0] ∧
    (Ex.ctx 200).now - m.obj.timestamp > 30 * second := by
  refine ⟨Ex.running _ _ (by decide +kernel), by decide +kernel, by decide +kernel, by decide +kernel, by decide +kernel,
    Ex.reach _, by decide +kernel, by decide +kernel, by decide +kernel, (Ex.running _ _ (by decide +kernel)).serving, ?_,
    by decide +kernel⟩
  refine ⟨by decide +kernel, by decide +kernel, Or.inr ?_, trivial⟩
  unfold Stored; decide +kernel

/-! ### C48 -/

/-- A synchronisation is started with a peer that failed fewer than ten times: one message is sent, to the peer, asking
for the ids that follow the last hundred ids up to its leash. -/
theorem C48_start {g : ProtoBlock} {n : Nat} {lib : Lib} {l l' : Loader} (R : Reachable lib l) (S : Serving g n l.link)
    (hn : l.active = false) (c : Ctx) (h : step lib l ⟨c, .timer⟩ = .ok l') (ha : l'.active = true)
    (hk : count l.fc l'.peerID < 10) :
    ∃ leash ids cn m, LeashOf l.link l'.peerID = .ok leash ∧ LastHundred l.link.db leash ids ∧
      l'.obj.peer.conn = some cn ∧ AsksIDs cn ids m ∧ l'.out = l.out ++ [⟨c.now, cn, m⟩] ∧
      l'.obj.state = .waitingForIDs ∧ l'.link = l.link := by
  obtain ⟨_, ps, p, hc, hp, hl, hpe, hlk, _, _, hor⟩ := started R hn h ha
  have hid : l'.peerID = p.addr := by unfold Loader.peerID; rw [hpe]
  rcases hor with ⟨_, hr, _⟩ | ⟨hk', _⟩
  · have hcn : p.conn ≠ none := by
      obtain ⟨_, _, _, rfl, _, _⟩ := connections_mem R.inv.reg.inv hc p hp; simp
    obtain ⟨leash, ids, cn, m, h1, h2, h3, h4, h5⟩ :=
      requestIDs_serving c (enter (chosen l p) .waitingForIDs) S hcn
    rw [h5] at hr
    cases hr
    exact ⟨leash, ids, cn, m, h1, h2, h3, h4, rfl, rfl, rfl⟩
  · rw [hid] at hk; omega

/-- After ten failures or more the request starts from the last common block, if the search for it does not crash the
program (`C48_crash`); the request from the leash is not sent. -/
theorem C48_restart_partial {g : ProtoBlock} {n : Nat} {lib : Lib} {l l' : Loader} (R : Reachable lib l) (S : Serving g n l.link)
    (hn : l.active = false) (c : Ctx) (h : step lib l ⟨c, .timer⟩ = .ok l') (ha : l'.active = true)
    (hk : count l.fc l'.peerID ≥ 10) :
    ∃ lcb ids cn m, LCB c.env l.link l'.peerID = .ok lcb ∧ LastHundred l.link.db lcb ids ∧
      l'.obj.peer.conn = some cn ∧ AsksIDs cn ids m ∧ l'.out = l.out ++ [⟨c.now, cn, m⟩] ∧
      l'.obj.state = .waitingForIDs ∧ l'.link = l.link := by
  obtain ⟨_, ps, p, hc, hp, hl, hpe, hlk, _, _, hor⟩ := started R hn h ha
  have hid : l'.peerID = p.addr := by unfold Loader.peerID; rw [hpe]
  rcases hor with ⟨hk', _⟩ | ⟨_, hr, _⟩
  · rw [hid] at hk; omega
  · obtain ⟨b, v, cn', hpb, _, _⟩ := connections_mem R.inv.reg.inv hc p hp
    have hcn : p.conn ≠ none := by rw [hpb]; simp
    have hpa : p.addr = .v4 b := by rw [hpb]; rfl
    rcases S.lcb c.env b with hpan | ⟨lcb, hok, hst⟩
    · exfalso
      have : requestIDsFromLCA c (enter { chosen l p with fc := reset l.fc p.addr } .waitingForIDs) =
          (enter { chosen l p with fc := reset l.fc p.addr } .waitingForIDs, goPanic) := by
        unfold requestIDsFromLCA
        have hx : LCB c.env (enter { chosen l p with fc := reset l.fc p.addr } .waitingForIDs).link
            (enter { chosen l p with fc := reset l.fc p.addr } .waitingForIDs).peerID = goPanic := by
          show LCB c.env l.link p.addr = goPanic
          rw [hpa]; exact hpan
        rw [hx]; rfl
      rw [this] at hr
      cases hr
    · have hx : LCB c.env l.link p.addr = .ok lcb := by rw [hpa]; exact hok
      obtain ⟨ids, cn, m, h2, h3, h4, h5⟩ :=
        requestIDsFromLCA_serving c (enter { chosen l p with fc := reset l.fc p.addr } .waitingForIDs) S hcn lcb hx hst
      rw [h5] at hr
      cases hr
      exact ⟨lcb, ids, cn, m, hx, h2, h3, h4, rfl, rfl, rfl⟩

/-- the peer fails ten times -/
def Ex.tenFailures : List Event :=
  (List.range 10).flatMap (fun (i : Nat) => [Ex.at_ (1000 + 100 * i) .timer, Ex.at_ (1040 + 100 * i) .tick])

open Chains.Ex in
/-- The eleventh start crashes the program if the search for the last common block does (see `C14_panics`). -/
theorem C48_crash :
    let l := Ex.after ([Ex.at_ 1 (.putBlock (blk 1 0) Ex.peer .ok .ok), Ex.at_ 1 (.putBlock (blk 2 1) Ex.peer .ok .ok),
      Ex.at_ 1 (.putBlock (blk 3 2) Ex.peer .ok .ok), Ex.at_ 1 (.putBlock (blk 4 3) Ex.peer .ok .ok),
      Ex.at_ 1 (.putBlock (blk 5 4) Ex.peer .ok .ok), Ex.at_ 1 (.putBlock (blk 11 0) Ex.peer3 .ok .ok),
      Ex.at_ 1 (.putBlock (blk 12 11) Ex.peer3 .ok .ok), Ex.at_ 1 (.putBlock (blk 13 12) Ex.peer3 .ok .ok),
      Ex.at_ 1 (.putBlock (blk 14 13) Ex.peer3 .ok .ok), Ex.at_ 1 (.putBlock (blk 15 14) Ex.peer3 .ok .ok),
      Ex.at_ 1 (.putBlock (blk 16 15) Ex.peer3 .ok .ok)]
      ++ Ex.tenFailures)
    Running Peers.Ex.lib g0 0 l ∧ l.active = false ∧ count l.fc Ex.peer = 10 ∧
    (step Peers.Ex.lib l (Ex.at_ 3000 .timer)).map (·.active) = goPanic :=
  ⟨Ex.running _ _ (by decide +kernel), by decide +kernel, by decide +kernel, by decide +kernel⟩

/-- a start and a restart -/
example :
    let l := Ex.after Ex.tenFailures
    Reachable Peers.Ex.lib Ex.start ∧ Serving Chains.Ex.g0 0 Ex.start.link ∧ Ex.start.active = false ∧
    (step Peers.Ex.lib Ex.start (Ex.at_ 100 .timer)).map (fun l' => (l'.active, l'.out.length)) = .ok (true, 1) ∧
    Running Peers.Ex.lib Chains.Ex.g0 0 l ∧ l.active = false ∧ count l.fc Ex.peer = 10 ∧
    (step Peers.Ex.lib l (Ex.at_ 3000 .timer)).map (fun l' => (l'.active, l'.peerID, l'.out.length - l.out.length)) =
      .ok (true, Ex.peer, 1) :=
  ⟨Ex.reach [], Ex.serving 0 (by decide), by decide +kernel, by decide +kernel, Ex.running _ _ (by decide +kernel),
    by decide +kernel, by decide +kernel, by decide +kernel⟩

/-! ### C49 -/

/-- A batch is completed: the peer is asked for more iff its announced score still exceeds the score of its leash and the
difference is not the remembered one; otherwise the peer is released.  Missing for the full claim: the remembered
difference may come from an earlier synchronisation that failed (`C49_leftover`). -/
theorem C49_partial {g : ProtoBlock} {n : Nat} {lib : Lib} {l : Loader} (R : Reachable lib l)
    (S : Serving g (n + l.obj.queue.length) l.link) (ha : l.active = true) (c : Ctx) (hf : ∀ j, c.fates j = .ok) (op : Op)
    (hc : Completes l op) :
    ∃ l' s leash score, step lib l ⟨c, op⟩ = .ok l' ∧ Announced l'.reg l.peerID s ∧ OnLeash l'.link l.peerID leash score ∧
      (s > score ∧ l.prevDiff ≠ some ((s : Int) - score) → Continued c.now l l' s leash score) ∧
      (¬ (s > score ∧ l.prevDiff ≠ some ((s : Int) - score)) → Released l l') := by
  obtain ⟨lk, q, h1, h2, h3⟩ := completes_succeed R.inv ha S c hf hc
  obtain ⟨l', s, leash, score, e1, e2, e3, e4, e5, e6, e7, e8, e9⟩ :=
    succeed_serving c { l with link := lk, obj := { l.obj with state := .waitingForBlocks, queue := q } }
      (((R.inv.withLink lk).withQueue q h3).enter .waitingForBlocks) ha h2
  refine ⟨l', s, leash, score, by rw [h1, e1]; rfl, e3 ▸ e6, e2 ▸ e7, fun h => ?_, fun h => ?_⟩
  · have := e8 h
    exact ⟨this.active, this.state, this.peer, this.stamp, this.diff, this.sent⟩
  · have := e9 h
    exact ⟨this.active, this.diff, this.sent⟩

/-- The remembered difference is that of the last completed batch: nothing else changes it, and a loader starts without
one. -/
theorem C49_remembered_partial {lib : Lib} {l l' : Loader} (R : Reachable lib l) (e : Event) (h : step lib l e = .ok l')
    (hn : ¬ Succeeded l e l' l.peerID) : l'.prevDiff = l.prevDiff := prevDiff_step R h hn

/-- two connected peers with the same high score -/
def Ex.reg2 : Peers.Registry := Peers.Ex.run (Ex.joins Ex.peer 65 (10 ^ 30) ++ Ex.joins Ex.peer3 66 (10 ^ 30))

/-- the second candidate is taken -/
def Ex.second_ (t : Int) (op : Op) : Event := ⟨{ Ex.ctx t with rand := fun _ => 1 }, op⟩

open Chains.Ex in
/-- The claim fails: the first batch of a synchronisation is completed, the peer is far from its announced score, and
still it is released, because the difference is that of a batch of another peer, whose synchronisation failed. -/
theorem C49_leftover : ∃ es l l',
    exec Peers.Ex.lib (NewLoader Ex.reg2 l0) (es ++ [Ex.second_ 200 .timer]) = .ok l ∧
    (exec Peers.Ex.lib (NewLoader Ex.reg2 l0) es).map (fun m => (m.active, m.peerID)) = .ok (false, Ex.peer) ∧
    Reachable Peers.Ex.lib l ∧ l.active = true ∧ l.peerID = Ex.peer3 ∧ Completes l (.ids l.peerID [bid 1]) ∧
    step Peers.Ex.lib l (Ex.at_ 201 (.ids l.peerID [bid 1])) = .ok l' ∧ l'.active = false ∧
    (LeashOf l'.link Ex.peer3 = .ok (bid 1) ∧ (Chains.LeashScore l'.link Ex.peer3).map (fun s => decide (s < 10 ^ 30)) = .ok true ∧
      (Peers.PeerOf l'.reg Ex.peer3).map (·.score) = .ok (some (10 ^ 30))) := by
  let es := [Ex.at_ 100 .timer, Ex.at_ 101 (.ids Ex.peer [bid 1]), Ex.at_ 102 (.block Ex.peer (some (blk 1 0))), Ex.at_ 140 .tick]
  have run : ∀ (l : Loader) (es : List Event), ((exec Peers.Ex.lib l es).map (fun _ => true)).toOption = some true →
      ∃ l', exec Peers.Ex.lib l es = .ok l' := by
    intro l es h
    cases he : exec Peers.Ex.lib l es with
    | ok l' => exact ⟨l', rfl⟩
    | error e => rw [he] at h; cases h
  obtain ⟨l, hl⟩ := run (NewLoader Ex.reg2 l0) (es ++ [Ex.second_ 200 .timer]) (by decide +kernel)
  obtain ⟨l', hl'⟩ := run (NewLoader Ex.reg2 l0) (es ++ [Ex.second_ 200 .timer] ++ [Ex.at_ 201 (.ids Ex.peer3 [bid 1])])
    (by decide +kernel)
  have obs : ∀ {α : Type} (f : Loader → α) (es : List Event) (x : Loader) (v : α),
      exec Peers.Ex.lib (NewLoader Ex.reg2 l0) es = .ok x →
      (exec Peers.Ex.lib (NewLoader Ex.reg2 l0) es).map f = .ok v → f x = v := by
    intro α f es x v h1 h2
    rw [h1] at h2; cases h2; rfl
  have hp : l.peerID = Ex.peer3 := obs (·.peerID) _ _ _ hl (by decide +kernel)
  have hst : Stored l.link.db (bid 1) := by
    unfold Stored
    exact obs (fun x => Chains.HasBlock x.link.db (bid 1)) _ _ _ hl (by decide +kernel)
  refine ⟨es, l, l', hl, by decide +kernel, ⟨Ex.reg2, l0, _, Peers.Ex.reach _, hl⟩,
    obs (·.active) _ _ _ hl (by decide +kernel), hp,
    .ids (obs (·.obj.state) _ _ _ hl (by decide +kernel)) [bid 1] (by simp) (by
      intro k hk; rw [List.mem_singleton.mp hk]; exact hst), ?_,
    obs (·.active) _ _ _ hl' (by decide +kernel),
    obs (fun x => LeashOf x.link Ex.peer3) _ _ _ hl' (by decide +kernel),
    obs (fun x => (Chains.LeashScore x.link Ex.peer3).map (fun s => decide (s < 10 ^ 30))) _ _ _ hl' (by decide +kernel),
    obs (fun x => (Peers.PeerOf x.reg Ex.peer3).map (·.score)) _ _ _ hl' (by decide +kernel)⟩
  rw [hp]
  rw [exec_append, hl] at hl'
  have : exec Peers.Ex.lib l [Ex.at_ 201 (.ids Ex.peer3 [bid 1])] = .ok l' := hl'
  rw [Loading.exec] at this
  cases hs : step Peers.Ex.lib l (Ex.at_ 201 (.ids Ex.peer3 [bid 1])) with
  | error e => rw [hs] at this; cases this
  | ok x => rw [hs] at this; cases this; rfl

open Chains.Ex in
/-- a completed batch, and both outcomes: more is asked, then the same list again releases the peer -/
example :
    let l := Ex.after (Ex.asked ++ [Ex.at_ 101 (.ids Ex.peer [bid 1])])
    Completes l (.block l.peerID (some (blk 1 0))) ∧ l.active = true ∧
    (exec Peers.Ex.lib l [Ex.at_ 102 (.block Ex.peer (some (blk 1 0)))]).map (fun x => (x.active, x.out.length - l.out.length)) =
      .ok (true, 1) ∧
    (exec Peers.Ex.lib l [Ex.at_ 102 (.block Ex.peer (some (blk 1 0))), Ex.at_ 103 (.ids Ex.peer [bid 1])]).map
      (fun x => (x.active, x.out.length - l.out.length)) = .ok (false, 1) := by
  refine ⟨?_, by decide +kernel, by decide +kernel, by decide +kernel⟩
  refine .block (by decide +kernel) [bid 1] (by decide +kernel) [] (by decide +kernel) (blk 1 0) [blk 1 0]
    ⟨by decide +kernel, by decide +kernel⟩ ⟨by decide +kernel, by decide +kernel, Or.inr ?_, trivial⟩
  unfold Stored; decide +kernel

/-! ### C50 -/

/-- A synchronisation is only started by the timer, with a connected peer that announced more than its leash is worth,
over the connection that is registered. -/
theorem C50_only {g : ProtoBlock} {n : Nat} {lib : Lib} {l l' : Loader} (R : Reachable lib l) (S : Serving g n l.link)
    (e : Event) (hn : l.active = false) (h : step lib l e = .ok l') (ha : l'.active = true) :
    e.op = .timer ∧ Lags l.reg l.link l'.peerID ∧
      ∃ cn, l'.obj.peer.conn = some cn ∧ (l'.peerID, cn) ∈ l.reg.connections := by
  obtain ⟨h1, ps, p, hc, hp, hl, hpe, _⟩ := started R hn h ha
  obtain ⟨b, v, cn, rfl, hv, hcn⟩ := connections_mem R.inv.reg.inv hc p hp
  have hid : l'.peerID = .v4 b := by unfold Loader.peerID; rw [hpe]; rfl
  refine ⟨h1, ?_, cn, by rw [hpe], hid ▸ hcn⟩
  rw [hid]
  exact (lagging_iff R.inv.reg.inv S hv (some cn)).mp hl

/-- While a synchronisation runs, no event replaces its peer. -/
theorem C50_one {lib : Lib} {l l' : Loader} (R : Reachable lib l) (e : Event) (h : step lib l e = .ok l')
    (ha : l.active = true) : l'.obj.peer = l.obj.peer := by
  obtain ⟨c, op⟩ := e
  have I := R.inv
  cases op with
  | ids peer ids =>
    simp only [Loading.step, handleIDs] at h
    split at h
    · cases h; rfl
    · split at h
      · cases h; rfl
      · split at h
        · cases h; rfl
        · obtain ⟨rfl, _⟩ := logged_ok h
          exact (frame_fire_ids c l ids I.quiet ha).peer
  | block peer b =>
    simp only [Loading.step, handleBlock] at h
    split at h
    · cases h; rfl
    · split at h
      · cases h; rfl
      · obtain ⟨rfl, _⟩ := logged_ok h
        exact (frame_fire_block c l b I.quiet ha).peer
  | tick =>
    simp only [Loading.step, tick, ha, if_true] at h
    obtain ⟨rfl, _⟩ := logged_ok h
    exact (frame_fire_tick c l c.now I.quiet ha).peer
  | timer => simp only [Loading.step, sync, ha, if_true] at h; cases h; rfl
  | putBlock b x f1 f2 => have := (I.others h).2; subst this; rfl
  | putMicro b x f1 f2 => have := (I.others h).2; subst this; rfl
  | registry ev => simp only [Loading.step] at h; cases h; rfl

/-- If the loader is free and a connected peer announced more than its leash is worth, the timer starts a synchronisation
with such a peer.  The records of the connected peers must exist (C35 shows that they do).  The second alternative is the
crash of `C48_crash`. -/
theorem C50_some {g : ProtoBlock} {n : Nat} {lib : Lib} {l : Loader} (R : Reachable lib l) (S : Serving g n l.link)
    (hn : l.active = false) (c : Ctx) (hcov : ∀ a cn, (a, cn) ∈ l.reg.connections → ∃ p, Peers.PeerOf l.reg a = .ok p)
    (a : Addr) (cn : Peers.Conn) (ha : (a, cn) ∈ l.reg.connections) (hl : Lags l.reg l.link a) :
    ∃ a' cn', (a', cn') ∈ l.reg.connections ∧ Lags l.reg l.link a' ∧
      ((∃ l', step lib l ⟨c, .timer⟩ = .ok l' ∧ l'.active = true ∧ l'.peerID = a' ∧ l'.obj.peer.conn = some cn') ∨
       (count l.fc a' ≥ 10 ∧ LCB c.env l.link a' = goPanic ∧ step lib l ⟨c, .timer⟩ = goPanic)) := by
  have I := R.inv.reg.inv
  have hC : Peers.Covered l.reg := by
    intro b cn' hb hv
    obtain ⟨p, hp⟩ := hcov _ _ hb
    obtain ⟨v, hv', _⟩ := I.peerOf.mp hp
    rw [hv] at hv'; cases hv'
  obtain ⟨ps, h1, h2, h3⟩ := Peers.connectionsLoop_ok I (c.env.mapOrder l.reg.connections)
    (fun x hx => (c.env.mapOrder_perm _).mem_iff.mp hx) hC
  have hconn : Peers.Connections lib c.env l.reg = .ok (c.env.sort (Peers.byName lib) ps) := by simp [Peers.Connections, h1]
  -- the lagging peer is in the list
  have hmem : ∃ p, p ∈ c.env.sort (Peers.byName lib) ps ∧ lagging l.link p = true := by
    have : (a, some cn) ∈ (c.env.mapOrder l.reg.connections).map (fun x => (x.1, some x.2)) :=
      List.mem_map.mpr ⟨(a, cn), (c.env.mapOrder_perm _).mem_iff.mpr ha, rfl⟩
    rw [← h2] at this
    obtain ⟨p, hp, he⟩ := List.mem_map.mp this
    have hp' := (c.env.sort_perm (Peers.byName lib) ps).mem_iff.mpr hp
    obtain ⟨b, v, cn', rfl, hv, _⟩ := connections_mem I hconn p hp'
    refine ⟨_, hp', (lagging_iff I S hv (some cn')).mpr ?_⟩
    have : (Addr.v4 b : Addr) = a := congrArg Prod.fst he
    rw [this]; exact hl
  have ho := sync_outcome lib c l
  have hst : step lib l ⟨c, .timer⟩ = sync lib c l := rfl
  rw [hst]
  generalize hr : sync lib c l = r at ho
  cases ho with
  | busy hb => rw [hn] at hb; cases hb
  | unlisted _ e he => rw [hconn] at he; cases he
  | panic _ he => rw [hconn] at he; cases he
  | nobody _ ps' he hno =>
    rw [hconn] at he; cases he
    obtain ⟨p, hp, hlag⟩ := hmem
    rw [hno p hp] at hlag; cases hlag
  | start _ ps' hc p hp hlag hk =>
    obtain ⟨b, v, cn', rfl, hv, hcn⟩ := connections_mem I hc p hp
    refine ⟨.v4 b, cn', hcn, (lagging_iff I S hv (some cn')).mp hlag, Or.inl ?_⟩
    obtain ⟨leash, ids, cn2, m, _, _, _, _, h5⟩ := requestIDs_serving c
      (enter (chosen l { v.toPeer (.v4 b) with conn := some cn' }) .waitingForIDs) S (by simp [enter, chosen, newPeerLoader])
    refine ⟨_, congrArg logged h5, rfl, rfl, rfl⟩
  | restart _ ps' hc p hp hlag hk =>
    obtain ⟨b, v, cn', rfl, hv, hcn⟩ := connections_mem I hc p hp
    refine ⟨.v4 b, cn', hcn, (lagging_iff I S hv (some cn')).mp hlag, ?_⟩
    rcases S.lcb c.env b with hpan | ⟨lcb, hok, hst⟩
    · refine Or.inr ⟨hk, hpan, ?_⟩
      have hx : requestIDsFromLCA c (enter { chosen l { v.toPeer (.v4 b) with conn := some cn' } with
          fc := reset l.fc ({ v.toPeer (.v4 b) with conn := some cn' } : Peers.Peer).addr } .waitingForIDs) =
          (enter { chosen l { v.toPeer (.v4 b) with conn := some cn' } with
          fc := reset l.fc ({ v.toPeer (.v4 b) with conn := some cn' } : Peers.Peer).addr } .waitingForIDs, goPanic) := by
        unfold requestIDsFromLCA
        have hx : LCB c.env (enter { chosen l { v.toPeer (.v4 b) with conn := some cn' } with
          fc := reset l.fc ({ v.toPeer (.v4 b) with conn := some cn' } : Peers.Peer).addr } .waitingForIDs).link
            (enter { chosen l { v.toPeer (.v4 b) with conn := some cn' } with
          fc := reset l.fc ({ v.toPeer (.v4 b) with conn := some cn' } : Peers.Peer).addr } .waitingForIDs).peerID = goPanic :=
          hpan
        rw [hx]; rfl
      rw [hx]; rfl
    · left
      obtain ⟨ids, cn2, m, _, _, _, h5⟩ := requestIDsFromLCA_serving c
        (enter { chosen l { v.toPeer (.v4 b) with conn := some cn' } with
          fc := reset l.fc ({ v.toPeer (.v4 b) with conn := some cn' } : Peers.Peer).addr } .waitingForIDs) S
        (by simp [enter, chosen, newPeerLoader]) lcb hok hst
      refine ⟨_, congrArg logged h5, rfl, rfl, rfl⟩

/-- The choice is fair: the connected peers that lag are numbered, each with one number, and the number that is drawn (a number below
their count) decides.  So nobody who lags can be passed over for ever by anything but bad luck. -/
theorem C50_fair {g : ProtoBlock} {n : Nat} {lib : Lib} {l : Loader} (R : Reachable lib l) (S : Serving g n l.link)
    (hn : l.active = false) (c : Ctx) (hcov : ∀ a cn, (a, cn) ∈ l.reg.connections → ∃ p, Peers.PeerOf l.reg a = .ok p) :
    ∃ as : List (Addr × Peers.Conn), as.Nodup ∧ (∀ a cn, (a, cn) ∈ as ↔ (a, cn) ∈ l.reg.connections ∧ Lags l.reg l.link a) ∧
      ∀ rand a cn, as[rand as.length % as.length]? = some (a, cn) →
        (∃ l', step lib l ⟨{ c with rand := rand }, .timer⟩ = .ok l' ∧ l'.active = true ∧ l'.peerID = a ∧ l'.obj.peer.conn = some cn) ∨
        (count l.fc a ≥ 10 ∧ LCB c.env l.link a = goPanic ∧ step lib l ⟨{ c with rand := rand }, .timer⟩ = goPanic) := by
  have I := R.inv.reg.inv
  have hC : Peers.Covered l.reg := by
    intro b cn' hb hv
    obtain ⟨p, hp⟩ := hcov _ _ hb
    obtain ⟨v, hv', _⟩ := I.peerOf.mp hp
    rw [hv] at hv'; cases hv'
  obtain ⟨ps, h1, h2, h3⟩ := Peers.connectionsLoop_ok I (c.env.mapOrder l.reg.connections)
    (fun x hx => (c.env.mapOrder_perm _).mem_iff.mp hx) hC
  have hconn : Peers.Connections lib c.env l.reg = .ok (c.env.sort (Peers.byName lib) ps) := by simp [Peers.Connections, h1]
  generalize hsorted : c.env.sort (Peers.byName lib) ps = sorted at hconn
  have hperm : sorted.Perm ps := hsorted ▸ c.env.sort_perm _ ps
  obtain ⟨as, has⟩ := with_conns (sorted.filter (lagging l.link)) (by
    intro p hp
    obtain ⟨b, v, cn, rfl, _⟩ := connections_mem I hconn p (List.mem_filter.mp hp).1
    simp)
  have hlen : as.length = (sorted.filter (lagging l.link)).length := by
    have := congrArg List.length has
    simpa using this.symm
  -- the addresses differ
  have hkeys : (ps.map (·.addr)).Nodup := by
    have e : ps.map (·.addr) = (c.env.mapOrder l.reg.connections).map (·.1) := by
      have := congrArg (List.map Prod.fst) h2
      simpa [List.map_map, Function.comp_def] using this
    rw [e]
    exact ((c.env.mapOrder_perm l.reg.connections).map _).nodup_iff.mpr I.nodup
  have hfst : as.map (·.1) = (sorted.filter (lagging l.link)).map (·.addr) := by
    have := congrArg (List.map Prod.fst) has
    simpa [List.map_map, Function.comp_def] using this.symm
  have hnd : (as.map (·.1)).Nodup := by
    rw [hfst]
    exact ((hperm.map _).nodup_iff.mpr hkeys).sublist (List.filter_sublist.map _)
  refine ⟨as, ?_, ?_, ?_⟩
  · rw [List.nodup_iff_pairwise_ne] at hnd ⊢
    exact (List.pairwise_map.mp hnd).imp (fun h e => h (congrArg Prod.fst e))
  · intro a cn
    have hm : (a, cn) ∈ as ↔ (a, some cn) ∈ (sorted.filter (lagging l.link)).map (fun p => (p.addr, p.conn)) := by
      rw [has]
      constructor
      · exact fun h => List.mem_map.mpr ⟨_, h, rfl⟩
      · intro h
        obtain ⟨⟨x, y⟩, h', e⟩ := List.mem_map.mp h
        cases e; exact h'
    rw [hm]
    constructor
    · intro h
      obtain ⟨p, hp, e⟩ := List.mem_map.mp h
      obtain ⟨hp1, hp2⟩ := List.mem_filter.mp hp
      obtain ⟨b, v, cn', rfl, hv, hcn⟩ := connections_mem I hconn p hp1
      cases e
      exact ⟨hcn, (lagging_iff I S hv (some cn)).mp hp2⟩
    · rintro ⟨h, hl⟩
      have : (a, some cn) ∈ (c.env.mapOrder l.reg.connections).map (fun x => (x.1, some x.2)) :=
        List.mem_map.mpr ⟨(a, cn), (c.env.mapOrder_perm _).mem_iff.mpr h, rfl⟩
      rw [← h2] at this
      obtain ⟨p, hp, he⟩ := List.mem_map.mp this
      have hp' := hperm.mem_iff.mpr hp
      obtain ⟨b, v, cn', rfl, hv, _⟩ := connections_mem I hconn p hp'
      refine List.mem_map.mpr ⟨_, List.mem_filter.mpr ⟨hp', (lagging_iff I S hv (some cn')).mpr ?_⟩, he⟩
      have : (Addr.v4 b : Addr) = a := congrArg Prod.fst he
      rw [this]; exact hl
  · intro rand a cn hpick
    have ho := sync_outcome lib { c with rand := rand } l
    have hst : step lib l ⟨{ c with rand := rand }, .timer⟩ = sync lib { c with rand := rand } l := rfl
    rw [hst]
    have hne : sorted.filter (lagging l.link) ≠ [] := by
      intro h
      rw [h] at hlen
      have : as = [] := List.length_eq_zero_iff.mp hlen
      rw [this] at hpick; cases hpick
    -- the one that was drawn
    have hdrawn : ∀ p, goIndex (sorted.filter (lagging l.link)) (rand (sorted.filter (lagging l.link)).length %
        (sorted.filter (lagging l.link)).length) = .ok p → p.addr = a ∧ p.conn = some cn := by
      intro p hp
      rw [hlen] at hpick
      have : ((sorted.filter (lagging l.link)).map (fun p => (p.addr, p.conn)))[rand (sorted.filter (lagging l.link)).length %
          (sorted.filter (lagging l.link)).length]? = some (a, some cn) := by
        rw [has, List.getElem?_map, hpick]; rfl
      rw [List.getElem?_map] at this
      unfold goIndex at hp
      split at hp
      · rename_i x hx
        rw [hx] at this
        cases hp
        simpa using this
      · cases hp
    generalize hr : sync lib { c with rand := rand } l = r at ho
    cases ho with
    | busy hb => rw [hn] at hb; cases hb
    | unlisted _ e he => rw [show ({ c with rand := rand } : Ctx).env = c.env from rfl, hconn] at he; cases he
    | panic _ he => rw [show ({ c with rand := rand } : Ctx).env = c.env from rfl, hconn] at he; cases he
    | nobody _ ps' he hno =>
      rw [show ({ c with rand := rand } : Ctx).env = c.env from rfl, hconn] at he; cases he
      exact absurd (List.filter_eq_nil_iff.mpr (fun p hp => by rw [hno p hp]; simp)) hne
    | start _ ps' hc p hp hlag hk hi =>
      rw [show ({ c with rand := rand } : Ctx).env = c.env from rfl, hconn] at hc; cases hc
      obtain ⟨e1, e2⟩ := hdrawn p hi
      obtain ⟨leash, ids, cn2, m, _, _, _, _, h5⟩ := requestIDs_serving { c with rand := rand }
        (enter (chosen l p) .waitingForIDs) S (by simp [enter, chosen, newPeerLoader, e2])
      exact Or.inl ⟨_, congrArg logged h5, rfl, e1, e2⟩
    | restart _ ps' hc p hp hlag hk hi =>
      rw [show ({ c with rand := rand } : Ctx).env = c.env from rfl, hconn] at hc; cases hc
      obtain ⟨e1, e2⟩ := hdrawn p hi
      obtain ⟨b, v, cn', hpe, hv, hcn⟩ := connections_mem I hconn p hp
      have hb : p.addr = .v4 b := by rw [hpe]; rfl
      rcases S.lcb c.env b with hpan | ⟨lcb, hok, hst⟩
      · rw [← hb, e1] at hpan
        refine Or.inr ⟨e1 ▸ hk, hpan, ?_⟩
        have hx : requestIDsFromLCA { c with rand := rand } (enter { chosen l p with fc := reset l.fc p.addr } .waitingForIDs) =
            (enter { chosen l p with fc := reset l.fc p.addr } .waitingForIDs, goPanic) := by
          unfold requestIDsFromLCA
          have hx : LCB c.env (enter { chosen l p with fc := reset l.fc p.addr } .waitingForIDs).link
              (enter { chosen l p with fc := reset l.fc p.addr } .waitingForIDs).peerID = goPanic := by
            show LCB c.env l.link p.addr = goPanic
            rw [e1]; exact hpan
          rw [show ({ c with rand := rand } : Ctx).env = c.env from rfl, hx]; rfl
        rw [hx]; rfl
      · rw [← hb] at hok
        obtain ⟨ids, cn2, m, _, _, _, h5⟩ := requestIDsFromLCA_serving { c with rand := rand }
          (enter { chosen l p with fc := reset l.fc p.addr } .waitingForIDs) S
          (by simp [enter, chosen, newPeerLoader, e2]) lcb hok hst
        exact Or.inl ⟨_, congrArg logged h5, rfl, e1, e2⟩

/-- If nobody lags, the timer changes nothing. -/
theorem C50_nobody {g : ProtoBlock} {n : Nat} {lib : Lib} {l l' : Loader} (R : Reachable lib l) (S : Serving g n l.link)
    (c : Ctx) (hl : ∀ a cn, (a, cn) ∈ l.reg.connections → ¬ Lags l.reg l.link a)
    (h : step lib l ⟨c, .timer⟩ = .ok l') : l' = l := by
  have I := R.inv.reg.inv
  have no : ∀ ps p, Peers.Connections lib c.env l.reg = .ok ps → p ∈ ps → lagging l.link p = true → False := by
    intro ps p hc hp hlag
    obtain ⟨b, v, cn', rfl, hv, hcn⟩ := connections_mem I hc p hp
    exact hl _ _ hcn ((lagging_iff I S hv (some cn')).mp hlag)
  have ho := sync_outcome lib c l
  have h : sync lib c l = .ok l' := h
  rw [h] at ho
  generalize hr : (Except.ok l' : Go Loader) = r at ho
  cases ho with
  | busy _ => cases hr; rfl
  | unlisted _ _ _ => cases hr; rfl
  | panic _ _ => cases hr
  | nobody _ _ _ _ => cases hr; rfl
  | start _ ps hc p hp hlag _ => exact (no ps p hc hp hlag).elim
  | restart _ ps hc p hp hlag _ => exact (no ps p hc hp hlag).elim

/-- one connected peer that lags behind its announced score -/
example :
    Reachable Peers.Ex.lib Ex.start ∧ Serving Chains.Ex.g0 0 Ex.start.link ∧ Ex.start.active = false ∧
    (∃ cn, (Ex.peer, cn) ∈ Ex.start.reg.connections) ∧
    (∀ a cn, (a, cn) ∈ Ex.start.reg.connections → ∃ p, Peers.PeerOf Ex.start.reg a = .ok p) ∧
    Lags Ex.start.reg Ex.start.link Ex.peer := by
  have hc : Ex.start.reg.connections.map (·.1) = [Ex.peer] := by decide +kernel
  have hp : (Peers.PeerOf Ex.start.reg Ex.peer).map (·.score) = .ok (some (10 ^ 30)) := by decide +kernel
  obtain ⟨p, hp1, hp2⟩ : ∃ p, Peers.PeerOf Ex.start.reg Ex.peer = .ok p ∧ p.score = some (10 ^ 30) := by
    cases h : Peers.PeerOf Ex.start.reg Ex.peer with
    | error e => rw [h] at hp; cases hp
    | ok p => rw [h] at hp; exact ⟨p, rfl, Except.ok.inj hp⟩
  have S := Ex.serving 0 (by decide)
  refine ⟨Ex.reach [], S, rfl, ?_, ?_, ?_⟩
  · have : Ex.peer ∈ Ex.start.reg.connections.map (·.1) := by rw [hc]; simp
    obtain ⟨⟨a, cn⟩, hm, rfl⟩ := List.mem_map.mp this
    exact ⟨cn, hm⟩
  · intro a cn hm
    have : a ∈ Ex.start.reg.connections.map (·.1) := List.mem_map.mpr ⟨_, hm, rfl⟩
    rw [hc, List.mem_singleton] at this
    exact ⟨p, this ▸ hp1⟩
  · obtain ⟨leash, hl, _⟩ := S.leash Ex.peer
    obtain ⟨score, h1, h2⟩ := leashScore_of S Ex.peer leash hl
    refine ⟨10 ^ 30, leash, score, ⟨p, hp1, hp2⟩, ⟨hl, h2⟩, ?_⟩
    have : (Chains.LeashScore Chains.Ex.l0 Ex.peer).map (fun s => decide (10 ^ 30 > s)) = .ok true := by decide +kernel
    rw [h1] at this
    simpa using Except.ok.inj this

/-- two connected peers that lag behind their announced scores: the number that is drawn decides which of them is loaded -/
example :
    let l := NewLoader (Peers.Ex.run (Ex.joins Ex.peer 65 (10 ^ 30) ++ Ex.joins Ex.peer3 66 (10 ^ 29))) Chains.Ex.l0
    let drawn (i : Nat) := (step Peers.Ex.lib l ⟨{ Ex.ctx 100 with rand := fun _ => i }, .timer⟩).map (fun l' => (l'.active, l'.peerID))
    Reachable Peers.Ex.lib l ∧ Serving Chains.Ex.g0 0 l.link ∧ l.active = false ∧
    drawn 0 = .ok (true, Ex.peer) ∧ drawn 1 = .ok (true, Ex.peer3) :=
  ⟨⟨_, _, [], Peers.Ex.reach _, rfl⟩, Ex.serving 0 (by decide), by decide +kernel, by decide +kernel, by decide +kernel⟩

/-! ### C51 -/

/-- What an event does to the number of failures of a peer: a failure of its synchronisation adds one, a successful batch
and a restart after ten failures clear it, and everything else, in particular what happens to other peers, leaves it. -/
theorem C51_step {lib : Lib} {l l' : Loader} (R : Reachable lib l) (e : Event) (h : step lib l e = .ok l') (a : Addr) :
    (Failed l e l' a → count l'.fc a = count l.fc a + 1) ∧
    (Succeeded l e l' a → count l'.fc a = 0) ∧
    (Restarted l l' a (count l.fc a) → count l'.fc a = 0) ∧
    (¬ Failed l e l' a → ¬ Succeeded l e l' a → ¬ Restarted l l' a (count l.fc a) → count l'.fc a = count l.fc a) :=
  fc_step R h a

/-- The counter is the number of failures since the last success or restart, in every run. -/
theorem C51_history {lib : Lib} {a : Addr} {l : Loader} {k : Nat} (h : Streak lib a l k) : count l.fc a = k := by
  induction h with
  | start hr => rfl
  | failed h e hs o ih => rw [(fc_step h.reachable hs a).1 o, ih]
  | succeeded h e hs o ih => exact (fc_step h.reachable hs a).2.1 o
  | restarted h e hs o ih => exact (fc_step h.reachable hs a).2.2.1 (ih ▸ o)
  | other h e hs h1 h2 h3 ih => rw [(fc_step h.reachable hs a).2.2.2 h1 h2 (ih ▸ h3), ih]

/-- Every reachable state has such a number, so `C51_history` is about all runs. -/
theorem C51_covered {lib : Lib} {l : Loader} (R : Reachable lib l) (a : Addr) : ∃ k, Streak lib a l k := by
  obtain ⟨reg, lk, es, hr, he⟩ := R
  have key : ∀ (es : List Event) (l0 : Loader) (k : Nat), Streak lib a l0 k → exec lib l0 es = .ok l → ∃ k, Streak lib a l k := by
    intro es
    induction es with
    | nil => intro l0 k h he; cases he; exact ⟨k, h⟩
    | cons e es ih =>
      intro l0 k h he
      rw [Loading.exec] at he
      cases hs : Loading.step lib l0 e with
      | error x => rw [hs] at he; cases he
      | ok l1 =>
        rw [hs] at he
        by_cases h1 : Failed l0 e l1 a
        · exact ih l1 _ (.failed h e hs h1) he
        · by_cases h2 : Succeeded l0 e l1 a
          · exact ih l1 _ (.succeeded h e hs h2) he
          · by_cases h3 : Restarted l0 l1 a k
            · exact ih l1 _ (.restarted h e hs h3) he
            · exact ih l1 _ (.other h e hs h1 h2 h3) he
  exact key es _ 0 (.start hr) he

open Chains.Ex in
/-- ten failures, a restart, another failure, a success -/
example :
    count (Ex.after Ex.tenFailures).fc Ex.peer = 10 ∧
    count (Ex.after (Ex.tenFailures ++ [Ex.at_ 3000 .timer])).fc Ex.peer = 0 ∧
    count (Ex.after (Ex.tenFailures ++ [Ex.at_ 3000 .timer, Ex.at_ 3040 .tick])).fc Ex.peer = 1 ∧
    count (Ex.after (Ex.tenFailures ++ [Ex.at_ 3000 .timer, Ex.at_ 3040 .tick, Ex.at_ 3050 .timer,
      Ex.at_ 3051 (.ids Ex.peer [bid 0])])).fc Ex.peer = 0 := by
  decide +kernel

/-! ### C61 -/

/-- In a running program the leash of every peer is on a stored block and has a score, and the store stays one that the
other properties are about, whatever the loader and the distributor do to it. -/
theorem C61_serving {g : ProtoBlock} {n : Nat} {lib : Lib} {l : Loader} (R : Running lib g n l) :
    Serving g n l.link ∧ ∀ a, ∃ leash score, OnLeash l.link a leash score ∧ Stored l.link.db leash := by
  refine ⟨R.serving, fun a => ?_⟩
  obtain ⟨leash, hl, hst⟩ := R.serving.leash a
  obtain ⟨score, _, hs⟩ := leashScore_of R.serving a leash hl
  exact ⟨leash, score, ⟨hl, hs⟩, hst⟩

/-- The loader never loses a block. -/
theorem C61_kept {g : ProtoBlock} {n : Nat} {lib : Lib} {l l' : Loader} (e : Event) (R : Running lib g (n + cost l e) l)
    (h : step lib l e = .ok l') (id : BlockID) (hs : Stored l.link.db id) : Stored l'.link.db id :=
  (Grew.step R.reachable.inv R.serving h).kept id hs

open Chains.Ex in
example : Running Peers.Ex.lib g0 5 (Ex.after (Ex.listed ++ [Ex.at_ 102 (.block Ex.peer (some (blk 1 0))),
    Ex.at_ 102 (.putBlock (blk 7 1) Ex.peer3 .ok .lostAck), Ex.at_ 150 .tick, Ex.at_ 200 .timer])) :=
  Ex.running _ _ (by decide +kernel)

end Verif.Loading
