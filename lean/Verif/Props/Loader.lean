import Verif.Loading.Examples
/-
Properties C42 to C45 and C47: what the loader does with answers and ticks.
-/

set_option autoImplicit false

namespace Verif.Loading

open Verif
open Verif.Chains (Addr BlockID ProtoBlock Linkage Env LeashOf)
open Verif.Chains.Spec (Stored)
open Verif.Peers (Lib second)

/-! ### C42 -/

/-- An id list with an unknown id in it: exactly the ids from the first unknown one to the end are requested, in order,
from the peer; the leash moves to the last id before it, the blocks and the other leashes stay. -/
theorem C42_requested {g : ProtoBlock} {n : Nat} {lib : Lib} {l : Loader} (R : Reachable lib l) (S : Serving g n l.link)
    (ha : l.active = true) (hs : l.obj.state = .waitingForIDs) (c : Ctx) (hf : ∀ j, c.fates j = .ok)
    (known rest : List BlockID) (x : BlockID) (hk : ∀ k, k ∈ known → Stored l.link.db k) (hx : ¬ Stored l.link.db x) :
    ∃ lk cn, l.obj.peer.conn = some cn ∧
      step lib l ⟨c, .ids l.peerID (known ++ x :: rest)⟩ = .ok { l with
        link := lk,
        out := l.out ++ (x :: rest).map (fun id => ⟨c.now, cn, .getBlock id⟩),
        obj := { l.obj with state := .waitingForBlocks, queue := newQueue (x :: rest), timestamp := c.now } } ∧
      Walked l.link lk l.peerID ∧ Serving g n lk ∧
      (known = [] → LeashOf lk l.peerID = LeashOf l.link l.peerID) ∧
      (∀ k, known.getLast? = some k → LeashOf lk l.peerID = .ok k) := by
  have I := R.inv
  obtain ⟨leash, hl, _⟩ := S.leash l.peerID
  obtain ⟨lk, h1, h2, h3, h4⟩ := requestLoop_ok c l.peerID S known (x :: rest) leash hl hf hk
    (by intro y hy; simp only [List.head?_cons, Option.some.injEq] at hy; exact hy ▸ hx)
  obtain ⟨cn, hcn⟩ := Option.ne_none_iff_exists'.mp (I.conn ha)
  refine ⟨lk, cn, hcn, ?_, h3, h2, ?_, ?_⟩
  · have hne : known ++ x :: rest ≠ [] := by simp
    simp only [step, handleIDs, ha, hne, Bool.true_eq_false, if_false, ne_eq, not_true_eq_false]
    have ho := fire_ids c l (known ++ x :: rest) I.quiet hs
    generalize fire c l (.ids (known ++ x :: rest)) = r at ho
    have h1' : requestLoop c (enter l .waitingForBlocks).peerID 0 (enter l .waitingForBlocks).link (known ++ x :: rest) =
      (lk, .ok (x :: rest)) := h1
    cases ho with
    | failed lk' e h => rw [h1'] at h; cases h
    | known lk' h => rw [h1'] at h; cases h
    | asked lk' req cn' h hne hc =>
      rw [h1'] at h; cases h
      have : cn' = cn := by
        have hc' : l.obj.peer.conn = some cn' := hc
        rw [hcn] at hc'; cases hc'; rfl
      subst this
      simp [logged, enter, ha]
    | panic lk' req h hne hc =>
      have hc' : l.obj.peer.conn = none := hc
      rw [hcn] at hc'; cases hc'
  · rintro rfl; rw [h4, hl]; rfl
  · intro k hk; rw [h4, hk]; rfl

/-- All ids are known: the leash moves to the last one, no block is requested, and success is reported: the failures
of the peer are forgotten and the peer is asked for more ids or released. -/
theorem C42_known {g : ProtoBlock} {n : Nat} {lib : Lib} {l : Loader} (R : Reachable lib l) (S : Serving g n l.link)
    (ha : l.active = true) (hs : l.obj.state = .waitingForIDs) (c : Ctx) (hf : ∀ j, c.fates j = .ok)
    (ids : List BlockID) (last : BlockID) (hlast : ids.getLast? = some last) (hk : ∀ k, k ∈ ids → Stored l.link.db k) :
    ∃ l', step lib l ⟨c, .ids l.peerID ids⟩ = .ok l' ∧ Walked l.link l'.link l.peerID ∧ Serving g n l'.link ∧
      LeashOf l'.link l.peerID = .ok last ∧ count l'.fc l.peerID = 0 ∧
      ((∃ s score, Continued c.now l l' s last score) ∨ Released l l') := by
  have I := R.inv
  obtain ⟨leash, hl, _⟩ := S.leash l.peerID
  obtain ⟨lk, h1, h2, h3, h4⟩ := requestLoop_ok c l.peerID S ids [] leash hl hf hk (by intro y hy; cases hy)
  rw [List.append_nil] at h1
  rw [hlast] at h4
  have hne : ids ≠ [] := by rintro rfl; cases hlast
  have hstep : step lib l ⟨c, .ids l.peerID ids⟩ = logged (succeed c { enter l .waitingForBlocks with link := lk }) := by
    simp only [step, handleIDs, ha, hne, Bool.true_eq_false, if_false, ne_eq, not_true_eq_false]
    have ho := fire_ids c l ids I.quiet hs
    generalize fire c l (.ids ids) = r at ho
    have h1' : requestLoop c (enter l .waitingForBlocks).peerID 0 (enter l .waitingForBlocks).link ids = (lk, .ok []) := h1
    cases ho with
    | failed lk' e h => rw [h1'] at h; cases h
    | known lk' h => rw [h1'] at h; cases h; rfl
    | asked lk' req cn' h hne hc => rw [h1'] at h; cases h; exact absurd rfl hne
    | panic lk' req h hne hc => rw [h1'] at h; cases h; exact absurd rfl hne
  obtain ⟨l', s, leash', score, e1, e2, e3, e4, e5, e6, e7, e8, e9⟩ :=
    succeed_serving c { enter l .waitingForBlocks with link := lk } ((I.enter .waitingForBlocks).withLink lk) ha h2
  have hlk : l'.link = lk := e2
  have hll : leash' = last := by
    have := e7.1.symm.trans h4
    cases this; rfl
  subst hll
  refine ⟨l', by rw [hstep, e1]; rfl, hlk ▸ h3, hlk ▸ h2, hlk ▸ h4, ?_, ?_⟩
  · rw [e4]
    show count (reset l.fc l.peerID) l.peerID = 0
    unfold reset; rw [count_setCount, if_pos rfl]
  · by_cases hc : s > score ∧ l.prevDiff ≠ some ((s : Int) - score)
    · left
      have := e8 hc
      exact ⟨s, score, this.active, this.state, this.peer, this.stamp, this.diff, this.sent⟩
    · right
      have := e9 hc
      exact ⟨this.active, this.diff, this.sent⟩

/-- a list with a known and two unknown ids, and a list of known ids -/
example :
    let l := Ex.after Ex.asked
    l.active = true ∧ l.obj.state = .waitingForIDs ∧ l.link.db = Chains.Ex.l0.db ∧ l.peerID = Ex.peer ∧
    Stored l.link.db (Chains.Ex.bid 0) ∧ ¬ Stored l.link.db (Chains.Ex.bid 1) ∧
    (step Peers.Ex.lib l (Ex.at_ 101 (.ids Ex.peer [Chains.Ex.bid 0, Chains.Ex.bid 1, Chains.Ex.bid 2]))).map
      (fun l' => (l'.out.drop l.out.length).map (·.msg)) =
      .ok [.getBlock (Chains.Ex.bid 1), .getBlock (Chains.Ex.bid 2)] ∧
    (step Peers.Ex.lib l (Ex.at_ 101 (.ids Ex.peer [Chains.Ex.bid 0]))).map
      (fun l' => (l'.out.drop l.out.length).map (·.msg)) = .ok [.getBlockIds [Chains.Ex.bid 0]] := by
  refine ⟨by decide +kernel, by decide +kernel, by decide +kernel, by decide +kernel, by unfold Stored; decide +kernel,
    by unfold Stored; decide +kernel, by decide +kernel, by decide +kernel⟩

/-! ### C43 -/

/-- While a block of the batch is missing and the time is not up, nothing is stored and nothing is sent by the loader,
and nothing is reported, whatever else happens; the loader only gathers the blocks that come from the peer. -/
theorem C43_waiting {lib : Lib} {l l' : Loader} (R : Reachable lib l) (ha : l.active = true)
    (hs : l.obj.state = .waitingForBlocks) (ids : List BlockID) (hq : l.obj.queue = newQueue ids)
    (es : List Event) (ht : InTime l.obj.timestamp es) (x : BlockID) (hx : x ∈ ids)
    (hm : ∀ b, b ∈ blocksFrom l.peerID es → b.id ≠ x) (he : exec lib l es = .ok l') :
    l'.link = Chains.Spec.exec l.link (storeCalls es) ∧ l'.out = l.out ∧ l'.active = true ∧ l'.fc = l.fc ∧
      l'.prevDiff = l.prevDiff ∧
      l'.obj = { l.obj with queue := (blocksFrom l.peerID es).foldl put (newQueue ids) } := by
  obtain ⟨r, rfl⟩ := gather es l l' R.inv.quiet ha hs ht (by rw [hq]; exact missing_not_ready hx hm) he
  exact ⟨rfl, rfl, ha, rfl, rfl, by rw [← hq]; rfl⟩

/-- The last missing block arrives.  Until then everything is as in `C43_waiting`; then the blocks of the batch are
stored one after the other in the order of the ids, the leash ends on the last one, the other leashes stay, and success
is reported once: the failures of the peer are forgotten, and the peer is asked for more with one message or
released. -/
theorem C43_complete {g : ProtoBlock} {n : Nat} {lib : Lib} {l l1 : Loader} (R : Reachable lib l) (ha : l.active = true)
    (hs : l.obj.state = .waitingForBlocks) (ids : List BlockID) (hnd : ids.Nodup) (hq : l.obj.queue = newQueue ids)
    (es : List Event) (ht : InTime l.obj.timestamp es) (x : BlockID) (hx : x ∈ ids)
    (hm : ∀ b, b ∈ blocksFrom l.peerID es → b.id ≠ x) (he : exec lib l es = .ok l1)
    (c : Ctx) (hf : ∀ j, c.fates j = .ok) (b : ProtoBlock) (bs : List ProtoBlock) (last : ProtoBlock)
    (hlast : bs.getLast? = some last)
    (hb : Answer ids (blocksFrom l.peerID es ++ [b]) bs)
    (S : Serving g (n + bs.length) (Chains.Spec.exec l.link (storeCalls es)))
    (hc : Chained (Stored (Chains.Spec.exec l.link (storeCalls es)).db) bs) :
    ∃ l2, step lib l1 ⟨c, .block l.peerID (some b)⟩ = .ok l2 ∧
      Applied (Chains.Spec.exec l.link (storeCalls es)) l2.link l.peerID bs ∧ Serving g n l2.link ∧
      LeashOf l2.link l.peerID = .ok last.id ∧ l1.fc = l.fc ∧ count l2.fc l.peerID = 0 ∧
      ((∃ s score, Continued c.now l l2 s last.id score) ∨ Released l l2) := by
  have I1 := R.inv.exec es he
  obtain ⟨r, rfl⟩ := gather es l l1 R.inv.quiet ha hs ht (by rw [hq]; exact missing_not_ready hx hm) he
  have hqq : putOpt (gathered l r (Chains.Spec.exec l.link (storeCalls es)) (blocksFrom l.peerID es)).obj.queue (some b) =
      (blocksFrom l.peerID es ++ [b]).foldl put (newQueue ids) := by
    rw [List.foldl_append]
    show put ((blocksFrom l.peerID es).foldl put l.obj.queue) b = _
    rw [hq]; rfl
  obtain ⟨lk, a1, a2, a3⟩ := applyAll_chained c l.peerID 0 hf _ bs (answer_queue hnd hb) S hc
  have hstep : step lib (gathered l r (Chains.Spec.exec l.link (storeCalls es)) (blocksFrom l.peerID es))
        ⟨c, .block l.peerID (some b)⟩ =
      logged (succeed c { gathered l r lk (blocksFrom l.peerID es) with
        obj := { l.obj with queue := (blocksFrom l.peerID es ++ [b]).foldl put (newQueue ids) } }) := by
    have ho := fire_block c (gathered l r (Chains.Spec.exec l.link (storeCalls es)) (blocksFrom l.peerID es)) (some b)
      I1.quiet hs
    have h1 : step lib (gathered l r (Chains.Spec.exec l.link (storeCalls es)) (blocksFrom l.peerID es))
        ⟨c, .block l.peerID (some b)⟩ =
      logged (fire c (gathered l r (Chains.Spec.exec l.link (storeCalls es)) (blocksFrom l.peerID es)) (.block (some b))) := by
      show handleBlock _ _ _ _ = _
      unfold handleBlock
      rw [if_neg (by show ¬ l.active = false; rw [ha]; simp)]
      exact if_neg (fun h => h rfl)
    rw [h1]
    generalize fire c (gathered l r (Chains.Spec.exec l.link (storeCalls es)) (blocksFrom l.peerID es)) (.block (some b)) = res
      at ho
    cases ho with
    | waiting h => rw [hqq, answer_ready hnd hb] at h; cases h
    | failed h lk' e h' =>
      rw [hqq] at h'
      have := a1.symm.trans h'
      cases this
    | complete h lk' h' =>
      rw [hqq] at h' ⊢
      have := a1.symm.trans h'
      cases this
      rfl
  have hmat : Matching ((blocksFrom l.peerID es ++ [b]).foldl put (newQueue ids)) := (Matching.newQueue ids).fold _
  obtain ⟨l2, s, leash, score, e1, e2, e3, e4, e5, e6, e7, e8, e9⟩ :=
    succeed_serving c { gathered l r lk (blocksFrom l.peerID es) with
      obj := { l.obj with queue := (blocksFrom l.peerID es ++ [b]).foldl put (newQueue ids) } }
      ((I1.withLink lk).withQueue _ hmat) ha a2
  have hlk : l2.link = lk := e2
  have hll : leash = last.id := by
    have := e7.1.symm.trans (a3.leash last hlast)
    cases this; rfl
  subst hll
  refine ⟨l2, by rw [hstep, e1]; rfl, hlk ▸ a3, hlk ▸ a2, hlk ▸ a3.leash last hlast, rfl, ?_, ?_⟩
  · rw [e4]
    show count (reset l.fc l.peerID) l.peerID = 0
    unfold reset; rw [count_setCount, if_pos rfl]
  · by_cases hcc : s > score ∧ l.prevDiff ≠ some ((s : Int) - score)
    · left
      have := e8 hcc
      exact ⟨s, score, this.active, this.state, this.peer, this.stamp, this.diff, this.sent⟩
    · right
      have := e9 hcc
      exact ⟨this.active, this.diff, this.sent⟩

/-- A block of the complete batch is refused by the store: exactly the blocks before it are stored, and no success is
reported. -/
theorem C43_refused {g : ProtoBlock} {n : Nat} {lib : Lib} {l : Loader} (R : Reachable lib l) (ha : l.active = true)
    (hs : l.obj.state = .waitingForBlocks) (ids : List BlockID) (hnd : ids.Nodup) (arrived : List ProtoBlock)
    (hq : l.obj.queue = arrived.foldl put (newQueue ids))
    (c : Ctx) (hf : ∀ j, c.fates j = .ok) (b : ProtoBlock) (bs bs' : List ProtoBlock) (bad : ProtoBlock)
    (hb : Answer ids (arrived ++ [b]) (bs ++ bad :: bs'))
    (S : Serving g (n + bs.length + 1) l.link) (hc : Chained (Stored l.link.db) bs)
    (e : Err) (hbad : (Chains.PutBlock .ok .ok (Chains.Spec.exec l.link (bs.map (putOp l.peerID))).db bad l.peerID).2 = fail e) :
    ∃ lk, step lib l ⟨c, .block l.peerID (some b)⟩ = .ok { l with
        link := lk, obj := { l.obj with queue := (arrived ++ [b]).foldl put (newQueue ids) } } ∧
      Applied l.link lk l.peerID bs ∧ Serving g n lk := by
  have I := R.inv
  have hqq : putOpt l.obj.queue (some b) = (arrived ++ [b]).foldl put (newQueue ids) := by
    rw [List.foldl_append, hq]; rfl
  have hrec := answer_queue hnd hb
  rw [List.map_append, List.map_cons] at hrec
  obtain ⟨q1, q2, h1, h2, h3⟩ := List.map_eq_append_iff.mp hrec
  obtain ⟨it, q3, rfl, h4, h5⟩ := List.map_eq_cons_iff.mp h3
  obtain ⟨lk, a1, a2, a3⟩ := applyAll_refused c l.peerID 0 hf q1 q3 it bs bad (.err e) h2 h4 S hc hbad
  rw [← h1] at a1
  refine ⟨lk, ?_, a3, a2⟩
  simp only [step, handleBlock, ha, Bool.true_eq_false, if_false, ne_eq, not_true_eq_false]
  have ho := fire_block c l (some b) I.quiet hs
  generalize fire c l (.block (some b)) = r at ho
  cases ho with
  | waiting h => rw [hqq, answer_ready hnd hb] at h; cases h
  | failed h lk' e' h' =>
    rw [hqq] at h' ⊢
    rw [a1] at h'; cases h'
    simp [logged, ha]
  | complete h lk' h' => rw [hqq, a1] at h'; cases h'

open Chains.Ex in
/-- three blocks arrive in the order 3, 1, 2; the first two leave the store alone, then all are stored -/
example :
    let l := Ex.after Ex.listed
    let es := [Ex.at_ 102 (.block Ex.peer (some (blk 3 2))), Ex.at_ 103 .tick, Ex.at_ 104 (.block Ex.peer (some (blk 1 0)))]
    l.active = true ∧ l.obj.state = .waitingForBlocks ∧ l.obj.queue = newQueue [bid 1, bid 2, bid 3] ∧ l.peerID = Ex.peer ∧
    blocksFrom Ex.peer es = [blk 3 2, blk 1 0] ∧ storeCalls es = [] ∧
    Answer [bid 1, bid 2, bid 3] (blocksFrom Ex.peer es ++ [blk 2 1]) [blk 1 0, blk 2 1, blk 3 2] ∧
    (exec Peers.Ex.lib l es).map (fun l' => l'.link.db) = .ok l.link.db ∧
    (exec Peers.Ex.lib l (es ++ [Ex.at_ 105 (.block Ex.peer (some (blk 2 1)))])).map
      (fun l' => (LeashOf l'.link Ex.peer, (l'.out.drop l.out.length).map (·.msg))) =
      .ok (.ok (bid 3), [.getBlockIds [bid 3, bid 2, bid 1, bid 0]]) := by
  refine ⟨by decide +kernel, by decide +kernel, by decide +kernel, by decide +kernel, by decide +kernel, rfl,
    ⟨by decide +kernel, by decide +kernel⟩, by decide +kernel, by decide +kernel⟩

/-! ### C44 -/

/-- A wait for blocks times out: exactly the received blocks before the first missing one are stored, in order, the leash
ends on the last of them, and failure is reported: the peer is released with one more failure.  The hypotheses on the
queue say that it belongs to the current batch.  Missing for the full claim: in a wait for ids the queue is still that
of an earlier batch, which is stored again (`C44_stale`); a block may be refused (`C46_stuck`); and the leash may have
moved past the batch in the meantime, then it moves back (`C44_back`). -/
theorem C44_partial {g : ProtoBlock} {n : Nat} {lib : Lib} {l : Loader} (R : Reachable lib l) (ha : l.active = true)
    (hs : l.obj.state = .waitingForBlocks) (got rest : List BlockID) (hnd : (got ++ rest).Nodup) (arrived : List ProtoBlock)
    (hq : l.obj.queue = arrived.foldl put (newQueue (got ++ rest))) (bs : List ProtoBlock) (hb : Answer got arrived bs)
    (hm : ∀ x, rest.head? = some x → ∀ b, b ∈ arrived → b.id ≠ x)
    (c : Ctx) (hf : ∀ j, c.fates j = .ok) (hlate : c.now - l.obj.timestamp > 30 * second)
    (S : Serving g (n + bs.length) l.link) (hc : Chained (Stored l.link.db) bs) :
    ∃ lk, step lib l ⟨c, .tick⟩ = .ok { l with
        active := false, link := lk, fc := inc l.fc l.peerID, obj := { l.obj with state := .done } } ∧
      Applied l.link lk l.peerID bs ∧ Serving g n lk ∧
      (bs = [] → lk = l.link) ∧ ∀ b, bs.getLast? = some b → LeashOf lk l.peerID = .ok b.id := by
  have I := R.inv
  have hpre : (l.obj.queue.takeWhile (fun it => it.received.isSome)).map (·.received) = bs.map some := by
    rw [hq, fold_newQueue _ hnd, List.map_append]
    have h1 : ∀ it, it ∈ got.map (fun id => (⟨id, lastWith id arrived⟩ : Item)) → it.received.isSome = true := by
      intro it hit
      rw [← hb.1, List.map_map] at hit
      obtain ⟨b, hbm, rfl⟩ := List.mem_map.mp hit
      have : lastWith b.id arrived = some b := hb.2 b hbm
      simp [this]
    rw [List.takeWhile_append_of_pos h1, List.map_append]
    have h2 : (rest.map (fun id => (⟨id, lastWith id arrived⟩ : Item))).takeWhile (fun it => it.received.isSome) = [] := by
      cases rest with
      | nil => rfl
      | cons x rest =>
        have hno : lastWith x arrived = none := by
          cases hl : lastWith x arrived with
          | none => rfl
          | some b => exact absurd (lastWith_some hl).2 (hm x rfl b (lastWith_some hl).1)
        rw [List.map_cons, List.takeWhile_cons_of_neg (by simp [hno])]
    rw [h2, List.map_nil, List.append_nil, ← hb.1, List.map_map, List.map_map]
    exact List.map_congr_left (fun b hbm => hb.2 b hbm)
  obtain ⟨lk, a1, a2, a3⟩ := applyAll_chained c l.peerID 0 hf _ bs hpre S hc
  rw [← applyPrefix_eq c l.peerID 0 l.link l.obj.queue I.matching] at a1
  refine ⟨lk, ?_, a3, a2, a3.same, a3.leash⟩
  simp only [step, tick, ha, if_true]
  rw [fire_tick c l c.now I.quiet (Or.inr hs), if_pos (by unfold timeoutDuration; exact hlate)]
  rcases handleFailure_cases c (enter l .done) ha rfl with ⟨lk', e, h, _⟩ | ⟨lk', h, h'⟩
  · have := a1.symm.trans h; cases this
  · have := a1.symm.trans h
    cases this
    rw [h']; rfl

open Chains.Ex in
/-- block 2 is missing, blocks 1 and 3 arrived: block 1 is stored -/
example :
    let l := Ex.after (Ex.listed ++ [Ex.at_ 102 (.block Ex.peer (some (blk 3 2))), Ex.at_ 103 (.block Ex.peer (some (blk 1 0)))])
    l.active = true ∧ l.obj.state = .waitingForBlocks ∧ l.peerID = Ex.peer ∧
    l.obj.queue = [blk 3 2, blk 1 0].foldl put (newQueue ([bid 1] ++ [bid 2, bid 3])) ∧
    Answer [bid 1] [blk 3 2, blk 1 0] [blk 1 0] ∧ (Ex.ctx 132).now - l.obj.timestamp > 30 * second ∧
    (step Peers.Ex.lib l (Ex.at_ 132 .tick)).map (fun l' => (l'.active, LeashOf l'.link Ex.peer, count l'.fc Ex.peer,
      Chains.HasBlock l'.link.db (bid 3))) = .ok (false, .ok (bid 1), 1, .ok false) := by
  refine ⟨by decide +kernel, by decide +kernel, by decide +kernel, by decide +kernel, ⟨by decide +kernel, by decide +kernel⟩,
    by decide +kernel, by decide +kernel⟩

open Chains.Ex in
/-- The queue of an earlier batch is stored again.  Block 1 was loaded and the peer was asked for more ids; then the peer
broadcast block 2 and fell silent.  The timeout of the wait for ids moves the leash back from block 2 to block 1. -/
theorem C44_stale :
    let l := Ex.after (Ex.asked ++ [Ex.at_ 101 (.ids Ex.peer [bid 1]), Ex.at_ 102 (.block Ex.peer (some (blk 1 0))),
      Ex.at_ 103 (.putBlock (blk 2 1) Ex.peer .ok .ok)])
    Reachable Peers.Ex.lib l ∧ l.active = true ∧ l.obj.state = .waitingForIDs ∧ LeashOf l.link Ex.peer = .ok (bid 2) ∧
    (step Peers.Ex.lib l (Ex.at_ 133 .tick)).map (fun l' => LeashOf l'.link Ex.peer) = .ok (.ok (bid 1)) :=
  ⟨Ex.reach _, by decide +kernel, by decide +kernel, by decide +kernel, by decide +kernel⟩

open Chains.Ex in
/-- The leash moves back with the current batch too.  Blocks 1 and 2 are requested and block 1 comes; block 2 comes from
another peer, and the peer broadcasts block 3.  The timeout moves the leash back from block 3 to block 1. -/
theorem C44_back :
    let l := Ex.after (Ex.asked ++ [Ex.at_ 101 (.ids Ex.peer [bid 1, bid 2]), Ex.at_ 102 (.putBlock (blk 1 0) Ex.peer .ok .ok),
      Ex.at_ 102 (.block Ex.peer (some (blk 1 0))), Ex.at_ 103 (.putBlock (blk 2 1) Ex.peer3 .ok .ok),
      Ex.at_ 104 (.putBlock (blk 3 2) Ex.peer .ok .ok)])
    Reachable Peers.Ex.lib l ∧ l.active = true ∧ l.obj.state = .waitingForBlocks ∧
    l.obj.queue = [blk 1 0].foldl put (newQueue [bid 1, bid 2]) ∧ LeashOf l.link Ex.peer = .ok (bid 3) ∧
    (step Peers.Ex.lib l (Ex.at_ 132 .tick)).map (fun l' => LeashOf l'.link Ex.peer) = .ok (.ok (bid 1)) :=
  ⟨Ex.reach _, by decide +kernel, by decide +kernel, by decide +kernel, by decide +kernel, by decide +kernel⟩

/-! ### C45 -/

/-- A tick while an answer is awaited ends the wait exactly when it comes more than thirty seconds after the timestamp;
otherwise it changes nothing. -/
theorem C45_iff {lib : Lib} {l l' : Loader} (R : Reachable lib l) (ha : l.active = true)
    (hw : l.obj.state = .waitingForIDs ∨ l.obj.state = .waitingForBlocks) (c : Ctx) (h : step lib l ⟨c, .tick⟩ = .ok l') :
    (l'.obj.state = .done ↔ c.now - l.obj.timestamp > 30 * second) ∧
    (¬ c.now - l.obj.timestamp > 30 * second → l' = l) := by
  have I := R.inv
  simp only [step, tick, ha, if_true] at h
  rw [fire_tick c l c.now I.quiet hw] at h
  by_cases hl : c.now - l.obj.timestamp > timeoutDuration
  · rw [if_pos hl] at h
    have hl' : c.now - l.obj.timestamp > 30 * second := hl
    refine ⟨⟨fun _ => hl', fun _ => ?_⟩, fun hn => absurd hl' hn⟩
    obtain ⟨rfl, _⟩ := logged_ok h
    rcases handleFailure_cases c (enter l .done) ha rfl with ⟨lk', e, _, h'⟩ | ⟨lk', _, h'⟩ <;> rw [h'] <;> rfl
  · rw [if_neg hl] at h
    cases h
    refine ⟨⟨fun hd => ?_, fun hl' => absurd hl' hl⟩, fun _ => rfl⟩
    rcases hw with hw | hw <;> rw [hw] at hd <;> cases hd

/-- The timestamp is the time of the last request, which went to the peer; it is the zero time as long as no request
could be sent. -/
theorem C45_timestamp {lib : Lib} {l : Loader} (R : Reachable lib l) (ha : l.active = true) :
    l.obj.timestamp = zeroTime ∨
    ∃ s, l.out.getLast? = some s ∧ s.time = l.obj.timestamp ∧ l.obj.peer.conn = some s.to := R.inv.stamp ha

/-- Nothing times out when nothing is waited for. -/
theorem C45_resting {lib : Lib} {l : Loader} (R : Reachable lib l)
    (hw : l.active = false ∨ l.obj.state = .idle ∨ l.obj.state = .done) (c : Ctx) : step lib l ⟨c, .tick⟩ = .ok l := by
  simp only [step, tick]
  cases ha : l.active with
  | false => rfl
  | true =>
    simp only [if_true]
    rw [ha] at hw
    rw [fire_tick_resting c l c.now R.inv.quiet (by
      rintro (h | h) <;> rw [h] at hw <;> rcases hw with hw | hw | hw <;> cases hw)]
    rfl

example :
    let l := Ex.after Ex.asked
    l.active = true ∧ l.obj.state = .waitingForIDs ∧ l.obj.timestamp = 100 * second ∧
    (step Peers.Ex.lib l (Ex.at_ 130 .tick)).map (·.obj.state) = .ok .waitingForIDs ∧
    (step Peers.Ex.lib l (Ex.at_ 131 .tick)).map (fun l' => (l'.obj.state, l'.active)) = .ok (.done, false) := by
  decide +kernel

/-! ### C47 -/

/-- Id lists and blocks from other peers change nothing. -/
theorem C47_others {lib : Lib} (l : Loader) (c : Ctx) (peer : Addr) (hp : peer ≠ l.peerID) (ids : List BlockID)
    (b : Option ProtoBlock) :
    step lib l ⟨c, .ids peer ids⟩ = .ok l ∧ step lib l ⟨c, .block peer b⟩ = .ok l := by
  constructor
  · simp only [step, handleIDs]
    split
    · rfl
    · split
      · rfl
      · rfl
  · simp only [step, handleBlock]
    split
    · rfl
    · rfl

/-- Empty id lists change nothing. -/
theorem C47_empty {lib : Lib} (l : Loader) (c : Ctx) (peer : Addr) : step lib l ⟨c, .ids peer []⟩ = .ok l := by
  simp only [step, handleIDs]
  split
  · rfl
  · rfl

/-- While no synchronisation runs, id lists, blocks and ticks change nothing. -/
theorem C47_inactive {lib : Lib} (l : Loader) (c : Ctx) (ha : l.active = false) (peer : Addr) (ids : List BlockID)
    (b : Option ProtoBlock) :
    step lib l ⟨c, .ids peer ids⟩ = .ok l ∧ step lib l ⟨c, .block peer b⟩ = .ok l ∧ step lib l ⟨c, .tick⟩ = .ok l := by
  simp [step, handleIDs, handleBlock, tick, ha]

/-- So do the answers of the peer that are not waited for. -/
theorem C47_unexpected {lib : Lib} {l : Loader} (R : Reachable lib l) (c : Ctx) (peer : Addr) (ids : List BlockID)
    (b : Option ProtoBlock) :
    (l.obj.state ≠ .waitingForIDs → step lib l ⟨c, .ids peer ids⟩ = .ok l) ∧
    (l.obj.state ≠ .waitingForBlocks → step lib l ⟨c, .block peer b⟩ = .ok l) := by
  constructor
  · intro hs
    simp only [step, handleIDs]
    split
    · rfl
    · split
      · rfl
      · split
        · rfl
        · rw [fire_ids_other c l ids R.inv.quiet hs]; rfl
  · intro hs
    simp only [step, handleBlock]
    split
    · rfl
    · split
      · rfl
      · rw [fire_block_other c l b R.inv.quiet hs]; rfl

/-- a running synchronisation, another peer, and answers out of order -/
example : (Ex.after Ex.asked).active = true ∧ (Ex.after Ex.asked).peerID = Ex.peer ∧ Ex.peer3 ≠ Ex.peer ∧
    (Ex.after Ex.asked).obj.state ≠ .waitingForBlocks ∧ (Ex.after Ex.listed).obj.state ≠ .waitingForIDs := by
  decide +kernel

end Verif.Loading
