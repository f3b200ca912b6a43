import Verif.Loading.OwedRun
import Verif.Loading.OwedEx
/-
C108: the loader waits only for what a peer owes.
-/

set_option autoImplicit false

namespace Verif.Loading

open Verif
open Verif.Loading.Fine
open Verif.Chains (Addr BlockID ProtoBlock Linkage)
open Verif.Peers (Lib Registry)

variable {lib : Lib} {w0 w w' : World} {tr tr' : List Fine.Answer} {T : List Entry}

/-- The loader makes its calls one by one among the other goroutines.  If no call of the loader has failed and no list of ids from the peer contained an id twice,
then between two events a synchronisation that is under way waits for something that the peer was asked for on its connection, and that it has not
sent since: ids, or a block of those still missing from the batch.  `timestamp` is the time of the request, so that the thirty seconds are counted
from it.  Missing for the full claim: the same without the two assumptions, see `C108_wrong`. -/
theorem C108_partial (ht0 : w0.todo = none) (ha0 : w0.own.active = false) (h : Talk lib w0 tr T w) (hr : w.todo = none) (ha : w.own.active = true)
    (hf : ∀ x, x ∈ tr → ¬ x.Failed) (hn : NoRepeats w.own.peerID T) :
    (w.own.obj.state = .waitingForIDs ∧ OwesIDs w.own.obj.peer T w.own.obj.timestamp) ∨
    (w.own.obj.state = .waitingForBlocks ∧ ∃ id, id ∈ w.own.obj.queue.map (·.requested) ∧
      OwesBlock w.own.obj.peer T w.own.obj.timestamp id) :=
  (((watch ht0 ha0 h).rest hr) hf ha hn).2.owed

/-- Under the same assumptions a failure of a peer is counted in one case only: at a tick that comes more than thirty seconds after a request to this
peer, during a synchronisation with it, and the peer has not sent since what it was asked for then.  Missing for the full claim: the same without the
two assumptions, see `C108_wrong`. -/
theorem C108_failed_partial (ht0 : w0.todo = none) (ha0 : w0.own.active = false) (h : Talk lib w0 tr T w) (hr : w.todo = none) (c : Ctx) (i : Input)
    (h' : RdRun lib { w with todo := some (handle c w.own i), ins := w.ins ++ [(c, i)] } tr' w')
    (hi : w'.ins = w.ins ++ [(c, i)]) (hr' : w'.todo = none) (hf : ∀ x, x ∈ tr ++ tr' → ¬ x.Failed) (hn : NoRepeats w.own.peerID T)
    (a : Addr) (hc : count w.own.fc a < count w'.own.fc a) :
    i = .tick ∧ w.own.active = true ∧ w.own.obj.peer.addr = a ∧
    ∃ t, c.now - t > timeoutDuration ∧ (OwesIDs w.own.obj.peer T t ∨ ∃ id, OwesBlock w.own.obj.peer T t id) := by
  have hf : NoFail (tr ++ tr') := hf
  have H := (watch ht0 ha0 h).rest hr hf.before
  have hw : w.own.active = true → w.own.obj.triggers = [] ∧ (w.own.obj.state = .waitingForIDs ∨ w.own.obj.state = .waitingForBlocks) := by
    intro ha
    obtain ⟨h1, h2⟩ := H ha hn
    exact ⟨h1, h2.owed.imp (·.1) (·.1)⟩
  rcases all_run rfl (all_afterwards c w.own i hw) h' hi with ⟨p, hp, _⟩ | ⟨_, hq⟩
  · rw [hr'] at hp; cases hp
  · obtain ⟨b1, b2, b3, b4⟩ := (hq _ rfl hf.after).1 a hc
    refine ⟨b3, b2, b1.symm, w.own.obj.timestamp, b4, ?_⟩
    rcases (H b2 hn).2.owed with ⟨_, h⟩ | ⟨_, id, _, h⟩
    · exact Or.inl h
    · exact Or.inr ⟨id, h⟩

/-- The full claim, that only a peer that owes something is waited for and counted as failed, is false.  In both runs the peer has sent everything that it was
asked for, and the loader waits until the tick and counts a failure: the peer listed an id twice (no call failed); the store could not be read when the
list of ids came, so that nothing was requested. -/
theorem C108_wrong :
    ∀ ms, ms ∈ [Fine.Ex.listedTwice, Fine.Ex.unreadList] →
      Talk Peers.Ex.lib (World.start Ex.honestReg Chains.Ex.l0) (Fine.Ex.talk ms).1 (Fine.Ex.talk ms).2.1 (Fine.Ex.talk ms).2.2 ∧
      (Fine.Ex.talk ms).2.2.todo = none ∧ (Fine.Ex.talk ms).2.2.own.active = true ∧ (Fine.Ex.talk ms).2.2.own.obj.peer.addr = Ex.peer ∧
      (∀ t, ¬ OwesIDs (Fine.Ex.talk ms).2.2.own.obj.peer (Fine.Ex.talk ms).2.1 t) ∧
      (∀ t id, ¬ OwesBlock (Fine.Ex.talk ms).2.2.own.obj.peer (Fine.Ex.talk ms).2.1 t id) ∧
      count (Fine.Ex.talk ms).2.2.own.fc Ex.peer = 0 ∧
      ∃ n, (Fine.Ex.talk (ms ++ .receive (Ex.ctx 140) .tick :: Fine.Ex.rdGoes n)).2.2.todo = none ∧
        count (Fine.Ex.talk (ms ++ .receive (Ex.ctx 140) .tick :: Fine.Ex.rdGoes n)).2.2.own.fc Ex.peer = 1 := by
  intro ms hm
  simp only [List.mem_cons, List.not_mem_nil, or_false] at hm
  rcases hm with rfl | rfl
  · obtain ⟨k1, k2⟩ := Fine.Ex.owes_nothing Fine.Ex.listedTwice (by decide +kernel)
    exact ⟨Fine.Ex.talk_talk _, rfl, rfl, rfl, k1, k2, rfl, 2, rfl, rfl⟩
  · obtain ⟨k1, k2⟩ := Fine.Ex.owes_nothing Fine.Ex.unreadList (by decide +kernel)
    exact ⟨Fine.Ex.talk_talk _, rfl, rfl, rfl, k1, k2, rfl, 1, rfl, rfl⟩

/-- A refused block: the peer has sent everything that it was asked for, but the parent of its block is unknown.  The loader waits, and the late tick
does not even count a failure: the loader is in its final state, from which nothing leads (C103_stuck). -/
theorem C108_refused :
    Talk Peers.Ex.lib (World.start Ex.honestReg Chains.Ex.l0) (Fine.Ex.talk Fine.Ex.orphan).1 (Fine.Ex.talk Fine.Ex.orphan).2.1
      (Fine.Ex.talk Fine.Ex.orphan).2.2 ∧
    (Fine.Ex.talk Fine.Ex.orphan).2.2.todo = none ∧ (Fine.Ex.talk Fine.Ex.orphan).2.2.own.active = true ∧
    (Fine.Ex.talk Fine.Ex.orphan).2.2.own.obj.state = .waitingForBlocks ∧
    (∀ t, ¬ OwesIDs (Fine.Ex.talk Fine.Ex.orphan).2.2.own.obj.peer (Fine.Ex.talk Fine.Ex.orphan).2.1 t) ∧
    (∀ t id, ¬ OwesBlock (Fine.Ex.talk Fine.Ex.orphan).2.2.own.obj.peer (Fine.Ex.talk Fine.Ex.orphan).2.1 t id) ∧
    (let w := (Fine.Ex.talk (Fine.Ex.orphan ++ .receive (Ex.ctx 140) .tick :: Fine.Ex.rdGoes 2)).2.2
     w.todo = none ∧ w.own.active = true ∧ w.own.obj.state = .done ∧ count w.own.fc Ex.peer = 0) := by
  obtain ⟨k1, k2⟩ := Fine.Ex.owes_nothing Fine.Ex.orphan (by decide +kernel)
  exact ⟨Fine.Ex.talk_talk _, rfl, rfl, rfl, k1, k2, rfl, rfl, rfl, rfl⟩

/-! ### concrete runs -/

/-- the hypotheses of `C108_partial` and what it says: the peer has sent block 1 of two and owes block 2 -/
example :
    let s := Fine.Ex.talk Fine.Ex.half
    Talk Peers.Ex.lib (World.start Ex.honestReg Chains.Ex.l0) s.1 s.2.1 s.2.2 ∧ s.2.2.todo = none ∧ s.2.2.own.active = true ∧
    (∀ x, x ∈ s.1 → ¬ x.Failed) ∧ NoRepeats s.2.2.own.peerID s.2.1 ∧ s.2.2.own.obj.state = .waitingForBlocks ∧
    OwesBlock s.2.2.own.obj.peer s.2.1 (Ex.ctx 101).now (Chains.Ex.bid 2) :=
  ⟨Fine.Ex.talk_talk _, rfl, rfl, Fine.Ex.none_failed _ rfl, Fine.Ex.no_repeats _ _ (by decide +kernel), rfl,
    [.heard .timer, .said ⟨(Ex.ctx 100).now, _, .getBlockIds [Chains.Ex.bid 0]⟩, .heard (.ids Ex.peer [Chains.Ex.bid 0, Chains.Ex.bid 1, Chains.Ex.bid 2]),
      .said ⟨(Ex.ctx 101).now, _, .getBlock (Chains.Ex.bid 1)⟩], ⟨(Ex.ctx 101).now, _, .getBlock (Chains.Ex.bid 2)⟩, [.heard (.block Ex.peer (some (Chains.Ex.blk 1 0)))],
    rfl, rfl, rfl, rfl, fun b h => by cases List.mem_singleton.mp h; decide⟩

/-- the hypotheses of `C108_failed_partial`: the late tick after it counts a failure -/
example :
    let w := (Fine.Ex.talk Fine.Ex.half).2.2
    let s := Fine.Ex.talk (Fine.Ex.half ++ .receive (Ex.ctx 140) .tick :: Fine.Ex.rdGoes 2)
    s.2.2.todo = none ∧ s.2.2.ins = w.ins ++ [(Ex.ctx 140, .tick)] ∧ count w.own.fc Ex.peer < count s.2.2.own.fc Ex.peer ∧
    ∀ x, x ∈ s.1 → ¬ x.Failed :=
  ⟨rfl, rfl, by decide +kernel, Fine.Ex.none_failed _ rfl⟩

end Verif.Loading
