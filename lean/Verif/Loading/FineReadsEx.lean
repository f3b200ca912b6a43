import Verif.Loading.FineEx
import Verif.Loading.FineReads
/-
Concrete runs of the loader on a disk that fails to read.
-/

set_option autoImplicit false

namespace Verif.Loading.Fine

open Verif
open Verif.Peers (Lib)
open Verif.Chains.Rd (Faults)

/-- what happens next in a concrete run, as `Ex.Move` -/
inductive Ex.RdMove where
  | receive (c : Ctx) (i : Input)
  /-- the loader makes its next call, or ends the handling of the event -/
  | go (D : Disk)
  | other (D : Disk) (x : Other)

def Ex.rdMove (lib : Lib) (w : World) : Ex.RdMove → Option (List Answer × World)
  | .receive c i =>
    match w.todo with
    | none => some ([], { w with todo := some (handle c w.own i), ins := w.ins ++ [(c, i)] })
    | some _ => none
  | .go D =>
    match w.todo with
    | none => none
    | some (.call c k) =>
      some ([⟨c, c.resRd D lib w.sh⟩], ⟨w.own, some (k (c.resRd D lib w.sh)), c.effectRd D w.sh, w.ins,
        w.log ++ (c.op.map (fun o => (true, o))).toList⟩)
    | some (.ret (.ok o)) => some ([], { w with own := o, todo := none })
    | some (.ret (.error _)) => none
  | .other D x => some ([], { w with sh := x.effectRd D lib w.sh, log := w.log ++ (x.op.map (fun o => (false, o))).toList })

theorem Ex.rdMove_step {lib : Lib} {w w' : World} {m : Ex.RdMove} {tr : List Answer} (h : Ex.rdMove lib w m = some (tr, w')) :
    RdStep lib w tr w' := by
  cases m with
  | receive c i =>
    unfold Ex.rdMove at h
    cases ht : w.todo with
    | none => rw [ht] at h; cases h; exact .receive w c i ht
    | some p => rw [ht] at h; cases h
  | go D =>
    unfold Ex.rdMove at h
    cases ht : w.todo with
    | none => rw [ht] at h; cases h
    | some p =>
      rw [ht] at h
      cases p with
      | call c k => cases h; exact .call w D c k ht
      | ret r =>
        cases r with
        | ok o => cases h; exact .finish w o ht
        | error e => cases h
  | other D x => cases h; exact .other w D x

def Ex.rdMoves (lib : Lib) : List Answer × World → List Ex.RdMove → Option (List Answer × World)
  | s, [] => some s
  | s, m :: ms => (Ex.rdMove lib s.2 m).bind (fun r => Ex.rdMoves lib (s.1 ++ r.1, r.2) ms)

theorem Ex.rdMoves_run {lib : Lib} {w0 : World} : ∀ {ms : List Ex.RdMove} {s s' : List Answer × World}, RdRun lib w0 s.1 s.2 →
    Ex.rdMoves lib s ms = some s' → RdRun lib w0 s'.1 s'.2
  | [], _, _, h, e => by cases e; exact h
  | m :: ms, s, s', h, e => by
    unfold Ex.rdMoves at e
    cases hm : Ex.rdMove lib s.2 m with
    | none => rw [hm] at e; cases e
    | some r =>
      rw [hm] at e
      refine Ex.rdMoves_run (s := (s.1 ++ r.1, r.2)) ?_ e
      exact .snoc h (Ex.rdMove_step (show Ex.rdMove lib s.2 m = some (r.1, r.2) from hm))

/-- the answers and the world after some moves -/
def Ex.rdWorld (ms : List Ex.RdMove) : List Answer × World := (Ex.rdMoves Peers.Ex.lib ([], Ex.begin) ms).getD ([], Ex.begin)

theorem Ex.rdWorld_run (ms : List Ex.RdMove) : RdRun Peers.Ex.lib Ex.begin (Ex.rdWorld ms).1 (Ex.rdWorld ms).2 := by
  unfold Ex.rdWorld
  cases h : Ex.rdMoves Peers.Ex.lib ([], Ex.begin) ms with
  | none => exact .nil
  | some s => exact Ex.rdMoves_run .nil h

def Ex.rdGoes (n : Nat) : List Ex.RdMove := List.replicate n (.go .good)

/-- the records of the peers cannot be read -/
def Ex.noPeers : Disk := ⟨.none, ⟨fun _ => true, fun _ => false⟩⟩

/-- the blocks and the leashes cannot be read -/
def Ex.noBlocks : Disk := ⟨⟨fun _ => true, fun _ => false⟩, .none⟩

open Chains.Ex in
/-- The timer starts the synchronisation, the peer lists block 1 and sends it, the loader stores it. -/
def Ex.oneBlock : List Ex.RdMove :=
  .receive (Loading.Ex.ctx 100) .timer :: Ex.rdGoes 5 ++
  .receive (Loading.Ex.ctx 101) (.ids Loading.Ex.peer [bid 0, bid 1]) :: Ex.rdGoes 4 ++
  .receive (Loading.Ex.ctx 102) (.block Loading.Ex.peer (some (blk 1 0))) :: Ex.rdGoes 1

/-- At this moment one read fails: that of the record of the peer. -/
def Ex.unreadPeer : List Ex.RdMove := Ex.oneBlock ++ .go Ex.noPeers :: Ex.rdGoes 1

/-- The record is read, but not the score of the position. -/
def Ex.unreadScore : List Ex.RdMove := Ex.oneBlock ++ .go .good :: .go Ex.noBlocks :: Ex.rdGoes 1

open Chains.Ex in
/-- The peer lists blocks 1 and 2, sends block 1 and then nothing for more than thirty seconds. -/
def Ex.half : List Ex.RdMove :=
  .receive (Loading.Ex.ctx 100) .timer :: Ex.rdGoes 5 ++
  .receive (Loading.Ex.ctx 101) (.ids Loading.Ex.peer [bid 0, bid 1, bid 2]) :: Ex.rdGoes 4 ++
  .receive (Loading.Ex.ctx 102) (.block Loading.Ex.peer (some (blk 1 0))) :: Ex.rdGoes 1

/-- At the next tick block 1 is to be stored, but the store cannot be read. -/
def Ex.unreadStore : List Ex.RdMove := Ex.half ++ .receive (Loading.Ex.ctx 133) .tick :: .go Ex.noBlocks :: Ex.rdGoes 1

end Verif.Loading.Fine
