import Verif.Loading.FineReads
import Verif.Loading.Spec
/-
Vocabulary of property C108: what a peer has been asked for and has not sent.
-/

set_option autoImplicit false

namespace Verif.Loading.Fine

open Verif
open Verif.Chains (Addr BlockID)
open Verif.Peers (Lib Peer)

/-- what passes between the loader and the others: what it receives (loading/loader.go:160-183), and what it sends
(peers/peer.go:62-81) -/
inductive Entry where
  | heard (i : Input)
  | said (m : Sent)

/-- Any number of steps from `w0` on, as `RdRun`; the second list says what the loader has received and sent, in this order.  The messages that
the loader sends while it handles an event are noted when it has handled the event, since it receives nothing before that. -/
inductive Talk (lib : Lib) (w0 : World) : List Answer → List Entry → World → Prop where
  | start : Talk lib w0 [] [] w0
  | receive {tr : List Answer} {T : List Entry} {w : World} (h : Talk lib w0 tr T w) (c : Ctx) (i : Input) (ht : w.todo = none) :
      Talk lib w0 tr (T ++ [.heard i]) { w with todo := some (handle c w.own i), ins := w.ins ++ [(c, i)] }
  | call {tr : List Answer} {T : List Entry} {w : World} (h : Talk lib w0 tr T w) (D : Disk) (c : Call) (k : c.Res → Proc (Go Own))
      (ht : w.todo = some (.call c k)) : Talk lib w0 (tr ++ [⟨c, c.resRd D lib w.sh⟩]) T
        ⟨w.own, some (k (c.resRd D lib w.sh)), c.effectRd D w.sh, w.ins, w.log ++ (c.op.map (fun o => (true, o))).toList⟩
  | finish {tr : List Answer} {T : List Entry} {w : World} (h : Talk lib w0 tr T w) (o : Own) (ht : w.todo = some (.ret (.ok o))) :
      Talk lib w0 tr (T ++ (o.out.drop w.own.out.length).map .said) { w with own := o, todo := none }
  | other {tr : List Answer} {T : List Entry} {w : World} (h : Talk lib w0 tr T w) (D : Disk) (x : Other) :
      Talk lib w0 tr T { w with sh := x.effectRd D lib w.sh, log := w.log ++ (x.op.map (fun o => (false, o))).toList }

/-- at the time `t` the peer has been asked for ids, and it has sent none since -/
def OwesIDs (p : Peer) (T : List Entry) (t : Int) : Prop :=
  ∃ T1 m req T2, T = T1 ++ .said m :: T2 ∧ m.time = t ∧ p.conn = some m.to ∧ AsksIDs m.to req m.msg ∧
    ∀ l, .heard (.ids p.addr l) ∈ T2 → l = []

/-- at the time `t` the peer has been asked for the block `id`, and it has not sent it since -/
def OwesBlock (p : Peer) (T : List Entry) (t : Int) (id : BlockID) : Prop :=
  ∃ T1 m T2, T = T1 ++ .said m :: T2 ∧ m.time = t ∧ p.conn = some m.to ∧ m.msg = .getBlock id ∧
    ∀ b, .heard (.block p.addr (some b)) ∈ T2 → b.id ≠ id

/-- no list of ids that was received from `a` contains an id twice -/
def NoRepeats (a : Addr) (T : List Entry) : Prop := ∀ l, .heard (.ids a l) ∈ T → l.Nodup

/-- these are the runs of `RdRun` -/
theorem Talk.run {lib : Lib} {w0 w : World} {tr : List Answer} {T : List Entry} (h : Talk lib w0 tr T w) : RdRun lib w0 tr w := by
  induction h with
  | start => exact .nil
  | receive _ c i ht ih => simpa using ih.snoc (.receive _ c i ht)
  | call _ D c k ht ih => exact ih.snoc (.call _ D c k ht)
  | finish _ o ht ih => simpa using ih.snoc (.finish _ o ht)
  | other _ D x ih => simpa using ih.snoc (.other _ D x)

theorem RdRun.talk {lib : Lib} {w0 w : World} {tr : List Answer} (h : RdRun lib w0 tr w) : ∃ T, Talk lib w0 tr T w := by
  induction h with
  | nil => exact ⟨_, .start⟩
  | snoc _ t ih =>
    obtain ⟨T, h⟩ := ih
    cases t with
    | receive c i ht => exact ⟨_, by simpa using h.receive c i ht⟩
    | call D c k ht => exact ⟨_, h.call D c k ht⟩
    | finish o ht => exact ⟨_, by simpa using h.finish o ht⟩
    | other D x => exact ⟨_, by simpa using h.other D x⟩

end Verif.Loading.Fine
