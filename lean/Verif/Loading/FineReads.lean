import Verif.Loading.Fine
import Verif.Chains.Reads
import Verif.Peers.Reads
/-
The history loader, one call at a time, on a disk that fails to read.

The programs are those of `Loading/Fine.lean`.  What changes is what the calls on the store and on the registry
answer and do: the functions of `Chains/Reads.lean` and `Peers/Reads.lean` take the place of those of
`Chains/Store.lean`, `Chains/Linkage.lean` and `Peers/Registry.lean`.  The disk may be in another condition at every call.
-/

set_option autoImplicit false

namespace Verif.Loading.Fine

open Verif
open Verif.Chains.Rd (Faults)
open Verif.Peers (Lib Registry)
open Verif.Chains (Linkage)

/-- what is wrong with the two databases (chains/storage.go:47, peers/storage.go:57) during a call -/
structure Disk where
  chains : Faults
  peers : Faults

/-- a disk that reads well -/
def Disk.good : Disk := ⟨.none, .none⟩

/-- the answer to a call, as `Call.res` -/
def Call.resRd (D : Disk) (lib : Lib) (s : Shared) : (c : Call) → c.Res
  | .hasBlock id => Chains.Rd.HasBlock D.chains s.link.db id
  | .leashOf a => Chains.Rd.LeashOf D.chains s.link a
  | .leashScore a => Chains.Rd.LeashScore D.chains s.link a
  | .lastIDs id n => Chains.Rd.LastIDs D.chains s.link.db id n
  | .lcb env a => Chains.Rd.LCB D.chains env s.link a
  | .moveLeash f id a => (Chains.MoveLeash f s.link.db id a).2
  | .putBlock f1 f2 b a => (Chains.Rd.PutBlock D.chains f1 f2 s.link.db b a).2
  | .connections env => Peers.Rd.Connections D.peers lib env s.reg
  | .peerOf a => Peers.Rd.PeerOf D.peers s.reg a

/-- what a call does to the store, as `Call.effect` -/
def Call.effectRd (D : Disk) (c : Call) (s : Shared) : Shared :=
  match c.op with
  | some o => { s with link := (Chains.Rd.step D.chains s.link o).1 }
  | none => s

/-- what a call of another goroutine does, as `Other.effect` -/
def Other.effectRd (D : Disk) (lib : Lib) (x : Other) (s : Shared) : Shared :=
  match x with
  | .registry e => { s with reg := Peers.Rd.step D.peers lib s.reg e }
  | .putBlock b a f1 f2 => { s with link := (Chains.Rd.step D.chains s.link (.putBlock b a f1 f2)).1 }
  | .putMicro inv a f1 f2 => { s with link := (Chains.Rd.step D.chains s.link (.putMicro inv a f1 f2)).1 }

/-- a call of the loader and what it was answered -/
structure Answer where
  call : Call
  res : call.Res

/-- the call returned an error -/
def Answer.Failed : Answer → Prop
  | ⟨.hasBlock _, r⟩ => ∃ e, r = fail e
  | ⟨.leashOf _, r⟩ => ∃ e, r = fail e
  | ⟨.leashScore _, r⟩ => ∃ e, r = fail e
  | ⟨.lastIDs _ _, r⟩ => ∃ e, r = fail e
  | ⟨.lcb _ _, r⟩ => ∃ e, r = fail e
  | ⟨.moveLeash _ _ _, r⟩ => ∃ e, r = fail e
  | ⟨.putBlock _ _ _ _, r⟩ => ∃ e, r = fail e
  | ⟨.connections _, r⟩ => ∃ e, r = fail e
  | ⟨.peerOf _, r⟩ => ∃ e, r = fail e

/-- One step, as `Step`.  The list contains the answer if the step is a call of the loader.  A call of the loader that may write is
recorded in `log` also if it fails. -/
inductive RdStep (lib : Lib) : World → List Answer → World → Prop where
  | receive (w : World) (c : Ctx) (i : Input) (h : w.todo = none) :
      RdStep lib w [] { w with todo := some (handle c w.own i), ins := w.ins ++ [(c, i)] }
  | call (w : World) (D : Disk) (c : Call) (k : c.Res → Proc (Go Own)) (h : w.todo = some (.call c k)) :
      RdStep lib w [⟨c, c.resRd D lib w.sh⟩]
        ⟨w.own, some (k (c.resRd D lib w.sh)), c.effectRd D w.sh, w.ins, w.log ++ (c.op.map (fun o => (true, o))).toList⟩
  | finish (w : World) (o : Own) (h : w.todo = some (.ret (.ok o))) :
      RdStep lib w [] { w with own := o, todo := none }
  | other (w : World) (D : Disk) (x : Other) :
      RdStep lib w [] { w with sh := x.effectRd D lib w.sh, log := w.log ++ (x.op.map (fun o => (false, o))).toList }

/-- any number of steps, with the answers that the loader got -/
inductive RdRun (lib : Lib) (w : World) : List Answer → World → Prop where
  | nil : RdRun lib w [] w
  | snoc {v v' : World} {tr tr' : List Answer} (h : RdRun lib w tr v) (t : RdStep lib v tr' v') : RdRun lib w (tr ++ tr') v'

end Verif.Loading.Fine
