import Verif.Services.FaultyInv
import Verif.Services.Examples
import Verif.Loading.FineReadsEx
/-
Concrete executions of the program of `Services/Faulty.lean`.
-/

set_option autoImplicit false

namespace Verif.Services.Fine.Ex

open Verif
open Verif.Chains.Ex (bid blk l0)
open Verif.Peers (second Lib)
open Verif.Loading.Ex (ctx peer peer3)
open Verif.Loading.Fine (Disk Answer)
open Verif.Services.Ex (p2 p3)

/-- started on an empty database with one seed peer, 10.0.0.2, and no listener -/
def begin : Sys := Sys.start .good Peers.Ex.cfg (Peers.Ex.run []).db Peers.Ex.ok [some ⟨peer, 6868⟩] l0 false

/-- the events one after the other; all of them must be possible -/
def run (lib : Lib) : Sys → List Ev → Option (List Answer × Sys)
  | s, [] => some ([], s)
  | s, e :: es =>
    match s.step lib e with
    | some (.ok s') => (run lib s' es).map (fun x => (s.answer lib e ++ x.1, x.2))
    | _ => none

theorem run_path {lib : Lib} {s s' : Sys} {es : List Ev} {tr : List Answer} (h : run lib s es = some (tr, s')) : Path lib s es tr s' := by
  induction es generalizing s tr with
  | nil => cases h; exact .nil
  | cons e es ih =>
    rw [run] at h
    split at h
    · rename_i s1 h1
      rw [Option.map_eq_some_iff] at h
      obtain ⟨⟨tr1, s2⟩, h2, h3⟩ := h
      cases h3
      exact (ih h2).cons h1
    · cases h

/-- the state after some events -/
def after (es : List Ev) : Option Sys := (run Peers.Ex.lib begin es).map (·.2)

theorem after_path {es : List Ev} {s : Sys} (h : after es = some s) : ∃ tr, Path Peers.Ex.lib begin es tr s := by
  unfold after at h
  rw [Option.map_eq_some_iff] at h
  obtain ⟨⟨tr, s'⟩, h1, rfl⟩ := h
  exact ⟨tr, run_path h1⟩

def go (n : Nat) : List Ev := List.replicate n (.go .good)

/-- no record of a peer can be read -/
def noPeers : Disk := Loading.Fine.Ex.noPeers
/-- no block and no leash can be read -/
def noBlocks : Disk := Loading.Fine.Ex.noBlocks

/-- the peer 10.0.0.2 is connected and announces a score -/
def joined : List Ev :=
  [.suggest .good .ok (1 * second) peer, .connected .good (ctx 2) p2, .message .good (ctx 3) p2 (.score (be64 (2 ^ 63)))]

/-- the loader asks it for ids, it sends those of blocks 0 and 1, and the loader asks for block 1 -/
def asking : List Ev :=
  joined ++ .timer (ctx 100) :: go 5 ++ .message .good (ctx 101) p2 (.blockIds [bid 0, bid 1]) :: .take (ctx 101) :: go 4

end Verif.Services.Fine.Ex
