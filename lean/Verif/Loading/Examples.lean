import Verif.Loading.Run
import Verif.Chains.Examples
import Verif.Peers.Examples
/-
Concrete loaders for the examples beside the theorems.
-/

set_option autoImplicit false

namespace Verif.Loading.Ex

open Verif
open Verif.Chains (Addr BlockID ProtoBlock)
open Verif.Chains.Ex (bid blk g0 l0)
open Verif.Peers (Registry second)
open Verif.KV (Fate)

/-- the peer to synchronise with, 10.0.0.2 -/
def peer : Addr := Chains.Ex.ip 2
/-- another one, 10.0.0.3 -/
def peer3 : Addr := Chains.Ex.ip 3

/-- the clock shows `t` seconds, writes succeed, the first candidate is taken -/
def ctx (t : Int) : Ctx := ⟨Chains.Ex.env, t * second, fun _ => .ok, fun _ => 0⟩

def at_ (t : Int) (op : Op) : Event := ⟨ctx t, op⟩

/-- the peer connects and announces a score -/
def joins (a : Addr) (n : UInt8) (score : Nat) : List Peers.Event :=
  [Peers.Ex.at_ 1 (.suggest .ok a), Peers.Ex.at_ 2 (.register .ok a (Peers.Ex.conn n) (Peers.Ex.hs n)),
   Peers.Ex.at_ 3 (.updateScore .ok a score)]

/-- one connected peer with a high score -/
def reg : Registry := Peers.Ex.run (joins peer 65 (10 ^ 30))

/-- the loader on a store that contains the genesis block only -/
def start : Loader := NewLoader reg l0

/-- the loader after some events, or at the start again if they end in a panic -/
def after (es : List Event) : Loader :=
  match exec Peers.Ex.lib start es with
  | .ok l => l
  | .error _ => start

theorem reach (es : List Event) : Reachable Peers.Ex.lib (after es) := by
  unfold after
  cases h : exec Peers.Ex.lib start es with
  | ok l => exact ⟨reg, l0, es, Peers.Ex.reach _, h⟩
  | error e => exact ⟨reg, l0, [], Peers.Ex.reach _, rfl⟩

/-- the store at the start -/
theorem serving (n : Nat) (h : n + 2 < 2 ^ 32) : Serving g0 n l0 :=
  ⟨l0, [], Chains.Ex.fresh, trivial, (fun _ _ h => by cases h), by simpa [Chains.Spec.inserts] using h, rfl⟩

theorem running (es : List Event) (n : Nat) (h : n + spent Peers.Ex.lib start es + 2 < 2 ^ 32) :
    Running Peers.Ex.lib g0 n (after es) := by
  have h0 : ∀ m, m + 2 < 2 ^ 32 → Running Peers.Ex.lib g0 m start := fun m hm => .start (Peers.Ex.reach _) (serving m hm)
  unfold after
  cases he : exec Peers.Ex.lib start es with
  | ok l => exact (h0 _ h).exec es he
  | error e => exact h0 n (by omega)

/-- a synchronisation was started -/
def asked : List Event := [at_ 100 .timer]
/-- the peer sent ids, the first of which is known -/
def listed : List Event := asked ++ [at_ 101 (.ids peer [bid 0, bid 1, bid 2, bid 3])]

end Verif.Loading.Ex
