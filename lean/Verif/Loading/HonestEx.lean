import Verif.Loading.HonestSteps
import Verif.Loading.Examples
/-
A concrete history and a loader for the examples of property C89.
-/

set_option autoImplicit false

namespace Verif.Loading

open Verif
open Verif.Chains (ProtoBlock)

/-- four blocks, the genesis block first -/
def Ex.chain : List ProtoBlock := [Chains.Ex.g0, Chains.Ex.blk 1 0, Chains.Ex.blk 2 1, Chains.Ex.blk 3 2]

/-- the score of the genesis block -/
def Ex.base : Nat := 2 ^ 64 / 100

/-- the peer announces the score of the history -/
def Ex.honestReg : Peers.Registry := Peers.Ex.run (Ex.joins Ex.peer 65 (worth Ex.base Ex.chain 3))

/-- the loader after some events -/
def Ex.honest (es : List Event) : Loader :=
  match exec Peers.Ex.lib (NewLoader Ex.honestReg Chains.Ex.l0) es with
  | .ok l => l
  | .error _ => NewLoader Ex.honestReg Chains.Ex.l0

theorem Ex.chain_history : History Ex.chain where
  linked := by
    intro i a b ha hb
    match i with
    | 0 => cases ha; cases hb; rfl
    | 1 => cases ha; cases hb; rfl
    | 2 => cases ha; cases hb; rfl
    | k + 3 => cases hb
  ids := by decide +kernel
  sound := by
    intro i b hb
    match i with
    | 0 => cases hb; decide +kernel
    | 1 => cases hb; decide +kernel
    | 2 => cases hb; decide +kernel
    | k + 3 => cases hb

theorem Ex.chain_faithful : Faithful Ex.base Ex.chain Chains.Ex.l0.db :=
  faithful_fresh Ex.chain_history Chains.Ex.fresh rfl ⟨_, rfl, by decide +kernel⟩

end Verif.Loading
