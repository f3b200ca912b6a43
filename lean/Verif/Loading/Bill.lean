import Verif.Loading.Fine
import Verif.Loading.Frugal
/-
Vocabulary of property C134: what an input of the loader may cost in messages.
-/

set_option autoImplicit false

namespace Verif.Loading.Fine

open Verif
open Verif.Chains (BlockID)

/-- the ids that an input lists -/
def Input.listed : Input → List BlockID
  | .ids _ l => l
  | _ => []

/-- the messages that an input may cause: one for every id that it lists, one for a block, and one for the timer that starts a
synchronisation -/
def Input.due : Input → Nat
  | .ids _ l => max 1 l.length
  | .block _ _ => 1
  | .timer => 1
  | .tick => 0

/-- the inputs after which the loader may ask for ids: all but the ticks -/
def Input.asks : Input → Bool
  | .tick => false
  | _ => true

/-- everything that was listed -/
def listedIn (ins : List (Ctx × Input)) : List BlockID := ins.flatMap (fun x => x.2.listed)

/-- the messages that all inputs together may cause -/
def dueIn (ins : List (Ctx × Input)) : Nat := (ins.map (fun x => x.2.due)).sum

/-- the number of inputs after which the loader may ask for ids -/
def asksIn (ins : List (Ctx × Input)) : Nat := ins.countP (fun x => x.2.asks)

end Verif.Loading.Fine
