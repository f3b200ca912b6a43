import Verif.Loading.Honest
/-
Vocabulary of property C131: the blocks that are requested.
-/

set_option autoImplicit false

namespace Verif.Loading

open Verif.Chains (BlockID)

/-- the id in a request for a block, the message of peers/peer.go:79-81 -/
def wants : Msg → Option BlockID
  | .getBlock id => some id
  | _ => none

/-- the ids of the blocks that are requested, in the order of the requests -/
def wanted (out : List Sent) : List BlockID := out.filterMap (fun m => wants m.msg)

end Verif.Loading
