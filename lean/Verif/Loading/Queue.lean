import Verif.Chains.Types
/-
Model of loading/queue.go.
-/

set_option autoImplicit false

namespace Verif.Loading

open Verif
open Verif.Chains (BlockID ProtoBlock)

/-- `item`, loading/queue.go:9-12; `none` is a nil block -/
structure Item where
  requested : BlockID
  received : Option ProtoBlock
deriving DecidableEq

/-- `newQueue`, loading/queue.go:18-24 -/
def newQueue (ids : List BlockID) : List Item := ids.map (fun id => ⟨id, none⟩)

/-- `queue.put`, loading/queue.go:26-36: only the first item with the id of the block is filled -/
def put : List Item → ProtoBlock → List Item
  | [], _ => []
  | it :: q, b => if it.requested = b.id then { it with received := some b } :: q else it :: put q b

/-- `queue.put` with a pointer that may be nil, loading/queue.go:27-29 -/
def putOpt (q : List Item) : Option ProtoBlock → List Item
  | none => q
  | some b => put q b

/-- the item holds the block that was requested, loading/queue.go:40 and 70 -/
def Item.filled (it : Item) : Bool :=
  match it.received with
  | none => false
  | some b => decide (b.id = it.requested)

/-- `queue.ready`, loading/queue.go:38-45 -/
def ready (q : List Item) : Bool := q.all Item.filled

/-- `queue.lastReceived`, loading/queue.go:67-79 (used by the tests of the project only) -/
def lastReceived : List Item → Option ProtoBlock
  | [] => none
  | it :: q => if it.filled then (match lastReceived q with | some b => some b | none => it.received) else none

end Verif.Loading
