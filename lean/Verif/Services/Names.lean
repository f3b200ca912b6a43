import Verif.Loading.Loader
import Verif.Peers.Types
import Verif.Services.Netip
/-
The texts with which the log names states, events, heads and batches of blocks: loading/state_string.go, loading/event_string.go,
peers/state_string.go, `Head.String` and `queue.rangeString`.  Formatting with `%s` and `%d` is `fmt` as it is known; the short form of an id
(`ShortString` of gowaves) and its text are parameters.
-/

set_option autoImplicit false

namespace Verif.Services.Names

open Verif
open Verif.Chains (BlockID)
open Verif.Loading (Item)
open Verif.Services.Json (digits number)
open Verif.Services.Netip (chars)

/-- a slice `s[a:b]` of a text in Go, which panics if the bounds do not fit -/
def slice (s : List Char) (a b : Nat) : Go (List Char) :=
  if a ≤ b ∧ b ≤ s.length then .ok ((s.drop a).take (b - a)) else goPanic

/-- an element of an array, which panics if there is none -/
def index (l : List Nat) (i : Nat) : Go Nat :=
  match l[i]? with
  | some x => .ok x
  | none => goPanic

/-- what `stringer` generates for a type with the name `type`, loading/state_string.go:20-26, loading/event_string.go:23-29; in
peers/state_string.go:20-25 the test `i < 0` is missing since the type is not signed -/
def stringer (type name : List Char) (idx : List Nat) (i : Int) : Go (List Char) :=
  if i < 0 ∨ i ≥ (idx.length : Int) - 1 then .ok (type ++ '(' :: (chars (number i) ++ [')']))
  else do
    let a ← index idx i.toNat
    let b ← index idx (i.toNat + 1)
    slice name a b

/-- `state.String`, loading/state_string.go:16-26 -/
def loadingState : Int → Go (List Char) :=
  stringer "state".toList "IdleWaitingForIDsWaitingForBlocksDone".toList [0, 4, 17, 33, 37]

/-- `event.String`, loading/event_string.go:19-29 -/
def loadingEvent : Int → Go (List Char) :=
  stringer "event".toList "StartRestartIDsBlockTickTimeoutQueueReady".toList [0, 5, 12, 15, 20, 24, 31, 41]

/-- `State.String`, peers/state_string.go:16-25 -/
def peerState (i : UInt8) : Go (List Char) :=
  stringer "State".toList "UnknownConnectedHostile".toList [0, 7, 16, 23] i.toNat

/-- the numbers of the states of a loader, loading/state.go:6-11 -/
def ofLoading : Loading.State → Int
  | .idle => 0
  | .waitingForIDs => 1
  | .waitingForBlocks => 2
  | .done => 3

/-- the numbers of the states of a peer, peers/state.go:6-10 -/
def ofPeer : Peers.State → UInt8
  | .unknown => 0
  | .connected => 1
  | .hostile => 2

/-- the loop of `queue.rangeString`, loading/queue.go:52-57 -/
def countLoop : Nat → List Item → Nat
  | n, [] => n
  | n, it :: q =>
    match it.received with
    | none => countLoop n q
    | some b => countLoop (if it.requested = b.id then n + 1 else n) q

/-- an item of the queue, which panics if there is none -/
def item (q : List Item) (i : Nat) : Go Item :=
  match q[i]? with
  | some x => .ok x
  | none => goPanic

/-- `queue.rangeString`, loading/queue.go:47-64 -/
def rangeString (short : BlockID → List Char) (q : List Item) : Go (List Char) :=
  if q.length = 0 then .ok "[](EMPTY)".toList
  else do
    let size :=
      if countLoop 0 q = q.length then "READY/".toList ++ chars (digits q.length)
      else chars (digits (countLoop 0 q)) ++ '/' :: chars (digits q.length)
    let a ← item q 0
    let b ← item q (q.length - 1)
    .ok ('[' :: (short a.requested ++ '.' :: '.' :: (short b.requested ++ ']' :: '(' :: (size ++ [')']))))

end Verif.Services.Names
