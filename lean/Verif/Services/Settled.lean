import Verif.Services.Side
/-
Vocabulary of property C109: what the peers tell the program and what the loader says, and which requests have been answered.
-/

set_option autoImplicit false

namespace Verif.Services.Fine

open Verif
open Verif.Chains (Addr BlockID ProtoBlock)
open Verif.Loading (Sent AsksIDs)
open Verif.Peers (Lib Conn)

/-- a message of a peer that the distributor has handled (distributor.go:143-162), or a message that the loader has sent
(peers/peer.go:62-81) -/
inductive Word where
  | told (q : Sender) (m : Message)
  | said (m : Sent)

/-- What an event adds.  The messages that the loader sends while it handles an event are noted when it has handled the event. -/
def Sys.words (x : Sys) (e : Ev) (x' : Sys) : List Word :=
  match e with
  | .message _ _ q m => [.told q m]
  | _ => (x'.world.own.out.drop x.world.own.out.length).map .said

/-- the conversation in the events `es`, from `x` on -/
def talk (lib : Lib) : Sys → List Ev → List Word
  | _, [] => []
  | x, e :: es =>
    match x.step lib e with
    | some (.ok x') => x.words e x' ++ talk lib x' es
    | _ => []

/-- the ids in a message, if it is an answer to a request for ids: `BlockIdsMessage` or `SignaturesMessage` -/
def _root_.Verif.Services.Message.idList : Message → Option (List BlockID)
  | .blockIds l => some l
  | .signatures l => some (l.map idFromSignature)
  | _ => none

/-- the block in a message, if it is an answer to a request for a block: `BlockMessage` or `PBBlockMessage` -/
def _root_.Verif.Services.Message.theBlock : Message → Option ProtoBlock
  | .block b => b
  | .pbBlock b => b
  | _ => none

/-- `peer` has answered the request `m` in what follows it: it has sent ids, or the block -/
structure Answered (peer : Addr) (m : Sent) (after : List Word) : Prop where
  ids : ∀ req, AsksIDs m.to req m.msg → ∃ q msg l, .told q msg ∈ after ∧ q.remote = some peer ∧ msg.idList = some l ∧ l ≠ []
  block : ∀ id, m.msg = .getBlock id → ∃ q msg b, .told q msg ∈ after ∧ q.remote = some peer ∧ msg.theBlock = some b ∧ b.id = id

/-- `peer` has answered all that it was asked for on the connection -/
def AllAnswered (peer : Addr) (cn : Conn) (W : List Word) : Prop :=
  ∀ W1 m W2, W = W1 ++ .said m :: W2 → m.to = cn → Answered peer m W2

/-- when a block of `peer` arrives, the store can be read and the writes succeed -/
def Undamaged (peer : Addr) (es : List Ev) : Prop :=
  ∀ D c q m b, Ev.message D c q m ∈ es → q.remote = some peer → m.theBlock = some b → D = .good ∧ ∀ j, c.fates j = .ok

/-- the distributor does not wait to pass on ids or a block from `peer` (distributor.go:204-215, 255-282) -/
def NothingHeld (peer : Addr) (x : Sys) : Prop := (∀ l, x.dist ≠ .sending (.ids peer l)) ∧ ∀ b, x.dist ≠ .sending (.block peer b)

/-- the request that begins a synchronisation: the last message, to the connection of the peer, at the time from which the thirty seconds are
counted -/
structure Opens (x : Sys) (m : Sent) : Prop where
  last : x.world.own.out.getLast? = some m
  conn : x.world.own.obj.peer.conn = some m.to
  time : x.world.own.obj.timestamp = m.time

end Verif.Services.Fine
