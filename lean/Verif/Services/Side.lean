import Verif.Services.FaultyExact
import Verif.Services.Whole
import Verif.Loading.AmongStart
/-
Vocabulary of property C107: a synchronisation with an honest peer in the program of `Services/Faulty.lean`, where the loader
makes its calls one by one while the other goroutines work.
-/

set_option autoImplicit false

namespace Verif.Services.Fine

open Verif
open Verif.Chains (Addr BlockID ProtoBlock MicroInv Linkage)
open Verif.Loading (Begun GenuineMicro)
open Verif.Loading.Fine (NotBehind Disk)
open Verif.Peers (Lib second)

/-- the block that a message is about, and the peer that sent it -/
def Ev.about : Ev → Option (Addr × BlockID)
  | .message _ _ p (.block (some b)) => p.remote.map (fun a => (a, b.id))
  | .message _ _ p (.pbBlock (some b)) => p.remote.map (fun a => (a, b.id))
  | .message _ _ p (.microBlockInv (some inv)) => p.remote.map (fun a => (a, inv.totalBlockID))
  | _ => none

/-- What is asked of `peer` and of the program itself while it synchronises with `peer`, a node with the history `ch` and the
score `s`.  The peer announces its score; a list of its ids that reaches the loader is an answer to the last request from the
history; while the loader handles an event, the peer sends no block that is off the history or before its position.  The loader
can read the databases, its writes succeed, and no tick comes more than thirty seconds after the last progress. -/
structure Patient (peer : Addr) (s : Nat) (ch : List ProtoBlock) (x : Sys) (e : Ev) : Prop where
  disk : ∀ D, e = .go D → D = .good
  score : ∀ D c q b, e = .message D c q (.score b) → q.remote = some peer → setBytes b = s
  ids : ∀ c ids, e = .take c → x.dist = .sending (.ids peer ids) → Answers ch (x.world.own.on x.world.sh) ids
  forth : x.world.todo ≠ none → ∀ a id, e.about = some (a, id) → peer.plain = a.plain → NotBehind peer ch x.world.sh id
  take : ∀ c, e = .take c → ∀ j, c.fates j = .ok
  tick : ∀ c, e = .tick c → c.now - x.world.own.obj.timestamp ≤ 30 * second

/-- What is asked of an event: besides, nobody sends false blocks of the history, and the package that the loader takes has none
from `peer`.  There is no other condition: connections come and go, other peers say what they like, writes and reads of the other
goroutines fail. -/
structure Civil (peer : Addr) (s s0 : Nat) (ch : List ProtoBlock) (x : Sys) (e : Ev) : Prop extends Patient peer s ch x e where
  block : ∀ D c q b, e = .message D c q (.block (some b)) ∨ e = .message D c q (.pbBlock (some b)) → Loading.Genuine ch b
  micro : ∀ D c q inv, e = .message D c q (.microBlockInv (some inv)) → GenuineMicro s0 ch x.world.sh.link.db inv
  held : ∀ c b, e = .take c → x.dist = .sending (.block peer b) → Loading.Genuine ch b

/-- The states of the program, and the events, from the beginning of a synchronisation in `x0` until it ends. -/
inductive Side (lib : Lib) (peer : Addr) (s s0 : Nat) (ch : List ProtoBlock) (x0 : Sys) : List Ev → Sys → Prop where
  | start : Side lib peer s s0 ch x0 [] x0
  | step {es : List Ev} {x x' : Sys} (e : Ev) (h : Side lib peer s s0 ch x0 es x) (ha : x.world.own.active = true)
      (hc : Civil peer s s0 ch x e) (hs : x.step lib e = some (.ok x')) : Side lib peer s s0 ch x0 (es ++ [e]) x'

/-- The same, with only what is asked of the peer and of the program. -/
inductive Along (lib : Lib) (peer : Addr) (s : Nat) (ch : List ProtoBlock) (x0 : Sys) : List Ev → Sys → Prop where
  | start : Along lib peer s ch x0 [] x0
  | step {es : List Ev} {x x' : Sys} (e : Ev) (h : Along lib peer s ch x0 es x) (ha : x.world.own.active = true)
      (hc : Patient peer s ch x e) (hs : x.step lib e = some (.ok x')) : Along lib peer s ch x0 (es ++ [e]) x'

/-- The states of the program, and the events, from `x0` on, where the loader has begun to handle an event, until it has handled it.
The loader can read the databases. -/
inductive Busy (lib : Lib) (x0 : Sys) : List Ev → Sys → Prop where
  | start : Busy lib x0 [] x0
  | step {es : List Ev} {x x' : Sys} (e : Ev) (h : Busy lib x0 es x) (hb : x.world.todo ≠ none) (hg : ∀ D, e = .go D → D = .good)
      (hs : x.step lib e = some (.ok x')) : Busy lib x0 (es ++ [e]) x'

/-- every message of the execution tells the truth -/
def Sincere (T : Chains.Spec.Truth) (es : List Ev) : Prop := ∀ D c p m, Ev.message D c p m ∈ es → m.Truthful T

/-- what the distributor holds, if it is from `peer`, is an honest answer, or a block that is not false -/
def Sys.Clean (peer : Addr) (ch : List ProtoBlock) (x : Sys) : Prop :=
  (∀ ids, x.dist = .sending (.ids peer ids) → x.world.todo = none ∧ Answers ch (x.world.own.on x.world.sh) ids) ∧
  ∀ b, x.dist = .sending (.block peer b) → Loading.Genuine ch b

end Verif.Services.Fine
