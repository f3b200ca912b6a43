import Verif.Services.Genuine
import Verif.Loading.HonestSteps
/-
Vocabulary of property C97: a synchronisation with an honest peer as the whole
program sees it, from the messages on.
-/

set_option autoImplicit false

namespace Verif.Services

open Verif
open Verif.Chains (Addr BlockID ProtoBlock MicroInv Linkage)
open Verif.Loading (Loader Sent AsksIDs Begun GenuineMicro Session)
open Verif.Peers (Lib second)

/-- the ids are an honest answer to the last request, if they are one at all -/
def Answers (ch : List ProtoBlock) (l : Loader) (ids : List BlockID) : Prop :=
  l.obj.state = .waitingForIDs → ids ≠ [] → ∀ m req, l.out.getLast? = some m → AsksIDs m.to req m.msg → Loading.Follows ch req ids

/-- What is asked of `peer` and of the program itself while it synchronises with `peer`, a node with the history `ch` and
the score `s`.  The peer announces its score and answers requests for ids from its history.  The writes of the loader
succeed, and no tick comes more than thirty seconds after the last progress. -/
structure Replies (peer : Addr) (s : Nat) (ch : List ProtoBlock) (p : Prog) (e : Ev) : Prop where
  score : ∀ c q b, e = .message c q (.score b) → q.remote = some peer → setBytes b = s
  ids : ∀ c q ids, e = .message c q (.blockIds ids) → q.remote = some peer → Answers ch p.l ids
  signatures : ∀ c q sigs, e = .message c q (.signatures sigs) → q.remote = some peer → Answers ch p.l (sigs.map idFromSignature)
  take : ∀ c, e = .take c → ∀ j, c.fates j = .ok
  tick : ∀ c, e = .tick c → c.now - p.l.obj.timestamp ≤ 30 * second

/-- What is asked of an event: besides, nobody sends false blocks of the history.  There is no other condition: connections
come and go, other peers say what they like, writes of the distributor fail. -/
structure Upright (peer : Addr) (s s0 : Nat) (ch : List ProtoBlock) (p : Prog) (e : Ev) : Prop extends Replies peer s ch p e where
  block : ∀ c q x, e = .message c q (.block (some x)) ∨ e = .message c q (.pbBlock (some x)) → Loading.Genuine ch x
  micro : ∀ c q inv, e = .message c q (.microBlockInv (some inv)) → GenuineMicro s0 ch p.l.link.db inv

/-- what the distributor holds for the loader is honest if it is from `peer` -/
def Prog.Clean (peer : Addr) (ch : List ProtoBlock) (p : Prog) : Prop :=
  (∀ ids, p.dist = .sending (.ids peer ids) → Answers ch p.l ids) ∧ ∀ x, p.dist = .sending (.block peer x) → Loading.Genuine ch x

/-- The states of the program, and the events, from the beginning of a synchronisation in `p0` until it ends; `n` is the
room in the store. -/
inductive Syncing (lib : Lib) (g : ProtoBlock) (peer : Addr) (s s0 : Nat) (ch : List ProtoBlock) (p0 : Prog) : Nat → List Ev → Prog → Prop where
  | start {n : Nat} (h : Alive lib g n p0) (hb : Begun peer s s0 ch p0.l) (hc : p0.Clean peer ch) : Syncing lib g peer s s0 ch p0 n [] p0
  | step {n : Nat} {es : List Ev} {p p' : Prog} (e : Ev) (h : Syncing lib g peer s s0 ch p0 (n + p.cost e) es p) (ha : p.l.active = true)
      (hu : Upright peer s s0 ch p e) (hs : p.step lib e = some (.ok p')) : Syncing lib g peer s s0 ch p0 n (es ++ [e]) p'

/-- The execution `es0` led to `p0`, and `es` to `p` from there; the program was synchronising all the time from `p0` on, and
what is asked of the peer was met. -/
inductive Course (lib : Lib) (g : ProtoBlock) (lk : Linkage) (peer : Addr) (s : Nat) (ch : List ProtoBlock) (es0 : List Ev) (p0 : Prog) :
    Nat → List Ev → Prog → Prop where
  | start {n : Nat} (h : Run lib g lk n es0 p0) : Course lib g lk peer s ch es0 p0 n [] p0
  | step {n : Nat} {es : List Ev} {p p' : Prog} (e : Ev) (h : Course lib g lk peer s ch es0 p0 (n + p.cost e) es p) (ha : p.l.active = true)
      (hr : Replies peer s ch p e) (hs : p.step lib e = some (.ok p')) : Course lib g lk peer s ch es0 p0 n (es ++ [e]) p'

end Verif.Services
