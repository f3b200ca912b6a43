import Verif.Loading.Honest
/-
Vocabulary of property C115: a peer that keeps the loader to itself, and a synchronisation that only goes forward.
-/

set_option autoImplicit false

namespace Verif.Loading

open Verif
open Verif.Chains (Addr BlockID ProtoBlock LeashOf)
open Verif.Peers (Lib second)

/-- The peer answers every request for ids with one known id: `a`, or `b` when its position is on `a`.  It sends no other blocks and no other score than
`s`.  The writes of the loader succeed, and no tick comes more than thirty seconds after the last request.  There is no condition on the other peers. -/
structure Teases (peer : Addr) (s : Nat) (a b : BlockID) (l : Loader) (e : Event) : Prop where
  ids : ∀ ids, e.op = .ids peer ids → (∀ j, e.ctx.fates j = .ok) ∧
    ((LeashOf l.link peer ≠ .ok a ∧ ids = [a]) ∨ (LeashOf l.link peer = .ok a ∧ ids = [b]))
  tick : e.op = .tick → e.ctx.now - l.obj.timestamp ≤ 30 * second
  score : ∀ ev f s', e.op = .registry ev → ev.op = .updateScore f peer s' → s' = s
  putBlock : ∀ x q f1 f2, e.op = .putBlock x q f1 f2 → peer.plain ≠ q.plain
  putMicro : ∀ x q f1 f2, e.op = .putMicro x q f1 f2 → peer.plain ≠ q.plain

/-- The states of such an execution, from `l0` on; `n` is the room in the store. -/
inductive Teased (lib : Lib) (g : ProtoBlock) (peer : Addr) (s : Nat) (a b : BlockID) (l0 : Loader) : Nat → Loader → Prop where
  | start {n : Nat} (h : Running lib g n l0) : Teased lib g peer s a b l0 n l0
  | step {n : Nat} {l l' : Loader} (e : Event) (h : Teased lib g peer s a b l0 (n + cost l e) l) (ht : Teases peer s a b l e)
      (hs : step lib l e = .ok l') : Teased lib g peer s a b l0 n l'

/-- 1 if the event is the announcement of a score by the peer -/
def heard (peer : Addr) (e : Event) : Nat :=
  match e.op with
  | .registry ev =>
    match ev.op with
    | .updateScore _ a _ => if a = peer then 1 else 0
    | _ => 0
  | _ => 0

/-- The score of the position of the peer does not go down. -/
def Upward (peer : Addr) (l l' : Loader) : Prop :=
  ∀ x y sc sc', OnLeash l.link peer x sc → OnLeash l'.link peer y sc' → sc ≤ sc'

/-- The states of a synchronisation, from `l0` on, during which the score of the position of the peer does not go down.  The peer has announced
a score `k` times since.  There is no other condition on what it sends. -/
inductive Climbs (lib : Lib) (g : ProtoBlock) (peer : Addr) (l0 : Loader) : (n k : Nat) → Loader → Prop where
  | start {n : Nat} (h : Running lib g n l0) : Climbs lib g peer l0 n 0 l0
  | step {n k : Nat} {l l' : Loader} (e : Event) (h : Climbs lib g peer l0 (n + cost l e) k l) (ha : l.active = true)
      (hs : step lib l e = .ok l') (hu : Upward peer l l') : Climbs lib g peer l0 n (k + heard peer e) l'

end Verif.Loading
