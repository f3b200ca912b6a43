import Verif.Loading.Fine
import Verif.Loading.Honest
/-
Vocabulary of property C106: a peer that answers honestly from one history, while the loader makes its calls one by one and
the other goroutines work in between.
-/

set_option autoImplicit false

namespace Verif.Loading.Fine

open Verif
open Verif.Chains (Addr BlockID ProtoBlock MicroInv Linkage LeashOf)
open Verif.Peers (Lib)
open Verif.KV (Fate)

/-- the position of the peer is on the block with index `i` of the history or on a later one -/
def At (peer : Addr) (ch : List ProtoBlock) (x : Shared) (i : Nat) : Prop :=
  ∃ j b, i ≤ j ∧ ch[j]? = some b ∧ LeashOf x.link peer = .ok b.id

/-- the position of the peer, if it is on a block of the history, stays there or moves on to a later block -/
def Onward (peer : Addr) (ch : List ProtoBlock) (x y : Shared) : Prop :=
  ∀ i b, ch[i]? = some b → LeashOf x.link peer = .ok b.id → At peer ch y i

/-- the block `id` belongs to the history and does not come before the position of the peer, if that is a block of the history -/
def NotBehind (peer : Addr) (ch : List ProtoBlock) (x : Shared) (id : BlockID) : Prop :=
  ∀ (i : Nat) (y : ProtoBlock), ch[i]? = some y → LeashOf x.link peer = .ok y.id → ∃ (j : Nat) (z : ProtoBlock), i ≤ j ∧ ch[j]? = some z ∧ z.id = id

/-- A call of another goroutine that does not disturb the synchronisation: it stores no false blocks of the history, the peer does not change
its score, and while the loader handles an event, the position of the peer does not move back or off the history. -/
structure Fair (lib : Lib) (peer : Addr) (s s0 : Nat) (ch : List ProtoBlock) (w : World) (x : Other) : Prop where
  putBlock : ∀ b a f1 f2, x = .putBlock b a f1 f2 → Genuine ch b
  putMicro : ∀ inv a f1 f2, x = .putMicro inv a f1 f2 → GenuineMicro s0 ch w.sh.link.db inv
  score : ∀ e f s', x = .registry e → e.op = .updateScore f peer s' → s' = s
  onward : w.todo ≠ none → Onward peer ch w.sh (x.effect lib w.sh)

/-- The states of a synchronisation with an honest peer, from its beginning in `w0` until it ends.  The loader makes its calls one by one,
with calls of others in between. -/
inductive Among (lib : Lib) (peer : Addr) (s s0 : Nat) (ch : List ProtoBlock) (w0 : World) : World → Prop where
  | start : Among lib peer s s0 ch w0 w0
  | receive {w : World} (h : Among lib peer s s0 ch w0 w) (ha : w.own.active = true) (c : Ctx) (i : Input) (ht : w.todo = none)
      (hh : Honest peer s s0 ch (w.own.on w.sh) ⟨c, i.event⟩) :
      Among lib peer s s0 ch w0 { w with todo := some (handle c w.own i), ins := w.ins ++ [(c, i)] }
  | call {w : World} (h : Among lib peer s s0 ch w0 w) (c : Call) (k : c.Res → Proc (Go Own)) (ht : w.todo = some (.call c k)) :
      Among lib peer s s0 ch w0
        ⟨w.own, some (k (c.res lib w.sh)), c.effect w.sh, w.ins, w.log ++ (c.op.map (fun o => (true, o))).toList⟩
  | finish {w : World} (h : Among lib peer s s0 ch w0 w) (o : Own) (ht : w.todo = some (.ret (.ok o))) :
      Among lib peer s s0 ch w0 { w with own := o, todo := none }
  | other {w : World} (h : Among lib peer s s0 ch w0 w) (ha : w.own.active = true) (x : Other) (hx : Fair lib peer s s0 ch w x) :
      Among lib peer s s0 ch w0 { w with sh := x.effect lib w.sh, log := w.log ++ (x.op.map (fun o => (false, o))).toList }

/-- these are runs -/
theorem Among.run {lib : Lib} {peer : Addr} {s s0 : Nat} {ch : List ProtoBlock} {v w0 w : World} (h0 : Run lib v w0)
    (h : Among lib peer s s0 ch w0 w) : Run lib v w := by
  induction h with
  | start => exact h0
  | receive _ _ c i ht _ ih => exact ih.snoc (.receive _ c i ht)
  | call _ c k ht ih => exact ih.snoc (.call _ c k ht)
  | finish _ o ht ih => exact ih.snoc (.finish _ o ht)
  | other _ _ x _ ih => exact ih.snoc (.other _ x)

/-- The states while the loader handles an event, from `v` on, where it has just received it.  The other goroutines make any calls in
between. -/
inductive Handling (lib : Lib) (v : World) : World → Prop where
  | start : Handling lib v v
  | call {w : World} (h : Handling lib v w) (c : Call) (k : c.Res → Proc (Go Own)) (ht : w.todo = some (.call c k)) :
      Handling lib v ⟨w.own, some (k (c.res lib w.sh)), c.effect w.sh, w.ins, w.log ++ (c.op.map (fun o => (true, o))).toList⟩
  | other {w : World} (h : Handling lib v w) (x : Other) :
      Handling lib v { w with sh := x.effect lib w.sh, log := w.log ++ (x.op.map (fun o => (false, o))).toList }

theorem Handling.run {lib : Lib} {u v w : World} (h0 : Run lib u v) (h : Handling lib v w) : Run lib u w := by
  induction h with
  | start => exact h0
  | call _ c k ht ih => exact ih.snoc (.call _ c k ht)
  | other _ x ih => exact ih.snoc (.other _ x)

end Verif.Loading.Fine
