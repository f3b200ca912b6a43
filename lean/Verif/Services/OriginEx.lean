import Verif.Services.Origin
import Verif.Services.Examples
/-
Concrete executions for the examples beside the theorems about origins.
-/

set_option autoImplicit false

namespace Verif.Services.Ex

open Verif
open Verif.Chains (Linkage ProtoBlock)
open Verif.Chains.Ex (bid blk g0 l0)
open Verif.Peers (Lib)

/-- the room that the events take -/
def total (lib : Lib) : Prog → List Ev → Nat
  | _, [] => 0
  | s, e :: es => s.cost e + match s.step lib e with
    | some (.ok s') => total lib s' es
    | _ => 0

theorem Run.extend {lib : Lib} {g : ProtoBlock} {lk : Linkage} {n : Nat} {es es' : List Ev} {s s' : Prog}
    (h : Run lib g lk (n + total lib s es') es s) (hr : run lib s es' = some s') : Run lib g lk n (es ++ es') s' := by
  induction es' generalizing es s with
  | nil => cases hr; simpa [total] using h
  | cons e es' ih =>
    rw [run] at hr
    split at hr
    · rename_i s1 h1
      rw [total, h1] at h
      have := ih (es := es ++ [e]) (.step e (by rw [Nat.add_assoc, Nat.add_comm (total lib s1 es')]; exact h) h1) hr
      simpa using this
    · cases hr

/-- an execution from the start of the examples -/
theorem runs (n : Nat) (es : List Ev) (h : (run Peers.Ex.lib start es).isSome = true) (hn : n + total Peers.Ex.lib start es + 2 < 2 ^ 32) :
    Run Peers.Ex.lib g0 l0 n es (after es) := by
  unfold after
  cases hr : run Peers.Ex.lib start es with
  | none => rw [hr] at h; cases h
  | some s =>
    exact Run.extend (es := []) (.start (Peers.Ex.reach []) (Loading.Ex.serving _ hn) _ _ _ _) hr

end Verif.Services.Ex
