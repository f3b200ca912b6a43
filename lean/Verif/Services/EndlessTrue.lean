import Verif.Services.EndlessLemmas
import Verif.Props.Side
/-
When everybody tells the truth, an execution with a patient peer is civil: a lemma for properties C110 and C112.
-/

set_option autoImplicit false

namespace Verif.Services.Fine

open Verif
open Verif.Chains (Addr ProtoBlock Linkage)
open Verif.Chains.Spec (Truth Told)
open Verif.Peers (Lib Registry Config AddrPort)
open Verif.Loading (Serving TrueHistory base)
open Verif.Loading.Fine (Answer)
open Verif.KV (Fate)

variable {lib : Lib} {g : ProtoBlock} {N : Nat} {D : Loading.Fine.Disk} {cfg : Config} {r : Registry} {fs : Nat → Fate}
  {seeds : List (Option AddrPort)} {lk : Linkage} {listener : Bool} {es0 : List Ev} {tr : List Answer}
  {s : Nat} {ch : List ProtoBlock} {peer : Addr} {T : Truth} {run : Nat → Sys} {ev : Nat → Ev}

theorem Endless.along (E : Endless lib run ev) (hc : ∀ n, During run n → Patient peer s ch (run n) (ev n)) :
    ∀ n, NotYet run n → Along lib peer s ch (run 0) (upto ev n) (run n)
  | 0, _ => .start
  | n + 1, h => by
    rw [upto_succ]
    exact .step _ (E.along hc n (fun i hi => h i (by omega))) (h n (by omega)) (hc n (fun i hi => h i (by omega))) (E n)

theorem Endless.civil (H : TrueHistory T g ch) (hT : Told T g lk) (S : Serving g N lk) (R : Peers.Reachable lib r)
    (h0 : Path lib (Sys.start D cfg r.db fs seeds lk listener) es0 tr (run 0)) (E : Endless lib run ev)
    (hc : ∀ n, During run n → Patient peer s ch (run n) (ev n)) (hsi : ∀ n, NotYet run n → Sincere T (es0 ++ upto ev n))
    (hN : ∀ n, NotYet run n → Chains.Spec.inserts (run n).world.calls < N) :
    ∀ n, During run n → Civil peer s (base g) ch (run n) (ev n) := by
  intro n hdu
  have hbe : NotYet run (n + 1) := fun i hi => hdu i (by omega)
  have hS := C107_truthful H hT S R h0 (E.along hc _ hbe) (hsi _ hbe) (Nat.le_of_lt (hN _ hbe))
  generalize he : upto ev (n + 1) = es at hS
  generalize run (n + 1) = y at hS
  cases hS with
  | start => rw [upto_succ] at he; simp at he
  | @step es' x _ e h ha hc' hs =>
    rw [upto_succ] at he
    have e1 : upto ev n = es' := List.append_inj_left' he rfl
    have e2 : ev n = e := by have := List.append_inj_right' he rfl; simpa using this
    subst e1 e2
    obtain ⟨_, p1⟩ := h.path
    obtain ⟨_, p2⟩ := (E.along hc n (fun i hi => hdu i (by omega))).path
    rw [p2.same p1]
    exact hc'

end Verif.Services.Fine
