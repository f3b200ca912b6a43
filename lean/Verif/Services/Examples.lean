import Verif.Services.ProgramInv
/-
A concrete program for the examples beside the theorems.
-/

set_option autoImplicit false

namespace Verif.Services.Ex

open Verif
open Verif.Chains (Addr BlockID)
open Verif.Chains.Ex (bid blk g0 l0)
open Verif.Peers (second Lib)
open Verif.Loading.Ex (ctx peer peer3)

/-- started on an empty database with one seed peer, 10.0.0.2, and no listener -/
def start : Prog := Prog.start Peers.Ex.cfg (Peers.Ex.run []).db Peers.Ex.ok [some ⟨peer, 6868⟩] l0 false

/-- the same with a listener -/
def startL : Prog := Prog.start Peers.Ex.cfg (Peers.Ex.run []).db Peers.Ex.ok [some ⟨peer, 6868⟩] l0 true

/-- the peer 10.0.0.2 -/
def p2 : Sender := ⟨Peers.Ex.conn 65, some peer⟩
/-- the peer 10.0.0.3 -/
def p3 : Sender := ⟨Peers.Ex.conn 66, some peer3⟩

/-- the events that can happen, one after the other; all of them must be possible -/
def run (lib : Lib) : Prog → List Ev → Option Prog
  | s, [] => some s
  | s, e :: es =>
    match s.step lib e with
    | some (.ok s') => run lib s' es
    | _ => none

theorem run_path {lib : Lib} {s s' : Prog} {es : List Ev} (h : run lib s es = some s') : Path lib s es s' := by
  induction es generalizing s with
  | nil => cases h; exact .nil
  | cons e es ih =>
    rw [run] at h
    split at h
    · rename_i s1 h1; exact Path.cons h1 (ih h)
    · cases h

/-- the state after some events, or the start again -/
def after (es : List Ev) : Prog := (run Peers.Ex.lib start es).getD start
def afterL (es : List Ev) : Prog := (run Peers.Ex.lib startL es).getD startL

theorem reached_start : Reached Peers.Ex.lib start := ⟨_, _, _, _, _, _, Peers.Ex.reach [], .refl⟩
theorem reached_startL : Reached Peers.Ex.lib startL := ⟨_, _, _, _, _, _, Peers.Ex.reach [], .refl⟩

theorem reached (es : List Ev) : Reached Peers.Ex.lib (after es) := by
  unfold after
  cases h : run Peers.Ex.lib start es with
  | none => exact reached_start
  | some s => exact reached_start.reaches (run_path h).reaches

theorem reachedL (es : List Ev) : Reached Peers.Ex.lib (afterL es) := by
  unfold afterL
  cases h : run Peers.Ex.lib startL es with
  | none => exact reached_startL
  | some s => exact reached_startL.reaches (run_path h).reaches

/-- the peers 10.0.0.2 and 10.0.0.3 are connected -/
def joined : List Ev :=
  [.suggest .ok (1 * second) peer, .connected (ctx 2) p2, .suggest .ok (3 * second) peer3, .connected (ctx 4) p3]

/-- events that add no blocks -/
theorem alive (n : Nat) (h : n + 2 < 2 ^ 32) : Alive Peers.Ex.lib g0 n start :=
  .start (Peers.Ex.reach []) (Loading.Ex.serving n h) _ _ _ _

theorem Alive.path {lib : Lib} {g : Chains.ProtoBlock} {s s' : Prog} {es : List Ev} {n k : Nat} (hp : Path lib s es s')
    (h : ∀ m, m ≤ n + k → Alive lib g m s) (hk : ∀ e s1, e ∈ es → Prog.cost s1 e = 0) : Alive lib g n s' := by
  induction hp with
  | nil => exact h n (Nat.le_add_right _ _)
  | snoc hp e he ih =>
    refine .step e ?_ he
    rw [hk e _ (by simp)]
    exact ih (fun e' s1 hm => hk e' s1 (by simp [hm]))

theorem alive_joined (n : Nat) (h : n + 2 < 2 ^ 32) : Alive Peers.Ex.lib g0 n (after joined) := by
  unfold after
  cases hr : run Peers.Ex.lib start joined with
  | none => exact alive n h
  | some s =>
    exact Alive.path (k := 0) (run_path hr) (fun m hm => alive m (by omega)) (by
      intro e s1 he
      simp only [joined, List.mem_cons, List.not_mem_nil, or_false] at he
      rcases he with rfl | rfl | rfl | rfl <;> rfl)

end Verif.Services.Ex
