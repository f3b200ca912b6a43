import Verif.Loading.BillLemmas
import Verif.Services.FaultyInv
/-
What the peers say and how often the timer fires bound the messages of the loader: vocabulary and lemmas for property C134.
-/

set_option autoImplicit false

namespace Verif.Services.Fine

open Verif
open Verif.Chains (BlockID)
open Verif.Peers (Lib)
open Verif.Loading (Ctx)
open Verif.Loading.Fine (Input World listedIn dueIn asksIn dueIn_append asksIn_append listedIn_append)

/-- the ids in what a peer says -/
def _root_.Verif.Services.Pkg.listed : Pkg → List BlockID
  | .ids _ l => l
  | .block _ _ => []

/-- what may be sent on account of it: a message for every id, one for a block -/
def _root_.Verif.Services.Pkg.due : Pkg → Nat
  | .ids _ l => max 1 l.length
  | .block _ _ => 1

/-- the timer that starts a synchronisation fires -/
def Ev.fires : Ev → Bool
  | .timer _ => true
  | _ => false

/-- how often it fires -/
def fired (es : List Ev) : Nat := es.countP Ev.fires

def _root_.Verif.Loading.Fine.Input.fires : Input → Bool
  | .timer => true
  | _ => false

def timersIn (ins : List (Ctx × Input)) : Nat := ins.countP (fun x => x.2.fires)

theorem fired_snoc (es : List Ev) (e : Ev) : fired (es ++ [e]) = fired es + e.fires.toNat := by
  unfold fired
  rw [List.countP_append]
  cases he : e.fires <;> simp [he]

theorem timersIn_snoc (ins : List (Ctx × Input)) (c : Ctx) (i : Input) :
    timersIn (ins ++ [(c, i)]) = timersIn ins + i.fires.toNat := by
  unfold timersIn
  rw [List.countP_append]
  cases he : i.fires <;> simp_all

theorem timers_step {lib : Lib} {es : List Ev} {s s' : Sys} {e : Ev} (I : timersIn s.world.ins = fired es)
    (h : s.step lib e = some (.ok s')) : timersIn s'.world.ins = fired (es ++ [e]) := by
  obtain ⟨_, hc⟩ := step_case h
  rw [fired_snoc]
  cases hc with
  | handled hd hr hx => cases hr <;> exact I
  | take c p hd hw =>
    show timersIn (s.world.ins ++ [_]) = _
    rw [timersIn_snoc, I]
    cases p <;> rfl
  | tick c hw ht => show timersIn (s.world.ins ++ [_]) = _; rw [timersIn_snoc, I]; rfl
  | timer c hw => show timersIn (s.world.ins ++ [_]) = _; rw [timersIn_snoc, I]; rfl
  | respawn D now failed hu ha =>
    have : (s.respawn D now failed).world.ins = s.world.ins := by
      unfold Sys.respawn
      split
      · rfl
      · dsimp only
        split <;> rfl
    rw [this]
    exact I
  | _ => exact I

theorem timers {lib : Lib} {s0 s : Sys} {es : List Ev} {tr : List Loading.Fine.Answer} (h0 : s0.world.ins = []) (h : Path lib s0 es tr s) :
    timersIn s.world.ins = fired es := by
  induction h with
  | nil => rw [h0]; rfl
  | snoc h e he ih => exact timers_step ih he

/-! ### what the inputs cost -/

theorem costs : ∀ (ins : List (Ctx × Input)), (∀ c a, (c, Input.block a none) ∉ ins) →
    dueIn ins = ((heard ins).map Pkg.due).sum + timersIn ins ∧ asksIn ins = (heard ins).length + timersIn ins ∧
      listedIn ins = (heard ins).flatMap Pkg.listed
  | [], _ => ⟨rfl, rfl, rfl⟩
  | (c, i) :: ins, h => by
    obtain ⟨h1, h2, h3⟩ := costs ins (fun c a hm => h c a (List.mem_cons_of_mem _ hm))
    have e1 : dueIn ((c, i) :: ins) = i.due + dueIn ins := by simp [dueIn]
    have e2 : asksIn ((c, i) :: ins) = i.asks.toNat + asksIn ins := by
      unfold asksIn
      rw [List.countP_cons]
      cases i.asks <;> simp [Nat.add_comm]
    have e3 : listedIn ((c, i) :: ins) = i.listed ++ listedIn ins := by simp [listedIn]
    have e4 : timersIn ((c, i) :: ins) = i.fires.toNat + timersIn ins := by
      unfold timersIn
      rw [List.countP_cons]
      cases hi : i.fires <;> simp_all [Nat.add_comm]
    rw [e1, e2, e3, e4, h1, h2, h3]
    cases i with
    | ids a l =>
      refine ⟨?_, ?_, ?_⟩
      · show max 1 l.length + _ = (max 1 l.length :: (heard ins).map Pkg.due).sum + (0 + _)
        rw [List.sum_cons]; omega
      · show 1 + _ = ((heard ins).length + 1) + (0 + _)
        omega
      · rfl
    | block a b =>
      cases b with
      | none => exact absurd List.mem_cons_self (h c a)
      | some b =>
        refine ⟨?_, ?_, ?_⟩
        · show 1 + _ = (1 :: (heard ins).map Pkg.due).sum + (0 + _)
          rw [List.sum_cons]; omega
        · show 1 + _ = ((heard ins).length + 1) + (0 + _)
          omega
        · rfl
    | timer =>
      refine ⟨?_, ?_, ?_⟩
      · show 1 + _ = ((heard ins).map Pkg.due).sum + (1 + _)
        omega
      · show 1 + _ = (heard ins).length + (1 + _)
        omega
      · rfl
    | tick =>
      refine ⟨?_, ?_, ?_⟩
      · show 0 + _ = ((heard ins).map Pkg.due).sum + (0 + _)
        omega
      · show 0 + _ = (heard ins).length + (0 + _)
        omega
      · rfl

theorem sum_sublist {l l' : List Pkg} (h : l.Sublist l') : (l.map Pkg.due).sum ≤ (l'.map Pkg.due).sum := by
  induction h with
  | slnil => exact Nat.le_refl _
  | cons a _ ih => simp only [List.map_cons, List.sum_cons]; omega
  | cons_cons a _ ih => simp only [List.map_cons, List.sum_cons]; omega

theorem listed_sublist {l l' : List Pkg} (h : l.Sublist l') : (l.flatMap Pkg.listed).Sublist (l'.flatMap Pkg.listed) := by
  induction h with
  | slnil => exact List.Sublist.refl _
  | cons a _ ih => rw [List.flatMap_cons]; exact ih.trans (List.sublist_append_right _ _)
  | cons_cons a _ ih => rw [List.flatMap_cons, List.flatMap_cons]; exact (List.Sublist.refl _).append ih

end Verif.Services.Fine
