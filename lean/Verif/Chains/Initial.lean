import Verif.Chains.ForkOk
/-
Model of `LogInitialStats`, which the program calls before it starts its services.
-/

set_option autoImplicit false

namespace Verif.Chains

open Verif
open Verif.Chains.Spec

/-- `LogInitialStats`, chains/linkage.go:231-258: the active heads are read and logged, then the leashes.  An error is logged and
the rest is left out, a panic ends the program.  The log lines are left out. -/
def LogInitialStats (db : DB) : Go Unit :=
  match ActiveHeads db with
  | .error .panic => goPanic
  | .error (.err _) => .ok ()
  | .ok hs =>
    match mapGo (fun h => BlockOf db h.blockID) hs with
    | .error .panic => goPanic
    | .error (.err _) => .ok ()
    | .ok _ =>
      match leashes db with
      | .error .panic => goPanic
      | _ => .ok ()

variable {db : DB} {ns : List Node} {hs : List Nat}

/-- a stored block is read, or reading it panics -/
theorem Rep.BlockOf_panics (R : Rep db ns hs) {id : BlockID} (hst : Stored db id) (h : ¬ Readable db id) : BlockOf db id = goPanic := by
  obtain ⟨n, hn⟩ := R.stored_iff.mp hst
  obtain ⟨x, hx, hid⟩ := numOf_some hn
  have ht : ¬ x.br.timestamp.toNat < 2 ^ 63 - 1 := fun ht => h ⟨x.br, R.getBlockByID_some hn hx, ht⟩
  rw [R.BlockOf_eq hn hx]
  obtain ⟨_, _, _, _, _, e⟩ := R.blockOfRec hx
  rw [e, if_neg ht]

theorem Rep.initial (R : Rep db ns hs) {ah : List Head} (ha : ActiveHeads db = .ok ah) (hst : ∀ x, x ∈ ah → Stored db x.blockID) :
    ((∃ x, x ∈ ah ∧ ¬ Readable db x.blockID) ∧ LogInitialStats db = goPanic) ∨
    ((∀ x, x ∈ ah → Readable db x.blockID) ∧ LogInitialStats db = .ok ()) := by
  obtain ⟨ls, hl, _⟩ := R.leashes
  unfold LogInitialStats
  rw [ha]
  simp only
  cases hm : mapGo (fun h => BlockOf db h.blockID) ah with
  | ok bs =>
    right
    refine ⟨fun x hx => ?_, by rw [hl]⟩
    obtain ⟨b, _, hb⟩ := mapGo_mem' hm hx
    exact R.readable_of_BlockOf hb
  | error e =>
    left
    obtain ⟨x, hx, he⟩ := mapGo_error hm
    have hr : ¬ Readable db x.blockID := by
      intro hr
      obtain ⟨b, hb⟩ := R.BlockOf_readable hr
      rw [hb] at he; cases he
    rw [R.BlockOf_panics (hst x hx) hr] at he
    cases he
    exact ⟨⟨x, hx, hr⟩, rfl⟩

end Verif.Chains
