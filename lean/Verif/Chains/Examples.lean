import Verif.Chains.Spec
/-
Concrete stores used to show that the hypotheses of the property theorems can
be met.
-/
set_option autoImplicit false

namespace Verif.Chains.Ex

open Verif KV Chains Spec

/-- a 32 byte id -/
def bid (n : Nat) : BlockID := ⟨UInt8.ofNat n :: List.replicate 31 7, Or.inl rfl⟩
/-- a generator address -/
def gen (n : Nat) : WavesAddr := ⟨UInt8.ofNat n :: List.replicate 25 3, rfl⟩
/-- an IPv4 peer -/
def ip (n : Nat) : Addr := .v4 ⟨[10, 0, 0, UInt8.ofNat n], rfl⟩
/-- block `n` on top of block `p`, with base target `t` -/
def blkT (n p t : Nat) : ProtoBlock :=
  { id := bid n, parent := bid p, timestamp := UInt64.ofNat (1000 + n), baseTarget := UInt64.ofNat t,
    generator := some (gen (n % 3)) }
/-- block `n` on top of block `p` -/
def blk (n p : Nat) : ProtoBlock := blkT n p 100
/-- genesis block -/
def g0 : ProtoBlock := { blk 0 0 with parent := zeroID }
/-- the store right after creation -/
def l0 : Linkage :=
  match (NewLinkage .ok [] g0).2 with
  | .ok l => l
  | .error _ => { genesis := zeroID, db := [] }
/-- a call whose writes succeed -/
def pb (n p a : Nat) : Op := .putBlock (blk n p) (ip a) .ok .ok
/-- a micro-block call whose writes succeed -/
def mb (n r a : Nat) : Op := .putMicro { totalBlockID := bid n, reference := bid r } (ip a) .ok .ok

/-- blocks 1 and 2 on one branch, 3 and the micro-block 4 on another, a lost block 5 written without
its leash, peers 1 and 2 leashed -/
def ops1 : List Op :=
  [pb 1 0 1, pb 2 1 1, pb 3 1 2, mb 4 3 2, .putBlock (blk 5 2) (ip 3) .ok .fail, pb 9 8 1]
def l1 : Linkage := exec l0 ops1

theorem fresh : Fresh g0 l0 := by rfl

theorem reach1 : Reachable g0 l1 := ⟨l0, ops1, fresh, by decide +kernel, rfl⟩

/-! ### concrete iteration orders and sorting -/

/-- insertion into a sorted list -/
def ins {α : Type} (less : α → α → Bool) (a : α) : List α → List α
  | [] => [a]
  | b :: l => if less b a then b :: ins less a l else a :: b :: l

/-- insertion sort -/
def isort {α : Type} (less : α → α → Bool) : List α → List α
  | [] => []
  | a :: l => ins less a (isort less l)

theorem ins_perm {α : Type} (less : α → α → Bool) (a : α) (l : List α) : (ins less a l).Perm (a :: l) := by
  induction l with
  | nil => exact List.Perm.refl _
  | cons b l ih =>
    rw [ins]
    split
    · exact (ih.cons b).trans (List.Perm.swap a b l)
    · exact List.Perm.refl _

theorem isort_perm {α : Type} (less : α → α → Bool) (l : List α) : (isort less l).Perm l := by
  induction l with
  | nil => exact List.Perm.refl _
  | cons a l ih => exact (ins_perm less a _).trans (ih.cons a)

theorem ins_sorted {α : Type} {less : α → α → Bool} (W : StrictWeak less) (a : α) (l : List α)
    (h : l.Pairwise (fun a b => less b a = false)) : (ins less a l).Pairwise (fun a b => less b a = false) := by
  induction l with
  | nil => simp [ins]
  | cons b l ih =>
    rw [List.pairwise_cons] at h
    rw [ins]
    split
    · rename_i hba
      rw [List.pairwise_cons]
      refine ⟨?_, ih h.2⟩
      intro c hc
      rcases List.mem_cons.mp ((ins_perm less a l).mem_iff.mp hc) with rfl | hc
      · cases hcb : less c b with
        | false => rfl
        | true => have := W.trans _ _ _ hba hcb; rw [W.irrefl] at this; cases this
      · exact h.1 c hc
    · rename_i hba
      have hba : less b a = false := by simpa using hba
      rw [List.pairwise_cons]
      refine ⟨?_, List.pairwise_cons.mpr h⟩
      intro c hc
      rcases List.mem_cons.mp hc with rfl | hc
      · exact hba
      · have hcb := h.1 c hc
        cases hca : less c a with
        | false => rfl
        | true =>
          cases hbc : less b c with
          | true => rw [W.trans _ _ _ hbc hca] at hba; cases hba
          | false =>
            cases hab : less a b with
            | true => rw [W.trans _ _ _ hca hab] at hcb; cases hcb
            | false => rw [(W.incomp c b a hcb hbc hba hab).1] at hca; cases hca

theorem isort_sorted {α : Type} {less : α → α → Bool} (W : StrictWeak less) (l : List α) :
    (isort less l).Pairwise (fun a b => less b a = false) := by
  induction l with
  | nil => exact List.Pairwise.nil
  | cons a l ih => exact ins_sorted W a _ ih

/-- maps are visited in insertion order -/
def env : Env where
  mapOrder l := l
  mapOrder_perm l := List.Perm.refl l
  sort := isort
  sort_perm := isort_perm
  sort_sorted _ l W := isort_sorted W l

/-- maps are visited in reverse insertion order -/
def envRev : Env where
  mapOrder l := l.reverse
  mapOrder_perm l := List.reverse_perm l
  sort := isort
  sort_perm := isort_perm
  sort_sorted _ l W := isort_sorted W l

end Verif.Chains.Ex
