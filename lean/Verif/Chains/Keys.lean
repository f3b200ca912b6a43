import Verif.Chains.Storage
/-
Facts about the storage keys.
-/
set_option autoImplicit false

namespace Verif.Chains

open Verif KV

/-! ### the prefixes are different -/

@[simp] theorem counterPrefix_ne_blockPrefix : (counterPrefix = blockPrefix) = False := by decide
@[simp] theorem counterPrefix_ne_chainPrefix : (counterPrefix = chainPrefix) = False := by decide
@[simp] theorem counterPrefix_ne_leashPrefix : (counterPrefix = leashPrefix) = False := by decide
@[simp] theorem counterPrefix_ne_headToBlockPrefix : (counterPrefix = headToBlockPrefix) = False := by decide
@[simp] theorem counterPrefix_ne_blockToHeadPrefix : (counterPrefix = blockToHeadPrefix) = False := by decide
@[simp] theorem blockPrefix_ne_counterPrefix : (blockPrefix = counterPrefix) = False := by decide
@[simp] theorem blockPrefix_ne_chainPrefix : (blockPrefix = chainPrefix) = False := by decide
@[simp] theorem blockPrefix_ne_leashPrefix : (blockPrefix = leashPrefix) = False := by decide
@[simp] theorem blockPrefix_ne_headToBlockPrefix : (blockPrefix = headToBlockPrefix) = False := by decide
@[simp] theorem blockPrefix_ne_blockToHeadPrefix : (blockPrefix = blockToHeadPrefix) = False := by decide
@[simp] theorem chainPrefix_ne_counterPrefix : (chainPrefix = counterPrefix) = False := by decide
@[simp] theorem chainPrefix_ne_blockPrefix : (chainPrefix = blockPrefix) = False := by decide
@[simp] theorem chainPrefix_ne_leashPrefix : (chainPrefix = leashPrefix) = False := by decide
@[simp] theorem chainPrefix_ne_headToBlockPrefix : (chainPrefix = headToBlockPrefix) = False := by decide
@[simp] theorem chainPrefix_ne_blockToHeadPrefix : (chainPrefix = blockToHeadPrefix) = False := by decide
@[simp] theorem leashPrefix_ne_counterPrefix : (leashPrefix = counterPrefix) = False := by decide
@[simp] theorem leashPrefix_ne_blockPrefix : (leashPrefix = blockPrefix) = False := by decide
@[simp] theorem leashPrefix_ne_chainPrefix : (leashPrefix = chainPrefix) = False := by decide
@[simp] theorem leashPrefix_ne_headToBlockPrefix : (leashPrefix = headToBlockPrefix) = False := by decide
@[simp] theorem leashPrefix_ne_blockToHeadPrefix : (leashPrefix = blockToHeadPrefix) = False := by decide
@[simp] theorem headToBlockPrefix_ne_counterPrefix : (headToBlockPrefix = counterPrefix) = False := by decide
@[simp] theorem headToBlockPrefix_ne_blockPrefix : (headToBlockPrefix = blockPrefix) = False := by decide
@[simp] theorem headToBlockPrefix_ne_chainPrefix : (headToBlockPrefix = chainPrefix) = False := by decide
@[simp] theorem headToBlockPrefix_ne_leashPrefix : (headToBlockPrefix = leashPrefix) = False := by decide
@[simp] theorem headToBlockPrefix_ne_blockToHeadPrefix : (headToBlockPrefix = blockToHeadPrefix) = False := by decide
@[simp] theorem blockToHeadPrefix_ne_counterPrefix : (blockToHeadPrefix = counterPrefix) = False := by decide
@[simp] theorem blockToHeadPrefix_ne_blockPrefix : (blockToHeadPrefix = blockPrefix) = False := by decide
@[simp] theorem blockToHeadPrefix_ne_chainPrefix : (blockToHeadPrefix = chainPrefix) = False := by decide
@[simp] theorem blockToHeadPrefix_ne_leashPrefix : (blockToHeadPrefix = leashPrefix) = False := by decide
@[simp] theorem blockToHeadPrefix_ne_headToBlockPrefix : (blockToHeadPrefix = headToBlockPrefix) = False := by decide
@[simp] theorem blocksCounter_ne_headsCounter : (blocksCounter = headsCounter) = False := by decide
@[simp] theorem headsCounter_ne_blocksCounter : (headsCounter = blocksCounter) = False := by decide

@[simp] theorem counterKey_inj {c d : UInt8} : counterKey c = counterKey d ↔ c = d := by
  simp [counterKey]

@[simp] theorem numKey_inj {p q : UInt8} {n m : UInt64} : numKey p n = numKey q m ↔ p = q ∧ n = m := by
  simp [numKey]

@[simp] theorem idKey_inj {p q : UInt8} {a b : BlockID} : idKey p a = idKey q b ↔ p = q ∧ a = b := by
  simp [idKey, Subtype.ext_iff]

@[simp] theorem addrKey_inj {a b : Addr} : addrKey a = addrKey b ↔ a.slice = b.slice := by
  simp [addrKey]

theorem numKey_length (p : UInt8) (n : UInt64) : (numKey p n).length = 9 := rfl
theorem idKey_length (p : UInt8) (a : BlockID) : (idKey p a).length = 33 ∨ (idKey p a).length = 65 := by
  rcases a.2 with h | h <;> simp [idKey, h]
theorem slice_length (a : Addr) : a.slice.length = 0 ∨ a.slice.length = 4 ∨ a.slice.length = 16 := by
  cases a with
  | zero => simp [Addr.slice]
  | v4 b => right; left; exact b.2
  | v6 b z => right; right; exact b.2
theorem addrKey_length (a : Addr) : (addrKey a).length = 1 ∨ (addrKey a).length = 5 ∨ (addrKey a).length = 17 := by
  rcases slice_length a with h | h | h <;> simp [addrKey, h]

@[simp] theorem counterKey_ne_numKey (c p : UInt8) (n : UInt64) : (counterKey c = numKey p n) = False := by
  apply eq_false; intro h; have := congrArg List.length h; simp [counterKey, numKey] at this
@[simp] theorem numKey_ne_counterKey (c p : UInt8) (n : UInt64) : (numKey p n = counterKey c) = False := by
  apply eq_false; intro h; have := congrArg List.length h; simp [counterKey, numKey] at this
@[simp] theorem counterKey_ne_idKey (c p : UInt8) (a : BlockID) : (counterKey c = idKey p a) = False := by
  apply eq_false; intro h; have := congrArg List.length h
  rcases idKey_length p a with h' | h' <;> rw [h'] at this <;> simp [counterKey] at this
@[simp] theorem idKey_ne_counterKey (c p : UInt8) (a : BlockID) : (idKey p a = counterKey c) = False := by
  apply eq_false; intro h; have := congrArg List.length h
  rcases idKey_length p a with h' | h' <;> rw [h'] at this <;> simp [counterKey] at this
@[simp] theorem counterKey_ne_addrKey (c : UInt8) (a : Addr) : (counterKey c = addrKey a) = False := by
  apply eq_false; intro h; simp [counterKey, addrKey, counterPrefix, leashPrefix] at h
@[simp] theorem addrKey_ne_counterKey (c : UInt8) (a : Addr) : (addrKey a = counterKey c) = False := by
  apply eq_false; intro h; simp [counterKey, addrKey, counterPrefix, leashPrefix] at h
@[simp] theorem numKey_ne_idKey (p q : UInt8) (n : UInt64) (a : BlockID) : (numKey p n = idKey q a) = False := by
  apply eq_false; intro h; have := congrArg List.length h
  rcases idKey_length q a with h' | h' <;> rw [h'] at this <;> simp [numKey] at this
@[simp] theorem idKey_ne_numKey (p q : UInt8) (n : UInt64) (a : BlockID) : (idKey q a = numKey p n) = False := by
  apply eq_false; intro h; have := congrArg List.length h
  rcases idKey_length q a with h' | h' <;> rw [h'] at this <;> simp [numKey] at this
@[simp] theorem numKey_ne_addrKey (p : UInt8) (n : UInt64) (a : Addr) : (numKey p n = addrKey a) = False := by
  apply eq_false; intro h; have := congrArg List.length h
  rcases addrKey_length a with h' | h' | h' <;> rw [h'] at this <;> simp [numKey] at this
@[simp] theorem addrKey_ne_numKey (p : UInt8) (n : UInt64) (a : Addr) : (addrKey a = numKey p n) = False := by
  apply eq_false; intro h; have := congrArg List.length h
  rcases addrKey_length a with h' | h' | h' <;> rw [h'] at this <;> simp [numKey] at this
@[simp] theorem idKey_ne_addrKey (p : UInt8) (b : BlockID) (a : Addr) : (idKey p b = addrKey a) = False := by
  apply eq_false; intro h; have := congrArg List.length h
  rcases addrKey_length a with h' | h' | h' <;> rcases idKey_length p b with h'' | h'' <;>
    rw [h', h''] at this <;> simp at this
@[simp] theorem addrKey_ne_idKey (p : UInt8) (b : BlockID) (a : Addr) : (addrKey a = idKey p b) = False := by
  apply eq_false; intro h; have := congrArg List.length h
  rcases addrKey_length a with h' | h' | h' <;> rcases idKey_length p b with h'' | h'' <;>
    rw [h', h''] at this <;> simp at this

theorem numKeyFrom_numKey (p : UInt8) (n : UInt64) : numKeyFrom (numKey p n) = .ok (p, n) := by
  simp [numKeyFrom, numKey, be64Dec_be64]

theorem bytesLt_numKey {p : UInt8} {n m : UInt64} : bytesLt (numKey p n) (numKey p m) = true ↔ n < m := by
  simp [numKey, bytesLt, bytesLt_be64]

theorem slice_eq_iff {a b : Addr} : a.slice = b.slice ↔ a.plain = b.plain := by
  cases a with
  | zero =>
    cases b with
    | zero => simp [Addr.plain]
    | v4 y => 
      simp only [Addr.slice, Addr.plain, reduceCtorEq, iff_false]
      intro h; have := y.2; rw [← h] at this; simp at this
    | v6 y z =>
      simp only [Addr.slice, Addr.plain, reduceCtorEq, iff_false]
      intro h; have := y.2; rw [← h] at this; simp at this
  | v4 x =>
    cases b with
    | zero =>
      simp only [Addr.slice, Addr.plain, reduceCtorEq, iff_false]
      intro h; have := x.2; rw [h] at this; simp at this
    | v4 y => simp [Addr.slice, Addr.plain, Subtype.ext_iff]
    | v6 y z =>
      simp only [Addr.slice, Addr.plain, reduceCtorEq, iff_false]
      intro h; have := x.2; have := y.2; rw [← h] at this; omega
  | v6 x w =>
    cases b with
    | zero =>
      simp only [Addr.slice, Addr.plain, reduceCtorEq, iff_false]
      intro h; have := x.2; rw [h] at this; simp at this
    | v4 y =>
      simp only [Addr.slice, Addr.plain, reduceCtorEq, iff_false]
      intro h; have := x.2; have := y.2; rw [← h] at this; omega
    | v6 y z => simp [Addr.slice, Addr.plain, Subtype.ext_iff]

/-! ### number of links -/

/-- ⌈log2 h⌉ -/
def clog2 (h : Nat) : Nat := if h ≤ 1 then 0 else Nat.log2 (h - 1) + 1

theorem lt_clog2 {i h : Nat} : i < clog2 h ↔ 2 ^ i < h := by
  unfold clog2
  split
  · have := Nat.two_pow_pos i; omega
  · have h1 : h - 1 ≠ 0 := by omega
    rw [Nat.lt_succ_iff, Nat.le_log2 h1]; omega

theorem maxParents_eq {h : UInt32} (h0 : h ≠ 0) : maxParents h = some (clog2 h.toNat) := by
  have hz : h.toNat ≠ 0 := fun e => h0 (UInt32.toNat_inj.mp (by simpa using e))
  by_cases h1 : h = 1
  · subst h1; rfl
  · have : h.toNat ≠ 1 := fun e => h1 (UInt32.toNat_inj.mp (by simpa using e))
    simp [maxParents, h0, h1, clog2, show ¬ h.toNat ≤ 1 by omega]

end Verif.Chains
