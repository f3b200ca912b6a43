import Verif.Prelude
/-
Bytes, big-endian numbers and the byte order used by LevelDB.
-/

set_option autoImplicit false

namespace Verif

abbrev Bytes := List UInt8

/-- `binary.BigEndian.PutUint64` into a fresh 8 byte buffer. -/
def be64 (n : UInt64) : Bytes :=
  [UInt8.ofNat (n.toNat / 2^56), UInt8.ofNat (n.toNat / 2^48), UInt8.ofNat (n.toNat / 2^40),
   UInt8.ofNat (n.toNat / 2^32), UInt8.ofNat (n.toNat / 2^24), UInt8.ofNat (n.toNat / 2^16),
   UInt8.ofNat (n.toNat / 2^8), UInt8.ofNat n.toNat]

/-- Value of a big-endian byte string. -/
def beVal : Bytes → Nat
  | [] => 0
  | b :: bs => b.toNat * 256 ^ bs.length + beVal bs

/-- `binary.BigEndian.Uint64`: reads the first 8 bytes; panics on a shorter slice. -/
def be64Dec (b : Bytes) : Go UInt64 :=
  if b.length < 8 then goPanic else .ok (UInt64.ofNat (beVal (b.take 8)))

/-- `bytes.Compare(a, b) < 0`, LevelDB's default key order. -/
def bytesLt : Bytes → Bytes → Bool
  | [], [] => false
  | [], _ :: _ => true
  | _ :: _, [] => false
  | x :: xs, y :: ys => decide (x < y) || (decide (x = y) && bytesLt xs ys)

@[simp] theorem be64_length (n : UInt64) : (be64 n).length = 8 := rfl

theorem beVal_be64 (n : UInt64) : beVal (be64 n) = n.toNat := by
  have h := n.toNat_lt
  simp only [be64, beVal, UInt8.toNat_ofNat', List.length_cons, List.length_nil]
  omega

theorem be64Dec_be64 (n : UInt64) : be64Dec (be64 n) = .ok n := by
  have : (be64 n).take 8 = be64 n := List.take_of_length_le (by simp)
  simp [be64Dec, this, beVal_be64]

theorem be64_inj {m n : UInt64} (h : be64 m = be64 n) : m = n := by
  have := congrArg beVal h
  rw [beVal_be64, beVal_be64] at this
  exact UInt64.toNat_inj.mp this

@[simp] theorem be64_inj_iff {m n : UInt64} : be64 m = be64 n ↔ m = n :=
  ⟨be64_inj, fun h => h ▸ rfl⟩

theorem beVal_lt (b : Bytes) : beVal b < 256 ^ b.length := by
  induction b with
  | nil => simp [beVal]
  | cons x xs ih =>
    have hx := x.toNat_lt
    simp only [beVal, List.length_cons, Nat.pow_succ]
    have : x.toNat * 256 ^ xs.length ≤ 255 * 256 ^ xs.length :=
      Nat.mul_le_mul_right _ (by omega)
    omega

/-- On byte strings of equal length the byte order is the numeric order of the
big-endian values. -/
theorem bytesLt_iff_beVal : ∀ {a b : Bytes}, a.length = b.length →
    (bytesLt a b = true ↔ beVal a < beVal b)
  | [], [], _ => by simp [bytesLt, beVal]
  | [], _ :: _, h => by simp at h
  | _ :: _, [], h => by simp at h
  | x :: xs, y :: ys, h => by
    have hl : xs.length = ys.length := by simpa using h
    have ih := bytesLt_iff_beVal hl
    have h1 := beVal_lt xs
    have h2 := beVal_lt ys
    simp only [bytesLt, Bool.or_eq_true, Bool.and_eq_true, decide_eq_true_eq, ih, beVal]
    rw [hl] at h1 ⊢
    rw [UInt8.lt_iff_toNat_lt, ← UInt8.toNat_inj]
    generalize 256 ^ ys.length = P at *
    constructor
    · rintro (hlt | ⟨he, hlt⟩)
      · have : (x.toNat + 1) * P ≤ y.toNat * P := Nat.mul_le_mul_right _ hlt
        rw [Nat.add_mul] at this
        omega
      · rw [he]; omega
    · intro hlt
      by_cases hc : x.toNat < y.toNat
      · exact Or.inl hc
      · right
        by_cases he : x.toNat = y.toNat
        · refine ⟨he, ?_⟩
          rw [he] at hlt; omega
        · exfalso
          have : (y.toNat + 1) * P ≤ x.toNat * P := Nat.mul_le_mul_right _ (by omega)
          rw [Nat.add_mul] at this
          omega

theorem bytesLt_be64 {m n : UInt64} : bytesLt (be64 m) (be64 n) = true ↔ m < n := by
  rw [bytesLt_iff_beVal (by simp), beVal_be64, beVal_be64, UInt64.lt_iff_toNat_lt]

theorem bytesLt_irrefl : ∀ a : Bytes, bytesLt a a = false
  | [] => rfl
  | x :: xs => by simp [bytesLt, bytesLt_irrefl xs]

theorem bytesLt_trans : ∀ {a b c : Bytes}, bytesLt a b = true → bytesLt b c = true → bytesLt a c = true
  | [], [], _, h, _ => by simp [bytesLt] at h
  | [], _ :: _, [], _, h => by simp [bytesLt] at h
  | [], _ :: _, _ :: _, _, _ => by simp [bytesLt]
  | _ :: _, [], _, h, _ => by simp [bytesLt] at h
  | _ :: _, _ :: _, [], _, h => by simp [bytesLt] at h
  | x :: xs, y :: ys, z :: zs, h1, h2 => by
    simp only [bytesLt, Bool.or_eq_true, Bool.and_eq_true, decide_eq_true_eq] at *
    rcases h1 with h1 | ⟨e1, h1⟩ <;> rcases h2 with h2 | ⟨e2, h2⟩
    · exact Or.inl (UInt8.lt_trans h1 h2)
    · exact Or.inl (e2 ▸ h1)
    · exact Or.inl (e1 ▸ h2)
    · exact Or.inr ⟨e1.trans e2, bytesLt_trans h1 h2⟩

theorem bytesLt_total : ∀ {a b : Bytes}, a ≠ b → bytesLt a b = false → bytesLt b a = true
  | [], [], h, _ => absurd rfl h
  | [], _ :: _, _, h => by simp [bytesLt] at h
  | _ :: _, [], _, _ => by simp [bytesLt]
  | x :: xs, y :: ys, hne, h => by
    simp only [bytesLt, Bool.or_eq_false_iff, Bool.and_eq_false_iff, decide_eq_false_iff_not,
      Bool.or_eq_true, Bool.and_eq_true, decide_eq_true_eq] at *
    obtain ⟨h1, h2⟩ := h
    by_cases e : x = y
    · right
      refine ⟨e.symm, bytesLt_total (fun he => hne (by rw [e, he])) ?_⟩
      rcases h2 with h2 | h2
      · exact absurd e h2
      · exact h2
    · left
      rw [UInt8.lt_iff_toNat_lt] at *
      have : x.toNat ≠ y.toNat := fun h => e (UInt8.toNat_inj.mp h)
      omega

theorem bytesLt_asymm {a b : Bytes} (h : bytesLt a b = true) : bytesLt b a = false := by
  cases h' : bytesLt b a with
  | false => rfl
  | true => rw [← bytesLt_irrefl a]; exact (bytesLt_trans h h').symm

theorem bytesLt_ne {a b : Bytes} (h : bytesLt a b = true) : a ≠ b := by
  rintro rfl; simp [bytesLt_irrefl] at h

end Verif
