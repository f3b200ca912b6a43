import Verif.Services.Names
import Verif.Loading.QueueLemmas
import Verif.Services.AddrPortLemmas
/-
Lemmas about the texts in the log.
-/

set_option autoImplicit false

namespace Verif.Services.Names

open Verif
open Verif.Chains (BlockID ProtoBlock)
open Verif.Loading (Item put newQueue ready lastWith lastWith_some lastWith_none fold_newQueue)
open Verif.Services.Json (digits number isDig digits_isDig decVal decVal_digits)
open Verif.Services.Netip (chars)

theorem chars_inj {a b : Bytes} (ha : ∀ x, x ∈ a → isDig x = true ∨ x = 45) (hb : ∀ x, x ∈ b → isDig x = true ∨ x = 45)
    (h : chars a = chars b) : a = b := by
  have key : ∀ x : UInt8, (isDig x = true ∨ x = 45) → UInt8.ofNat (Char.ofNat x.toNat).toNat = x := by
    intro x _
    exact Json.forall_byte (p := fun x => UInt8.ofNat (Char.ofNat x.toNat).toNat = x) (by decide +kernel) x
  have back : ∀ l : Bytes, (∀ x, x ∈ l → isDig x = true ∨ x = 45) → (chars l).map (fun c => UInt8.ofNat c.toNat) = l := by
    intro l hl
    unfold chars
    rw [List.map_map]
    conv => rhs; rw [← List.map_id l]
    exact List.map_congr_left (fun x hx => key x (hl x hx))
  rw [← back a ha, ← back b hb, h]

theorem number_dig (i : Int) : ∀ x, x ∈ number i → isDig x = true ∨ x = 45 := by
  intro x hx
  cases i with
  | ofNat n => exact Or.inl (digits_isDig n x hx)
  | negSucc n =>
    rcases List.mem_cons.mp hx with rfl | hx
    · exact Or.inr rfl
    · exact Or.inl (digits_isDig _ x hx)

theorem digits_injective {m n : Nat} (h : digits m = digits n) : m = n := by
  rw [← decVal_digits m, h, decVal_digits]

theorem number_injective {i j : Int} (h : number i = number j) : i = j := by
  have h45 : ∀ n t, digits n = 45 :: t → False := by
    intro n t e
    have := digits_isDig n 45 (by rw [e]; simp)
    exact absurd this (by decide)
  cases i with
  | ofNat m =>
    cases j with
    | ofNat n => rw [digits_injective h]
    | negSucc n => exact (h45 m _ h).elim
  | negSucc m =>
    cases j with
    | ofNat n => exact (h45 n _ h.symm).elim
    | negSucc n =>
      have := digits_injective (List.cons.inj h).2
      have : m = n := by omega
      rw [this]

theorem stringer_else {type name : List Char} {idx : List Nat} {i : Int} (h : i < 0 ∨ i ≥ (idx.length : Int) - 1) :
    stringer type name idx i = .ok (type ++ '(' :: (chars (number i) ++ [')'])) := by
  unfold stringer
  rw [if_pos h]

/-- the texts of numbers without a name differ -/
theorem paren_inj {type : List Char} {i j : Int}
    (h : type ++ '(' :: (chars (number i) ++ [')']) = type ++ '(' :: (chars (number j) ++ [')'])) : i = j := by
  have h := List.append_cancel_left h
  have h := List.append_cancel_right (List.cons.inj h).2
  exact number_injective (chars_inj (number_dig i) (number_dig j) h)

/-- the item holds the block that was asked for -/
def Holds (it : Item) : Prop := it.received.map (fun b => b.id) = some it.requested

instance (it : Item) : Decidable (Holds it) := inferInstanceAs (Decidable (_ = _))

theorem countLoop_eq : ∀ (q : List Item) (n : Nat), countLoop n q = n + (q.filter (fun it => decide (Holds it))).length
  | [], n => rfl
  | it :: q, n => by
    rw [countLoop]
    cases h : it.received with
    | none =>
      have hn : ¬ Holds it := by simp [Holds, h]
      simp only
      rw [countLoop_eq q, List.filter_cons, if_neg (by simpa using hn)]
    | some b =>
      simp only
      by_cases e : it.requested = b.id
      · have hp : Holds it := by simp [Holds, h, e]
        rw [if_pos e, countLoop_eq q, List.filter_cons, if_pos (by simpa using hp), List.length_cons]
        omega
      · have hn : ¬ Holds it := by simp only [Holds, h, Option.map_some, Option.some.injEq]; exact fun e' => e e'.symm
        rw [if_neg e, countLoop_eq q, List.filter_cons, if_neg (by simpa using hn)]

theorem holds_iff (it : Item) : Holds it ↔ it.filled = true := by
  unfold Holds Item.filled
  cases it.received with
  | none => simp
  | some b => simp

theorem full_iff (q : List Item) : (q.filter (fun it => decide (Holds it))).length = q.length ↔ ready q = true := by
  rw [List.length_filter_eq_length_iff]
  unfold ready
  rw [List.all_eq_true]
  constructor
  · intro h it hit
    exact (holds_iff it).mp (by simpa using h it hit)
  · intro h it hit
    simpa using (holds_iff it).mpr (h it hit)

theorem rangeString_eq (short : BlockID → List Char) {q : List Item} {a b : Item} (ha : q.head? = some a) (hb : q.getLast? = some b) :
    rangeString short q = .ok ('[' :: (short a.requested ++ '.' :: '.' :: (short b.requested ++ ']' :: '(' ::
      ((if (q.filter (fun it => decide (Holds it))).length = q.length then "READY/".toList ++ chars (digits q.length)
        else chars (digits (q.filter (fun it => decide (Holds it))).length) ++ '/' :: chars (digits q.length)) ++ [')'])))) := by
  have h0 : q.length ≠ 0 := by
    intro h
    rw [List.length_eq_zero_iff.mp h] at ha
    cases ha
  have e0 : item q 0 = .ok a := by
    unfold item
    rw [← List.head?_eq_getElem?, ha]
  have e1 : item q (q.length - 1) = .ok b := by
    unfold item
    rw [← List.getLast?_eq_getElem?, hb]
  unfold rangeString
  rw [if_neg h0, e0, e1, countLoop_eq, Nat.zero_add]
  rfl

theorem holds_count (ids : List BlockID) (h : ids.Nodup) (bs : List ProtoBlock) :
    ((bs.foldl put (newQueue ids)).filter (fun it => decide (Holds it))).length =
      (ids.filter (fun id => bs.any (fun b => decide (b.id = id)))).length := by
  rw [fold_newQueue ids h, List.filter_map, List.length_map]
  congr 1
  refine List.filter_congr (fun id _ => ?_)
  show decide (Holds ⟨id, lastWith id bs⟩) = _
  cases hl : lastWith id bs with
  | none =>
    have := lastWith_none hl
    have h2 : bs.any (fun b => decide (b.id = id)) = false := by
      rw [List.any_eq_false]
      intro b hb
      simpa using this b hb
    rw [h2]
    simp [Holds]
  | some b =>
    obtain ⟨hb, e⟩ := lastWith_some hl
    have h2 : bs.any (fun b => decide (b.id = id)) = true := List.any_eq_true.mpr ⟨b, hb, by simpa using e⟩
    rw [h2]
    simp [Holds, e]

end Verif.Services.Names
