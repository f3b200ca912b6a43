import Verif.Services.Times
import Verif.Services.NetipLemmas
import Verif.Services.TimesSpec
/-
Lemmas about the texts of times: what the writer writes, the reader reads.
-/

set_option autoImplicit false

namespace Verif.Services.Times

open Verif
open Verif.Services.Rfc3339 (leap monthDays yearDays dateDays isDate digit number char)

/-! ### the calendar -/

theorem yearDays_eq (y : Nat) : yearDays y + (y + 99) / 100 = 365 * y + (y + 3) / 4 + (y + 399) / 400 := by
  induction y with
  | zero => rfl
  | succ y ih =>
    unfold yearDays
    by_cases h : leap y = true
    · rw [if_pos h]
      simp only [leap, Bool.and_eq_true, Bool.or_eq_true, bne_iff_ne, beq_iff_eq] at h
      omega
    · rw [if_neg h]
      simp only [leap, Bool.and_eq_true, Bool.or_eq_true, bne_iff_ne, beq_iff_eq] at h
      omega

theorem leap_index {y : Nat} (h : 399 ≤ y) : leapIndex y = leap (y - 399) := by
  unfold leapIndex leap
  have h1 : (y + 1) % 4 = (y - 399) % 4 := by omega
  have h2 : (y + 1) % 100 = (y - 399) % 100 := by omega
  have h3 : (y + 1) % 400 = (y - 399) % 400 := by omega
  rw [h1, h2, h3]

theorem yearOf_spec (d : Nat) : (yearOf d).2 < (if leapIndex (yearOf d).1 then 366 else 365) ∧
    365 * (yearOf d).1 + (yearOf d).1 / 4 + (yearOf d).1 / 400 + (yearOf d).2 = d + (yearOf d).1 / 100 := by
  have key : ∀ n400 d1 n100 d2 n4 d3 n1 : Nat, n400 = d / 146097 → d1 = d - 146097 * n400 → n100 = d1 / 36524 - d1 / 36524 / 4 →
      d2 = d1 - 36524 * n100 → n4 = d2 / 1461 → d3 = d2 - 1461 * n4 → n1 = d3 / 365 - d3 / 365 / 4 →
      d3 - 365 * n1 < (if leapIndex (400 * n400 + 100 * n100 + 4 * n4 + n1) then 366 else 365) ∧
      365 * (400 * n400 + 100 * n100 + 4 * n4 + n1) + (400 * n400 + 100 * n100 + 4 * n4 + n1) / 4 +
        (400 * n400 + 100 * n100 + 4 * n4 + n1) / 400 + (d3 - 365 * n1) = d + (400 * n400 + 100 * n100 + 4 * n4 + n1) / 100 := by
    intro n400 d1 n100 d2 n4 d3 n1 e1 e2 e3 e4 e5 e6 e7
    have b1 : d1 < 146097 := by omega
    have b2 : n100 ≤ 3 := by omega
    have b3 : d2 ≤ 36524 ∧ (n100 < 3 → d2 < 36524) := by omega
    have b4 : n4 ≤ 24 := by omega
    have b5 : d3 < 1461 ∧ (n4 = 24 → n100 < 3 → d3 < 1460) := by omega
    have b6 : n1 ≤ 3 := by omega
    have b7 : d3 - 365 * n1 ≤ 365 ∧ (d3 - 365 * n1 = 365 → n1 = 3 ∧ d3 = 1460) := by omega
    have q4 : (400 * n400 + 100 * n100 + 4 * n4 + n1) / 4 = 100 * n400 + 25 * n100 + n4 := by omega
    have q100 : (400 * n400 + 100 * n100 + 4 * n4 + n1) / 100 = 4 * n400 + n100 := by omega
    have q400 : (400 * n400 + 100 * n100 + 4 * n4 + n1) / 400 = n400 := by omega
    constructor
    · by_cases h : leapIndex (400 * n400 + 100 * n100 + 4 * n4 + n1) = true
      · rw [if_pos h]; omega
      · rw [if_neg h]
        have : ¬ (d3 - 365 * n1 = 365) := by
          intro he
          obtain ⟨h1, h2⟩ := b7.2 he
          apply h
          simp only [leapIndex, Bool.and_eq_true, Bool.or_eq_true, bne_iff_ne, beq_iff_eq]
          omega
        omega
    · rw [q4, q100, q400]; omega
  exact key _ _ _ _ _ _ _ rfl rfl rfl rfl rfl rfl rfl

theorem monthOf_spec (l : Bool) {y : Nat} (h : y < if l then 366 else 365) :
    1 ≤ (monthOf l y).1 ∧ (monthOf l y).1 ≤ 12 ∧ 1 ≤ (monthOf l y).2 ∧ (monthOf l y).2 ≤ (monthDays l).getD ((monthOf l y).1 - 1) 0 ∧
    ((monthDays l).take ((monthOf l y).1 - 1)).foldl (· + ·) 0 + ((monthOf l y).2 - 1) = y := by
  have k : ∀ l : Bool, ∀ y, y < (if l then 366 else 365) →
    1 ≤ (monthOf l y).1 ∧ (monthOf l y).1 ≤ 12 ∧ 1 ≤ (monthOf l y).2 ∧ (monthOf l y).2 ≤ (monthDays l).getD ((monthOf l y).1 - 1) 0 ∧
    ((monthDays l).take ((monthOf l y).1 - 1)).foldl (· + ·) 0 + ((monthOf l y).2 - 1) = y := by decide +kernel
  exact k l y h

theorem monthOf_day (l : Bool) {y : Nat} (h : y < if l then 366 else 365) : (monthOf l y).2 < 100 := by
  have k : ∀ l : Bool, ∀ y, y < (if l then 366 else 365) → (monthOf l y).2 < 100 := by decide +kernel
  exact k l y h

/-- the date of a day -/
theorem date_spec {d : Nat} (hy : 399 ≤ (yearOf d).1) :
    isDate ((yearOf d).1 - 399) (monthOf (leapIndex (yearOf d).1) (yearOf d).2).1 (monthOf (leapIndex (yearOf d).1) (yearOf d).2).2 = true ∧
    (dateDays ((yearOf d).1 - 399) (monthOf (leapIndex (yearOf d).1) (yearOf d).2).1 (monthOf (leapIndex (yearOf d).1) (yearOf d).2).2 : Int) - 719528 =
      (d : Int) - 865259 := by
  obtain ⟨h1, h2⟩ := yearOf_spec d
  obtain ⟨m1, m2, m3, m4, m5⟩ := monthOf_spec _ h1
  constructor
  · unfold isDate
    rw [← leap_index hy]
    exact decide_eq_true ⟨m1, m2, m3, m4⟩
  · unfold dateDays
    have h3 := yearDays_eq ((yearOf d).1 - 399)
    rw [← leap_index hy]
    generalize (yearOf d).1 = Y at *
    generalize (yearOf d).2 = D at *
    generalize monthOf (leapIndex Y) D = M at *
    generalize ((monthDays (leapIndex Y)).take (M.1 - 1)).foldl (· + ·) 0 = S at *
    clear m1 m2 m3 m4 h1
    obtain ⟨y, rfl⟩ : ∃ y, Y = y + 399 := ⟨Y - 399, by omega⟩
    rw [Nat.add_sub_cancel] at h3 ⊢
    have q4 : (y + 399) / 4 = (y + 3) / 4 + 99 := by omega
    have q100 : (y + 399) / 100 = (y + 99) / 100 + 3 := by omega
    rw [q4, q100] at h2
    omega

/-! ### the reader on the pieces of the text -/

theorem digit_of {n : Nat} (h : n < 10) : digit (UInt8.ofNat (48 + n)) = some n := by
  have : ∀ n : Fin 10, digit (UInt8.ofNat (48 + n.1)) = some n.1 := by decide
  exact this ⟨n, h⟩

theorem number_two {n : Nat} (h : n < 100) (s : Bytes) : number 2 0 (two n ++ s) = some (n, s) := by
  unfold two
  rw [if_pos h]
  show (digit _).bind _ = _
  rw [digit_of (by omega), Option.bind_some]
  show (digit _).bind _ = _
  rw [digit_of (by omega), Option.bind_some]
  show some _ = _
  congr 2; omega

theorem number_four {n : Nat} (h : n < 10000) (s : Bytes) : number 4 0 (four n ++ s) = some (n, s) := by
  unfold four
  rw [if_pos h]
  show (digit _).bind _ = _
  rw [digit_of (by omega), Option.bind_some]
  show (digit _).bind _ = _
  rw [digit_of (by omega), Option.bind_some]
  show (digit _).bind _ = _
  rw [digit_of (by omega), Option.bind_some]
  show (digit _).bind _ = _
  rw [digit_of (by omega), Option.bind_some]
  show some _ = _
  congr 2; omega

theorem char_self (c : UInt8) (s : Bytes) : char c (c :: s) = some s := by
  simp [char]

/-- what may follow the fraction: not a digit, not a dot -/
def Ends (s : Bytes) : Prop := ∃ b r, s = b :: r ∧ digit b = none ∧ b ≠ 46

theorem digits_ends {s : Bytes} (h : Ends s) : Rfc3339.digits s = ([], s) := by
  obtain ⟨b, r, rfl, hd, _⟩ := h
  rw [Rfc3339.digits, hd]

theorem digits_cons {n : Nat} (h : n < 10) (s : Bytes) : Rfc3339.digits (UInt8.ofNat (48 + n) :: s) = (n :: (Rfc3339.digits s).1, (Rfc3339.digits s).2) := by
  rw [Rfc3339.digits, digit_of h]

theorem ofNat_zero {n : Nat} (h : n < 10) : (UInt8.ofNat (48 + n) = 48) ↔ n = 0 := by
  have : ∀ n : Fin 10, (UInt8.ofNat (48 + n.1) = 48) ↔ n.1 = 0 := by decide
  exact this ⟨n, h⟩

theorem fraction_read {ms : Nat} (h : ms < 1000) {s : Bytes} (hs : Ends s) : Rfc3339.fraction (fraction ms ++ s) = some (ms, s) := by
  unfold fraction
  by_cases h0 : ms = 0
  · rw [if_pos h0]
    obtain ⟨b, r, rfl, hd, hb⟩ := hs
    rw [h0]
    show Rfc3339.fraction (b :: r) = _
    have : char 46 (b :: r) = none := by simp [char, hb]
    unfold Rfc3339.fraction
    rw [this]
  · rw [if_neg h0]
    have ha : ms / 100 < 10 := by omega
    have hb : ms / 10 % 10 < 10 := by omega
    have hc : ms % 10 < 10 := by omega
    show Rfc3339.fraction (46 :: ((List.dropWhile (· = 48)
      [UInt8.ofNat (48 + ms % 10), UInt8.ofNat (48 + ms / 10 % 10), UInt8.ofNat (48 + ms / 100)]).reverse ++ s)) = _
    unfold Rfc3339.fraction
    rw [char_self]
    simp only
    by_cases hc0 : ms % 10 = 0
    · by_cases hb0 : ms / 10 % 10 = 0
      · have ha0 : ms / 100 ≠ 0 := by omega
        rw [List.dropWhile_cons_of_pos (by simpa using (ofNat_zero hc).mpr hc0), List.dropWhile_cons_of_pos (by simpa using (ofNat_zero hb).mpr hb0),
          List.dropWhile_cons_of_neg (by simpa using fun e => ha0 ((ofNat_zero ha).mp e))]
        show (match Rfc3339.digits (UInt8.ofNat (48 + ms / 100) :: s) with
          | ([a], r) => some (100 * a, r) | ([a, b], r) => some (100 * a + 10 * b, r)
          | ([a, b, c], r) => some (100 * a + 10 * b + c, r) | _ => none) = _
        rw [digits_cons ha, digits_ends hs]
        simp only
        congr 2; omega
      · rw [List.dropWhile_cons_of_pos (by simpa using (ofNat_zero hc).mpr hc0),
          List.dropWhile_cons_of_neg (by simpa using fun e => hb0 ((ofNat_zero hb).mp e))]
        show (match Rfc3339.digits (UInt8.ofNat (48 + ms / 100) :: UInt8.ofNat (48 + ms / 10 % 10) :: s) with
          | ([a], r) => some (100 * a, r) | ([a, b], r) => some (100 * a + 10 * b, r)
          | ([a, b, c], r) => some (100 * a + 10 * b + c, r) | _ => none) = _
        rw [digits_cons ha, digits_cons hb, digits_ends hs]
        simp only
        congr 2; omega
    · rw [List.dropWhile_cons_of_neg (by simpa using fun e => hc0 ((ofNat_zero hc).mp e))]
      show (match Rfc3339.digits (UInt8.ofNat (48 + ms / 100) :: UInt8.ofNat (48 + ms / 10 % 10) :: UInt8.ofNat (48 + ms % 10) :: s) with
        | ([a], r) => some (100 * a, r) | ([a, b], r) => some (100 * a + 10 * b, r)
        | ([a, b, c], r) => some (100 * a + 10 * b + c, r) | _ => none) = _
      rw [digits_cons ha, digits_cons hb, digits_cons hc, digits_ends hs]
      simp only
      congr 2; omega

theorem zone_ends (o : Int) : Ends (zoneText o) := by
  unfold zoneText
  split
  · exact ⟨90, [], rfl, by decide, by decide⟩
  · split
    · exact ⟨45, _, rfl, by decide, by decide⟩
    · exact ⟨43, _, rfl, by decide, by decide⟩

theorem zone_read {o : Int} (hb : o.natAbs < 86400) : Rfc3339.offset (zoneText o) = some (o.tdiv 60, []) := by
  have hz : (o.tdiv 60).natAbs < 1440 := by
    rw [Int.natAbs_tdiv]
    show o.natAbs / 60 < 1440
    omega
  unfold zoneText
  by_cases h0 : o = 0
  · rw [if_pos h0, h0]; rfl
  · rw [if_neg h0]
    generalize o.tdiv 60 = m at *
    have h1 : m.natAbs / 60 < 24 := by omega
    have h2 : m.natAbs % 60 < 60 := by omega
    have hr : ∀ (sign : Int) , (number 2 0 (two (m.natAbs / 60) ++ 58 :: two (m.natAbs % 60))).bind
        (fun h => (char 58 h.2).bind (fun s => (number 2 0 s).bind (fun m =>
          if h.1 < 24 ∧ m.1 < 60 then some (sign * ((h.1 * 60 + m.1 : Nat) : Int), m.2) else none))) =
        some (sign * (m.natAbs : Int), []) := by
      intro sign
      rw [number_two (by omega), Option.bind_some]
      simp only
      rw [char_self, Option.bind_some]
      have := number_two (n := m.natAbs % 60) (by omega) []
      rw [List.append_nil] at this
      rw [this, Option.bind_some]
      simp only
      rw [if_pos ⟨h1, h2⟩]
      have e : m.natAbs / 60 * 60 + m.natAbs % 60 = m.natAbs := by omega
      rw [e]
    by_cases hn : m < 0
    · rw [if_pos hn]
      have : Rfc3339.offset (45 :: (two (m.natAbs / 60) ++ 58 :: two (m.natAbs % 60))) = _ := hr (-1)
      rw [this]
      congr 2; omega
    · rw [if_neg hn]
      have : Rfc3339.offset (43 :: (two (m.natAbs / 60) ++ 58 :: two (m.natAbs % 60))) = _ := hr 1
      rw [this]
      congr 2; omega

/-- What is written is read, but for the seconds of the offset. -/
theorem read_text {o t : Int} (hs : strict o t = true) {ms : Nat} (hms : ms < 1000) :
    Rfc3339.read (text o t ms) = some ((t + o - 60 * o.tdiv 60) * 1000 + ms) := by
  obtain ⟨h1, h2, h3⟩ := of_decide_eq_true hs
  unfold year at h1 h2
  have hy : 399 ≤ (yearOf (abs o t / 86400)).1 := by omega
  have hab : abs o t = t + o + 865259 * 86400 := by
    have : (0 : Int) ≤ t + o + 865259 * 86400 := by
      apply Decidable.byContradiction
      intro hlt
      have : abs o t = 0 := by
        unfold abs epoch
        omega
      rw [this] at hy
      exact absurd hy (by decide)
    unfold abs epoch
    omega
  obtain ⟨hd, hdays⟩ := date_spec hy
  obtain ⟨hl, _⟩ := yearOf_spec (abs o t / 86400)
  have hday := monthOf_day _ hl
  obtain ⟨_, hmon, _⟩ := monthOf_spec _ hl
  unfold text Rfc3339.read
  simp only
  rw [number_four (by omega), Option.bind_some]
  simp only
  rw [char_self, Option.bind_some]
  rw [number_two (by omega), Option.bind_some]
  simp only
  rw [char_self, Option.bind_some]
  rw [number_two hday, Option.bind_some]
  simp only
  rw [char_self, Option.bind_some]
  rw [number_two (by omega), Option.bind_some]
  simp only
  rw [char_self, Option.bind_some]
  rw [number_two (by omega), Option.bind_some]
  simp only
  rw [char_self, Option.bind_some]
  rw [number_two (by omega), Option.bind_some]
  simp only
  rw [fraction_read hms (zone_ends o), Option.bind_some]
  simp only
  rw [zone_read h3, Option.bind_some]
  simp only
  rw [if_pos ⟨hd, by omega, by omega, by omega, trivial⟩, hdays]
  congr 1
  omega

/-! ### the limits -/

theorem yearDays_le {a b : Nat} (h : a ≤ b) : yearDays a ≤ yearDays b := by
  induction h with
  | refl => exact Nat.le_refl _
  | step _ ih => exact Nat.le_trans ih (Nat.le_add_right _ _)

theorem yearOf_days (d : Nat) : yearDays ((yearOf d).1 + 1) ≤ d + 366 ∧ d + 366 < yearDays ((yearOf d).1 + 2) := by
  obtain ⟨h1, h2⟩ := yearOf_spec d
  have h3 := yearDays_eq ((yearOf d).1 + 1)
  have h4 : yearDays ((yearOf d).1 + 2) = yearDays ((yearOf d).1 + 1) + (if leapIndex (yearOf d).1 then 366 else 365) := rfl
  rw [h4]
  generalize (if leapIndex (yearOf d).1 = true then 366 else 365) = L at *
  generalize (yearOf d).1 = Y at *
  generalize (yearOf d).2 = D at *
  have q4 : (Y + 1 + 3) / 4 = Y / 4 + 1 := by omega
  have q100 : (Y + 1 + 99) / 100 = Y / 100 + 1 := by omega
  have q400 : (Y + 1 + 399) / 400 = Y / 400 + 1 := by omega
  rw [q4, q100, q400] at h3
  omega

theorem year_ge {d y : Nat} : y ≤ (yearOf d).1 ↔ yearDays (y + 1) ≤ d + 366 := by
  obtain ⟨h1, h2⟩ := yearOf_days d
  constructor
  · intro h
    exact Nat.le_trans (yearDays_le (Nat.succ_le_succ h)) h1
  · intro h
    apply Decidable.byContradiction
    intro hlt
    have := yearDays_le (a := (yearOf d).1 + 2) (b := y + 1) (by omega)
    omega

/-- the times that can be encoded: the years 0 to 9999 of the local time -/
theorem strict_iff (o t : Int) : strict o t = true ↔ -62167219200 ≤ t + o ∧ t + o < 253402300800 ∧ o.natAbs < 86400 := by
  have e1 : yearDays 400 = 146097 := by have := yearDays_eq 400; omega
  have e2 : yearDays 10400 = 3798522 := by have := yearDays_eq 10400; omega
  have g1 : 399 ≤ (yearOf (abs o t / 86400)).1 ↔ _ := year_ge
  have g2 : 10399 ≤ (yearOf (abs o t / 86400)).1 ↔ _ := year_ge
  rw [show 399 + 1 = 400 from rfl, e1] at g1
  rw [show 10399 + 1 = 10400 from rfl, e2] at g2
  unfold strict year
  rw [decide_eq_true_iff]
  have ha : abs o t = (t + o + 865259 * 86400).toNat := rfl
  generalize (yearOf (abs o t / 86400)).1 = Y at *
  omega

/-! ### the characters -/

theorem digit_ascii {n : Nat} (h : n < 10) : UInt8.ofNat (48 + n) < 0x80 := by
  have : ∀ n : Fin 10, UInt8.ofNat (48 + n.1) < 0x80 := by decide
  exact this ⟨n, h⟩

theorem digits_ascii (n : Nat) : ∀ x, x ∈ Json.digits n → x < 0x80 := fun x hx =>
  Json.forall_byte (p := fun x => Json.isDig x = true → x < 0x80) (by decide +kernel) x (Json.digits_isDig _ x hx)

theorem two_ascii (n : Nat) : ∀ x, x ∈ two n → x < 0x80 := by
  intro x hx
  unfold two at hx
  split at hx
  · simp only [List.mem_cons, List.not_mem_nil, or_false] at hx
    rcases hx with rfl | rfl <;> exact digit_ascii (by omega)
  · exact digits_ascii _ x hx

theorem four_ascii (n : Nat) : ∀ x, x ∈ four n → x < 0x80 := by
  intro x hx
  unfold four at hx
  split at hx
  · simp only [List.mem_cons, List.not_mem_nil, or_false] at hx
    rcases hx with rfl | rfl | rfl | rfl <;> exact digit_ascii (by omega)
  · exact digits_ascii _ x hx

theorem fraction_ascii {ms : Nat} (h : ms < 1000) : ∀ x, x ∈ fraction ms → x < 0x80 := by
  intro x hx
  unfold fraction at hx
  split at hx
  · cases hx
  · rcases List.mem_cons.mp hx with rfl | hx
    · decide
    · have hx := List.mem_reverse.mp ((List.dropWhile_sublist _).subset (List.mem_reverse.mp hx))
      simp only [List.mem_cons, List.not_mem_nil, or_false] at hx
      rcases hx with rfl | rfl | rfl <;> exact digit_ascii (by omega)

theorem zone_ascii (o : Int) : ∀ x, x ∈ zoneText o → x < 0x80 := by
  intro x hx
  unfold zoneText at hx
  split at hx
  · simp at hx; subst hx; decide
  · split at hx
    all_goals
      rcases List.mem_cons.mp hx with rfl | hx
      · decide
      · rcases List.mem_append.mp hx with hx | hx
        · exact two_ascii _ x hx
        · rcases List.mem_cons.mp hx with rfl | hx
          · decide
          · exact two_ascii _ x hx

theorem text_ascii (o t : Int) {ms : Nat} (h : ms < 1000) : ∀ x, x ∈ text o t ms → x < 0x80 := by
  intro x hx
  unfold text at hx
  simp only [List.mem_append, List.mem_cons] at hx
  rcases hx with hx | rfl | hx | rfl | hx | rfl | hx | rfl | hx | rfl | hx | hx | hx
  · exact four_ascii _ x hx
  · decide
  · exact two_ascii _ x hx
  · decide
  · exact two_ascii _ x hx
  · decide
  · exact two_ascii _ x hx
  · decide
  · exact two_ascii _ x hx
  · decide
  · exact two_ascii _ x hx
  · exact fraction_ascii h x hx
  · exact zone_ascii o x hx

end Verif.Services.Times
