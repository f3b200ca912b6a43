import Verif.Services.JsonSpec
import Verif.Peers.Hostile
/-
Lemmas about the text of JSON values: reading back what was written.
-/

set_option autoImplicit false

namespace Verif.Services.Json

open Verif
open Verif.Peers (validUTF8 contByte validUTF8_append)

theorem forall_byte {p : UInt8 → Prop} (h : ∀ n, n < 256 → p (UInt8.ofNat n)) (b : UInt8) : p b := by
  have := h b.toNat b.toNat_lt
  rwa [UInt8.ofNat_toNat] at this

theorem unhex_hex : ∀ b : UInt8, b < 16 → unhex (hex b) = some b.toNat := forall_byte (by decide +kernel)

theorem readStr_end (s : Bytes) : readStr (34 :: s) = some ([], s) := by rw [readStr.eq_def]; rfl

theorem readStr_plain {b : UInt8} (h1 : b ≠ 34) (h2 : b ≠ 92) (h3 : ¬ b < 32) (s : Bytes) :
    readStr (b :: s) = (readStr s).map (fun x => (b :: x.1, x.2)) := by
  rw [readStr.eq_def]
  simp only [if_neg h1, if_neg h2, if_neg h3]
  cases readStr s <;> rfl

theorem readStr_short {c e : UInt8} (h1 : c ≠ 117) (h2 : short c = some e) (s : Bytes) :
    readStr (92 :: c :: s) = (readStr s).map (fun x => (e :: x.1, x.2)) := by
  rw [readStr.eq_def]
  simp only [show ¬ (92 : UInt8) = 34 by decide, if_false, if_true, if_neg h1, h2]
  cases readStr s <;> rfl

theorem readStr_u {h1 h2 h3 h4 : UInt8} {n1 n2 n3 n4 : Nat} {u : Bytes} (e1 : unhex h1 = some n1) (e2 : unhex h2 = some n2)
    (e3 : unhex h3 = some n3) (e4 : unhex h4 = some n4) (e : utf8 (n1 * 4096 + n2 * 256 + n3 * 16 + n4) = some u) (s : Bytes) :
    readStr (92 :: 117 :: h1 :: h2 :: h3 :: h4 :: s) = (readStr s).map (fun x => (u ++ x.1, x.2)) := by
  rw [readStr.eq_def]
  simp only [show ¬ (92 : UInt8) = 34 by decide, if_false, if_true, e1, e2, e3, e4, Option.bind_eq_bind, Option.bind_some, e]
  cases readStr s <;> rfl

theorem escByte_cases : ∀ b : UInt8, b < 0x80 →
    (escByte b = [b] ∧ b ≠ 34 ∧ b ≠ 92 ∧ ¬ b < 32) ∨
    (escByte b = [92, (escByte b).getD 1 0] ∧ (escByte b).getD 1 0 ≠ 117 ∧ short ((escByte b).getD 1 0) = some b) ∨
    (escByte b = [92, 117, 48, 48, hex (b / 16), hex (b % 16)]) := forall_byte (by decide +kernel)

theorem readStr_escByte {b : UInt8} (hb : b < 0x80) (s : Bytes) :
    readStr (escByte b ++ s) = (readStr s).map (fun x => (b :: x.1, x.2)) := by
  rcases escByte_cases b hb with ⟨h, h1, h2, h3⟩ | ⟨h, h1, h2⟩ | h
  · rw [h]; exact readStr_plain h1 h2 h3 s
  · rw [h]; exact readStr_short h1 h2 s
  · rw [h]
    have hd : b / 16 < 16 := forall_byte (p := fun b => b / 16 < 16) (by decide +kernel) b
    have hm : b % 16 < 16 := forall_byte (p := fun b => b % 16 < 16) (by decide +kernel) b
    refine readStr_u (u := [b]) (by decide : unhex 48 = some 0) (by decide : unhex 48 = some 0) (unhex_hex _ hd) (unhex_hex _ hm) ?_ s
    exact forall_byte (p := fun b => b < 0x80 → utf8 (0 * 4096 + 0 * 256 + (b / 16).toNat * 16 + (b % 16).toNat) = some [b])
      (by decide +kernel) b hb

theorem high_plain : ∀ b : UInt8, ¬ b < 0x80 → b ≠ 34 ∧ b ≠ 92 ∧ ¬ b < 32 := forall_byte (by decide +kernel)

theorem readStr_high {b : UInt8} (hb : ¬ b < 0x80) (s : Bytes) : readStr (b :: s) = (readStr s).map (fun x => (b :: x.1, x.2)) :=
  readStr_plain (high_plain b hb).1 (high_plain b hb).2.1 (high_plain b hb).2.2 s

theorem cont_high : ∀ c lo hi : UInt8, ¬ lo < 0x80 → contByte lo hi c = true → ¬ c < 0x80 := by
  intro c lo hi h hc
  simp only [contByte, Bool.and_eq_true, decide_eq_true_eq] at hc
  exact fun h1 => h (UInt8.lt_of_le_of_lt hc.1 h1)

theorem readStr_escape (s rest : Bytes) (hs : validUTF8 s = true) : readStr (escape s ++ 34 :: rest) = some (s, rest) := by
  fun_induction validUTF8 s with
  | case1 => exact readStr_end rest
  | case2 b s hb ih =>
    rw [escape.eq_def]
    simp only [if_pos hb]
    rw [List.append_assoc, readStr_escByte hb, ih hs]; rfl
  | case3 => cases hs
  | case4 b hb c1 rest1 h1 ih =>
    rw [Bool.and_eq_true] at hs
    rw [escape.eq_def]
    simp only [hb, if_false, h1, if_true, hs.1]
    rw [List.cons_append, List.cons_append, readStr_high hb, readStr_high (cont_high c1 _ _ (by decide) hs.1), ih hs.2]; rfl
  | case5 => cases hs
  | case6 b hb c1 h1 c2 rest2 h2 ih =>
    simp only [Bool.and_eq_true] at hs
    obtain ⟨⟨k1, k2⟩, k3⟩ := hs
    have e1 : ¬ c1 < 0x80 := by
      refine cont_high c1 _ _ ?_ k1
      split <;> decide
    have e2 : ¬ c2 < 0x80 := cont_high c2 _ _ (by decide) k2
    rw [escape.eq_def]
    simp only [hb, if_false, h1, h2, if_true, k1, k2, Bool.and_self, Bool.false_eq_true]
    split
    · next h =>
      obtain ⟨rfl, rfl, rfl | rfl⟩ := h
      · simp only [List.cons_append, List.nil_append]
        rw [readStr_u (u := [0xE2, 0x80, 0xA8]) (by decide : unhex 50 = some 2) (by decide : unhex 48 = some 0) (by decide : unhex 50 = some 2)
          (by decide : unhex (hex (0xA8 % 16)) = some 8) (by decide), ih k3]; rfl
      · simp only [List.cons_append, List.nil_append]
        rw [readStr_u (u := [0xE2, 0x80, 0xA9]) (by decide : unhex 50 = some 2) (by decide : unhex 48 = some 0) (by decide : unhex 50 = some 2)
          (by decide : unhex (hex (0xA9 % 16)) = some 9) (by decide), ih k3]; rfl
    · rw [List.cons_append, List.cons_append, List.cons_append, readStr_high hb, readStr_high e1, readStr_high e2, ih k3]; rfl
  | case7 => cases hs
  | case8 b hb c1 h1 c2 h2 c3 rest3 h3 ih =>
    simp only [Bool.and_eq_true] at hs
    obtain ⟨⟨⟨k1, k2⟩, k3⟩, k4⟩ := hs
    have e1 : ¬ c1 < 0x80 := by
      refine cont_high c1 _ _ ?_ k1
      split <;> decide
    rw [escape.eq_def]
    simp only [hb, if_false, h1, h2, h3, if_true, k1, k2, k3, Bool.and_self, Bool.false_eq_true]
    rw [List.cons_append, List.cons_append, List.cons_append, List.cons_append, readStr_high hb, readStr_high e1,
      readStr_high (cont_high c2 _ _ (by decide) k2), readStr_high (cont_high c3 _ _ (by decide) k3), ih k4]; rfl
  | case9 => cases hs

theorem valid_ascii {b : UInt8} (hb : b < 0x80) (s : Bytes) : validUTF8 (b :: s) = validUTF8 s := by
  rw [validUTF8.eq_def]; simp only [if_pos hb]

theorem escByte_ascii : ∀ b : UInt8, b < 0x80 → validUTF8 (escByte b) = true := forall_byte (by decide +kernel)

theorem valid_bad : validUTF8 bad = true := by decide +kernel

/-- whatever the bytes of a string are, its text is UTF-8 -/
theorem escape_valid (s : Bytes) : validUTF8 (escape s) = true := by
  fun_induction escape s with
  | case1 => decide +kernel
  | case2 b s hb ih => exact validUTF8_append _ (escByte_ascii b hb) ih
  | case3 => exact valid_bad
  | case4 b hb c1 s h1 h2 ih =>
    rw [validUTF8.eq_def]
    simp only [hb, if_false, h1, if_true, h2, ih, Bool.and_self]
  | case5 b hb c1 s h1 h2 ih => exact validUTF8_append _ valid_bad ih
  | case6 b hb c1 h1 ih => exact validUTF8_append _ valid_bad ih
  | case7 b hb c1 h1 c2 s h2 h3 h4 ih =>
    obtain ⟨rfl, rfl, rfl | rfl⟩ := h4
    · exact validUTF8_append _ (by decide +kernel) ih
    · exact validUTF8_append _ (by decide +kernel) ih
  | case8 b hb c1 h1 c2 s h2 h3 h4 ih =>
    rw [Bool.and_eq_true] at h3
    rw [validUTF8.eq_def]
    simp only [hb, if_false, h1, h2, if_true, h3.1, h3.2, ih, Bool.and_self, Bool.false_eq_true]
  | case9 b hb c1 h1 c2 s h2 h3 ih => exact validUTF8_append _ valid_bad ih
  | case10 b hb c1 h1 c2 h2 ih => exact validUTF8_append _ valid_bad ih
  | case11 b hb c1 h1 c2 h2 c3 s h3 ih =>
    simp only [Bool.and_eq_true] at h3
    obtain ⟨⟨⟨k0, k1⟩, k2⟩, k3⟩ := h3
    rw [validUTF8.eq_def]
    simp only [hb, if_false, h1, h2, k0, if_true, k1, k2, k3, ih, Bool.and_self, Bool.false_eq_true]
  | case12 b hb c1 h1 c2 h2 c3 s h3 ih => exact validUTF8_append _ valid_bad ih

/-- reading the digits of a number -/
theorem digitsIn_val {base : Nat} {dig : Nat → UInt8} {v : UInt8 → Nat} (hb : 2 ≤ base) (hv : ∀ d, d < base → v (dig d) = d) :
    ∀ (f n : Nat) (acc : Bytes), n ≤ f →
      (digitsIn base dig f n acc).foldl (fun x b => x * base + v b) 0 = acc.foldl (fun x b => x * base + v b) n
  | 0, n, acc, h => by
    have : n = 0 := by omega
    subst this; rfl
  | f + 1, n, acc, h => by
    unfold digitsIn
    by_cases h0 : n = 0
    · rw [if_pos h0, h0]
    · rw [if_neg h0]
      have hlt : n / base < n := Nat.div_lt_self (by omega) (by omega)
      rw [digitsIn_val hb hv f (n / base) _ (by omega)]
      simp only [List.foldl_cons]
      rw [hv _ (Nat.mod_lt _ (by omega)), Nat.mul_comm, Nat.div_add_mod]

theorem digitsIn_mem {base : Nat} {dig : Nat → UInt8} (hb : 2 ≤ base) {P : UInt8 → Prop} (hP : ∀ d, d < base → P (dig d)) :
    ∀ (f n : Nat) (acc : Bytes), (∀ x, x ∈ acc → P x) → ∀ x, x ∈ digitsIn base dig f n acc → P x
  | 0, _, _, ha, x, hx => ha x hx
  | f + 1, n, acc, ha, x, hx => by
    unfold digitsIn at hx
    split at hx
    · exact ha x hx
    · refine digitsIn_mem hb hP f _ _ ?_ x hx
      intro y hy
      rcases List.mem_cons.mp hy with rfl | hy
      · exact hP _ (Nat.mod_lt _ (by omega))
      · exact ha y hy

theorem digitsIn_head {base : Nat} {dig : Nat → UInt8} (hb : 2 ≤ base) :
    ∀ (f n : Nat) (acc : Bytes), n ≤ f → n ≠ 0 → ∃ d, 0 < d ∧ d < base ∧ (digitsIn base dig f n acc).head? = some (dig d)
  | 0, n, acc, h, h0 => absurd (by omega) h0
  | f + 1, n, acc, h, h0 => by
    unfold digitsIn
    rw [if_neg h0]
    have hlt : n / base < n := Nat.div_lt_self (by omega) (by omega)
    by_cases h1 : n / base = 0
    · have hn : n < base := by
        rcases Nat.div_eq_zero_iff.mp h1 with h | h
        · omega
        · exact h
      refine ⟨n, by omega, hn, ?_⟩
      rw [h1, Nat.mod_eq_of_lt hn]
      cases f <;> simp [digitsIn]
    · exact digitsIn_head hb f _ _ (by omega) h1

theorem dig_val : ∀ d, d < 10 → (UInt8.ofNat (48 + d)).toNat - 48 = d := by decide

theorem dig_isDig : ∀ d, d < 10 → isDig (UInt8.ofNat (48 + d)) = true := by decide

theorem dig_zero : ∀ d, d < 10 → UInt8.ofNat (48 + d) = 48 → d = 0 := by decide

theorem decVal_digits (n : Nat) : decVal (digits n) = n := by
  unfold digits
  split
  · next h => subst h; decide
  · exact digitsIn_val (v := fun b => b.toNat - 48) (by decide) dig_val n n [] (Nat.le_refl n)

theorem digits_isDig (n : Nat) : ∀ x, x ∈ digits n → isDig x = true := by
  unfold digits
  split
  · decide
  · exact digitsIn_mem (by decide) dig_isDig n n [] (by simp)

theorem digits_head (n : Nat) : digits n ≠ [] ∧ ((digits n).head? = some 48 → digits n = [48]) := by
  unfold digits
  split
  · decide
  · next h =>
    obtain ⟨d, h1, h2, h3⟩ := digitsIn_head (base := 10) (dig := fun d => UInt8.ofNat (48 + d)) (by decide) n n [] (Nat.le_refl n) h
    refine ⟨?_, fun h4 => ?_⟩
    · intro h4; rw [h4] at h3; cases h3
    · rw [h3, Option.some.injEq] at h4
      exact absurd (dig_zero d h2 h4) (by omega)

/-- the text does not go on with what could belong to a number -/
def Stop (r : Bytes) : Prop := ∀ b, r.head? = some b → isDig b = false ∧ b ≠ 46 ∧ b ≠ 101 ∧ b ≠ 69

theorem takeWhile_digits {ds r : Bytes} (h : ∀ x, x ∈ ds → isDig x = true) (hr : Stop r) :
    (ds ++ r).takeWhile isDig = ds ∧ (ds ++ r).dropWhile isDig = r := by
  rw [List.takeWhile_append_of_pos h, List.dropWhile_append_of_pos h]
  cases r with
  | nil => simp
  | cons b r => simp [(hr b rfl).1]

theorem readNat_digits (n : Nat) {r : Bytes} (hr : Stop r) : readNat (digits n ++ r) = some (n, r) := by
  obtain ⟨h1, h2⟩ := takeWhile_digits (digits_isDig n) hr
  unfold readNat
  simp only [h1, h2]
  rw [if_neg, decVal_digits]
  rintro (h | ⟨h, h'⟩ | ⟨b, h, h'⟩)
  · exact (digits_head n).1 h
  · exact h' ((digits_head n).2 h)
  · obtain ⟨_, k1, k2, k3⟩ := hr b h
    rcases h' with h' | h' | h'
    · exact k1 h'
    · exact k2 h'
    · exact k3 h'

theorem digits_cons (n : Nat) : ∃ b s, digits n = b :: s ∧ isDig b = true := by
  cases h : digits n with
  | nil => exact absurd h (digits_head n).1
  | cons b s => exact ⟨b, s, rfl, digits_isDig n b (by rw [h]; exact List.mem_cons_self)⟩

theorem isDig_ne {b c : UInt8} (h : isDig b = true) (hc : isDig c = false) : b ≠ c := by
  rintro rfl; rw [h] at hc; cases hc

theorem readNum_number (i : Int) {r : Bytes} (hr : Stop r) : readNum (number i ++ r) = some (i, r) := by
  cases i with
  | ofNat n =>
    show readNum (digits n ++ r) = _
    have := readNat_digits n hr
    obtain ⟨b, s, hb, hd⟩ := digits_cons n
    rw [hb] at this ⊢
    rw [List.cons_append] at this ⊢
    unfold readNum
    simp only [if_neg (isDig_ne hd (by decide : isDig 45 = false)), this]
    rfl
  | negSucc n =>
    show readNum (45 :: (digits (n + 1) ++ r)) = _
    unfold readNum
    simp only [if_true, readNat_digits (n + 1) hr]
    rfl

/-- characters that a value cannot begin with -/
def starts (b : UInt8) : Bool := !(b = 32 || b = 9 || b = 10 || b = 13 || b = 93 || b = 125)

theorem number_cons (i : Int) : ∃ b s, number i = b :: s ∧ starts b = true ∧ b ≠ 110 ∧ b ≠ 116 ∧ b ≠ 102 ∧ b ≠ 34 ∧ b ≠ 91 ∧ b ≠ 123 := by
  cases i with
  | ofNat n =>
    obtain ⟨b, s, hb, hd⟩ := digits_cons n
    refine ⟨b, s, hb, ?_, isDig_ne hd (by decide), isDig_ne hd (by decide), isDig_ne hd (by decide), isDig_ne hd (by decide),
      isDig_ne hd (by decide), isDig_ne hd (by decide)⟩
    exact forall_byte (p := fun b => isDig b = true → starts b = true) (by decide +kernel) b hd
  | negSucc n => exact ⟨45, digits (n + 1), rfl, by decide⟩

theorem render_cons (j : J) : ∃ b s, render j = b :: s ∧ starts b = true := by
  cases j with
  | null => exact ⟨_, _, by rw [render], by decide⟩
  | bool b => cases b <;> exact ⟨_, _, by rw [render], by decide⟩
  | num i =>
    obtain ⟨b, s, h, h1, _⟩ := number_cons i
    exact ⟨b, s, by rw [render]; exact h, h1⟩
  | str s => exact ⟨_, _, by rw [render, quote], by decide⟩
  | arr l => cases l <;> exact ⟨_, _, by rw [render], by decide⟩
  | obj m => cases m <;> exact ⟨_, _, by rw [render], by decide⟩

theorem skip_starts {b : UInt8} (h : starts b = true) (s : Bytes) : skip (b :: s) = b :: s := by
  have : (b = 32 || b = 9 || b = 10 || b = 13) = false := by
    exact forall_byte (p := fun b => starts b = true → (b = 32 || b = 9 || b = 10 || b = 13) = false) (by decide +kernel) b h
  unfold skip
  rw [List.dropWhile_cons]
  simp only [this]
  rfl

theorem skip_render (j : J) (s : Bytes) : skip (render j ++ s) = render j ++ s := by
  obtain ⟨b, t, h, hb⟩ := render_cons j
  rw [h, List.cons_append]; exact skip_starts hb _

theorem stop_of {b : UInt8} (h : isDig b = false ∧ b ≠ 46 ∧ b ≠ 101 ∧ b ≠ 69) (r : Bytes) : Stop (b :: r) := by
  intro c hc
  cases hc
  exact h

mutual
/-- what the proof needs to know about the strings -/
def J.utf8 : J → Prop
  | .str s => validUTF8 s = true
  | .arr l => l.utf8
  | .obj m => m.utf8
  | _ => True
def Js.utf8 : Js → Prop
  | .nil => True
  | .cons j l => j.utf8 ∧ l.utf8
def Ms.utf8 : Ms → Prop
  | .nil => True
  | .cons k j m => validUTF8 k = true ∧ j.utf8 ∧ m.utf8
end

theorem stop_list (l : Js) (r : Bytes) : Stop (renderList l ++ 93 :: r) := by
  cases l with
  | nil => rw [renderList]; exact stop_of (by decide) _
  | cons j l => rw [renderList]; exact stop_of (by decide) _

theorem stop_members (m : Ms) (r : Bytes) : Stop (renderMembers m ++ 125 :: r) := by
  cases m with
  | nil => rw [renderMembers]; exact stop_of (by decide) _
  | cons k j m => rw [renderMembers]; exact stop_of (by decide) _

mutual
theorem readV_render : ∀ (j : J) (n : Nat) (r : Bytes), (render j).length ≤ n → j.utf8 → Stop r → readV n (render j ++ r) = some (j, r)
  | j, 0, r, h, _, _ => by
    obtain ⟨b, s, hb, _⟩ := render_cons j
    rw [hb] at h; simp at h
  | .null, n + 1, r, _, _, _ => by
    rw [readV, skip_render, render]
    rfl
  | .bool true, n + 1, r, _, _, _ => by
    rw [readV, skip_render, render]
    rfl
  | .bool false, n + 1, r, _, _, _ => by
    rw [readV, skip_render, render]
    rfl
  | .num i, n + 1, r, _, _, hr => by
    rw [readV, skip_render, render]
    have := readNum_number i hr
    obtain ⟨b, s, hb, _, h1, h2, h3, h4, h5, h6⟩ := number_cons i
    rw [hb] at this ⊢
    rw [List.cons_append] at this ⊢
    simp only [if_neg h1, if_neg h2, if_neg h3, if_neg h4, if_neg h5, if_neg h6, this]
    rfl
  | .str s, n + 1, r, _, hs, _ => by
    rw [J.utf8] at hs
    rw [readV, skip_render, render, quote]
    have := readStr_escape s r hs
    simp only [List.cons_append, List.append_assoc, List.nil_append]
    simp only [show ¬ (34 : UInt8) = 110 by decide, show ¬ (34 : UInt8) = 116 by decide, show ¬ (34 : UInt8) = 102 by decide, if_false,
      if_true, this]
    rfl
  | .arr .nil, n + 1, r, _, _, _ => by
    rw [readV, skip_render, render]
    rfl
  | .arr (.cons j l), n + 1, r, hn, hs, hr => by
    rw [J.utf8, Js.utf8] at hs
    rw [readV, skip_render, render]
    rw [render] at hn
    simp only [List.length_cons, List.length_append, List.length_nil] at hn
    have ih := readElems_render j l n r (by omega) hs.1 hs.2
    have hsk := skip_render j (renderList l ++ 93 :: r)
    simp only [List.cons_append, List.append_assoc, List.nil_append]
    simp only [show ¬ (91 : UInt8) = 110 by decide, show ¬ (91 : UInt8) = 116 by decide, show ¬ (91 : UInt8) = 102 by decide,
      show ¬ (91 : UInt8) = 34 by decide, if_false, if_true, hsk]
    rw [ih]
    obtain ⟨b, s, hb, hst⟩ := render_cons j
    rw [hb]
    simp only [List.cons_append]
    rw [if_neg (by rintro rfl; revert hst; decide)]
    rfl
  | .obj .nil, n + 1, r, _, _, _ => by
    rw [readV, skip_render, render]
    rfl
  | .obj (.cons k j m), n + 1, r, hn, hs, hr => by
    rw [J.utf8, Ms.utf8] at hs
    rw [readV, skip_render, render]
    rw [render] at hn
    simp only [List.length_cons, List.length_append, List.length_nil] at hn
    have ih := readMembers_render k j m n r (by omega) hs.1 hs.2.1 hs.2.2
    simp only [List.cons_append, List.append_assoc, List.nil_append]
    simp only [show ¬ (123 : UInt8) = 110 by decide, show ¬ (123 : UInt8) = 116 by decide, show ¬ (123 : UInt8) = 102 by decide,
      show ¬ (123 : UInt8) = 34 by decide, show ¬ (123 : UInt8) = 91 by decide, if_false, if_true]
    rw [ih, quote]
    rfl
theorem readElems_render : ∀ (j : J) (l : Js) (n : Nat) (r : Bytes), (render j).length + (renderList l).length < n → j.utf8 → l.utf8 →
    readElems n (render j ++ (renderList l ++ 93 :: r)) = some (.cons j l, r)
  | _, _, 0, _, h, _, _ => absurd h (Nat.not_lt_zero _)
  | j, .nil, n + 1, r, h, hj, _ => by
    have ih := readV_render j n (renderList .nil ++ 93 :: r) (by omega) hj (stop_list _ _)
    rw [readElems, ih, renderList]
    rfl
  | j, .cons j' l, n + 1, r, h, hj, hl => by
    rw [Js.utf8] at hl
    have ih := readV_render j n (renderList (.cons j' l) ++ 93 :: r) (by omega) hj (stop_list _ _)
    rw [renderList] at h
    simp only [List.length_cons, List.length_append] at h
    have ih2 := readElems_render j' l n r (by omega) hl.1 hl.2
    rw [readElems, ih, renderList]
    simp only [List.cons_append, List.append_assoc]
    show (do
      let (l, r2) ← readElems n (render j' ++ (renderList l ++ 93 :: r))
      some (Js.cons j l, r2)) = _
    rw [ih2]
    rfl
theorem readMembers_render : ∀ (k : Bytes) (j : J) (m : Ms) (n : Nat) (r : Bytes),
    (quote k).length + (render j).length + (renderMembers m).length < n → validUTF8 k = true → j.utf8 → m.utf8 →
    readMembers n (quote k ++ 58 :: (render j ++ (renderMembers m ++ 125 :: r))) = some (.cons k j m, r)
  | _, _, _, 0, _, h, _, _, _ => absurd h (Nat.not_lt_zero _)
  | k, j, .nil, n + 1, r, h, hk, hj, _ => by
    have ih := readV_render j n (renderMembers .nil ++ 125 :: r) (by omega) hj (stop_members _ _)
    have hq := readStr_escape k (58 :: (render j ++ (renderMembers .nil ++ 125 :: r))) hk
    rw [readMembers, quote]
    simp only [List.cons_append, List.append_assoc, List.nil_append]
    rw [skip_starts (by decide)]
    simp only [if_true, hq, Option.bind_eq_bind, Option.bind_some]
    rw [skip_starts (by decide)]
    simp only [if_true, ih, Option.bind_some]
    rw [renderMembers]
    rfl
  | k, j, .cons k' j' m, n + 1, r, h, hk, hj, hm => by
    rw [Ms.utf8] at hm
    have ih := readV_render j n (renderMembers (.cons k' j' m) ++ 125 :: r) (by omega) hj (stop_members _ _)
    have hq := readStr_escape k (58 :: (render j ++ (renderMembers (.cons k' j' m) ++ 125 :: r))) hk
    rw [renderMembers] at h
    simp only [List.length_cons, List.length_append] at h
    have ih2 := readMembers_render k' j' m n r (by omega) hm.1 hm.2.1 hm.2.2
    rw [readMembers, quote]
    simp only [List.cons_append, List.append_assoc, List.nil_append]
    rw [skip_starts (by decide)]
    simp only [if_true, hq, Option.bind_eq_bind, Option.bind_some]
    rw [skip_starts (by decide)]
    simp only [if_true, ih, Option.bind_some]
    rw [renderMembers]
    simp only [List.cons_append, List.append_assoc]
    rw [skip_starts (by decide)]
    show ((readMembers n (quote k' ++ 58 :: (render j' ++ (renderMembers m ++ 125 :: r)))).bind fun x => some (Ms.cons k j x.1, x.2)) = _
    rw [ih2]
    rfl
end

theorem read_body {j : J} (h : j.utf8) : read (body j) = some j := by
  unfold read body
  rw [readV_render j _ [10] (by simp only [List.length_append]; omega) h (stop_of (by decide) _)]
  rfl

theorem all_ascii_valid : ∀ s : Bytes, (∀ x, x ∈ s → x < 0x80) → validUTF8 s = true
  | [], _ => by decide +kernel
  | b :: s, h => by
    rw [valid_ascii (h b List.mem_cons_self)]
    exact all_ascii_valid s (fun x hx => h x (List.mem_cons_of_mem _ hx))

theorem isDig_ascii : ∀ b : UInt8, isDig b = true → b < 0x80 := forall_byte (by decide +kernel)

theorem digits_valid (n : Nat) : validUTF8 (digits n) = true := all_ascii_valid _ (fun x hx => isDig_ascii x (digits_isDig n x hx))

theorem number_valid (i : Int) : validUTF8 (number i) = true := by
  cases i with
  | ofNat n => exact digits_valid n
  | negSucc n =>
    show validUTF8 (45 :: digits (n + 1)) = true
    rw [valid_ascii (by decide)]; exact digits_valid _

theorem quote_valid (s : Bytes) : validUTF8 (quote s) = true := by
  unfold quote
  rw [valid_ascii (by decide)]
  exact validUTF8_append _ (escape_valid s) (by decide +kernel)

mutual
theorem render_valid : ∀ j : J, validUTF8 (render j) = true
  | .null => by rw [render]; decide +kernel
  | .bool true => by rw [render]; decide +kernel
  | .bool false => by rw [render]; decide +kernel
  | .num i => by rw [render]; exact number_valid i
  | .str s => by rw [render]; exact quote_valid s
  | .arr .nil => by rw [render]; decide +kernel
  | .arr (.cons j l) => by
    rw [render, valid_ascii (by decide)]
    exact validUTF8_append _ (render_valid j) (validUTF8_append _ (renderList_valid l) (by decide +kernel))
  | .obj .nil => by rw [render]; decide +kernel
  | .obj (.cons k j m) => by
    rw [render, valid_ascii (by decide)]
    refine validUTF8_append _ (quote_valid k) ?_
    rw [valid_ascii (by decide)]
    exact validUTF8_append _ (render_valid j) (validUTF8_append _ (renderMembers_valid m) (by decide +kernel))
theorem renderList_valid : ∀ l : Js, validUTF8 (renderList l) = true
  | .nil => by rw [renderList]; decide +kernel
  | .cons j l => by
    rw [renderList, valid_ascii (by decide)]
    exact validUTF8_append _ (render_valid j) (renderList_valid l)
theorem renderMembers_valid : ∀ m : Ms, validUTF8 (renderMembers m) = true
  | .nil => by rw [renderMembers]; decide +kernel
  | .cons k j m => by
    rw [renderMembers, valid_ascii (by decide)]
    refine validUTF8_append _ (quote_valid k) ?_
    rw [valid_ascii (by decide)]
    exact validUTF8_append _ (render_valid j) (renderMembers_valid m)
end

/-- neither a control character nor one of `<`, `>`, `&` -/
def tame (x : UInt8) : Bool := !(x < 32 || x = 60 || x = 62 || x = 38)

theorem high_tame : ∀ b : UInt8, ¬ b < 0x80 → tame b = true := forall_byte (by decide +kernel)

theorem cont_tame {c lo hi : UInt8} (hl : ¬ lo < 0x80) (h : contByte lo hi c = true) : tame c = true := high_tame c (cont_high c lo hi hl h)

theorem all_cons {b : UInt8} {s : Bytes} (h : tame b = true) (hs : s.all tame = true) : (b :: s).all tame = true := by
  rw [List.all_cons, h, hs]; rfl

theorem all_append {s r : Bytes} (hs : s.all tame = true) (hr : r.all tame = true) : (s ++ r).all tame = true := by
  rw [List.all_append, hs, hr]; rfl

theorem escape_tame (s : Bytes) : (escape s).all tame = true := by
  have hbad : bad.all tame = true := by decide +kernel
  fun_induction escape s with
  | case1 => rfl
  | case2 b s hb ih =>
    exact all_append (forall_byte (p := fun b => b < 0x80 → (escByte b).all tame = true) (by decide +kernel) b hb) ih
  | case3 => exact hbad
  | case4 b hb c1 s h1 h2 ih => exact all_cons (high_tame b hb) (all_cons (cont_tame (by decide) h2) ih)
  | case5 b hb c1 s h1 h2 ih => exact all_append hbad ih
  | case6 b hb c1 h1 ih => exact all_append hbad ih
  | case7 b hb c1 h1 c2 s h2 h3 h4 ih =>
    obtain ⟨rfl, rfl, rfl | rfl⟩ := h4
    · exact all_append (by decide +kernel) ih
    · exact all_append (by decide +kernel) ih
  | case8 b hb c1 h1 c2 s h2 h3 h4 ih =>
    rw [Bool.and_eq_true] at h3
    exact all_cons (high_tame b hb) (all_cons (cont_tame (by split <;> decide) h3.1) (all_cons (cont_tame (by decide) h3.2) ih))
  | case9 b hb c1 h1 c2 s h2 h3 ih => exact all_append hbad ih
  | case10 b hb c1 h1 c2 h2 ih => exact all_append hbad ih
  | case11 b hb c1 h1 c2 h2 c3 s h3 ih =>
    simp only [Bool.and_eq_true] at h3
    obtain ⟨⟨⟨k0, k1⟩, k2⟩, k3⟩ := h3
    exact all_cons (high_tame b hb) (all_cons (cont_tame (by split <;> decide) k1)
      (all_cons (cont_tame (by decide) k2) (all_cons (cont_tame (by decide) k3) ih)))
  | case12 b hb c1 h1 c2 h2 c3 s h3 ih => exact all_append hbad ih

theorem digits_tame (n : Nat) : (digits n).all tame = true :=
  List.all_eq_true.mpr (fun x hx => forall_byte (p := fun b => isDig b = true → tame b = true) (by decide +kernel) x (digits_isDig n x hx))

theorem number_tame (i : Int) : (number i).all tame = true := by
  cases i with
  | ofNat n => exact digits_tame n
  | negSucc n => exact all_cons (by decide) (digits_tame (n + 1))

theorem quote_tame (s : Bytes) : (quote s).all tame = true := all_cons (by decide) (all_append (escape_tame s) (by decide))

mutual
theorem render_tame : ∀ j : J, (render j).all tame = true
  | .null => by rw [render]; decide +kernel
  | .bool true => by rw [render]; decide +kernel
  | .bool false => by rw [render]; decide +kernel
  | .num i => by rw [render]; exact number_tame i
  | .str s => by rw [render]; exact quote_tame s
  | .arr .nil => by rw [render]; decide +kernel
  | .arr (.cons j l) => by
    rw [render]
    exact all_cons (by decide) (all_append (render_tame j) (all_append (renderList_tame l) (by decide)))
  | .obj .nil => by rw [render]; decide +kernel
  | .obj (.cons k j m) => by
    rw [render]
    exact all_cons (by decide) (all_append (quote_tame k) (all_cons (by decide) (all_append (render_tame j)
      (all_append (renderMembers_tame m) (by decide)))))
theorem renderList_tame : ∀ l : Js, (renderList l).all tame = true
  | .nil => by rw [renderList]; rfl
  | .cons j l => by
    rw [renderList]
    exact all_cons (by decide) (all_append (render_tame j) (renderList_tame l))
theorem renderMembers_tame : ∀ m : Ms, (renderMembers m).all tame = true
  | .nil => by rw [renderMembers]; rfl
  | .cons k j m => by
    rw [renderMembers]
    exact all_cons (by decide) (all_append (quote_tame k) (all_cons (by decide) (all_append (render_tame j) (renderMembers_tame m))))
end

end Verif.Services.Json
