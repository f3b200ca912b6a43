import Verif.Services.Netip
import Verif.Services.JsonTexts
import Verif.Services.RoutesLemmas
/-
Reading back the texts of addresses.
-/

set_option autoImplicit false

namespace Verif.Services.Netip

open Verif
open Verif.Chains (Addr BytesN)
open Verif.Services.Json (digits dotted hex forall_byte)

theorem chars_append (a b : Bytes) : chars (a ++ b) = chars a ++ chars b := by simp [chars]

theorem chars_cons (x : UInt8) (b : Bytes) : chars (x :: b) = Char.ofNat x.toNat :: chars b := rfl

/-! ### IPv4 -/

/-- the digits of a byte -/
theorem digits_byte (b : UInt8) : ∃ x y z : Fin 10, (digits b.toNat = [48 + UInt8.ofNat x.1] ∧ b.toNat = x.1) ∨
    (digits b.toNat = [48 + UInt8.ofNat x.1, 48 + UInt8.ofNat y.1] ∧ x ≠ 0 ∧ b.toNat = x.1 * 10 + y.1) ∨
    (digits b.toNat = [48 + UInt8.ofNat x.1, 48 + UInt8.ofNat y.1, 48 + UInt8.ofNat z.1] ∧ x ≠ 0 ∧ b.toNat = (x.1 * 10 + y.1) * 10 + z.1) := by
  have key : ∀ b : UInt8, if b.toNat < 10 then digits b.toNat = [48 + UInt8.ofNat b.toNat]
      else if b.toNat < 100 then digits b.toNat = [48 + UInt8.ofNat (b.toNat / 10), 48 + UInt8.ofNat (b.toNat % 10)]
      else digits b.toNat = [48 + UInt8.ofNat (b.toNat / 100), 48 + UInt8.ofNat (b.toNat / 10 % 10), 48 + UInt8.ofNat (b.toNat % 10)] :=
    forall_byte (p := fun b => if b.toNat < 10 then digits b.toNat = [48 + UInt8.ofNat b.toNat]
      else if b.toNat < 100 then digits b.toNat = [48 + UInt8.ofNat (b.toNat / 10), 48 + UInt8.ofNat (b.toNat % 10)]
      else digits b.toNat = [48 + UInt8.ofNat (b.toNat / 100), 48 + UInt8.ofNat (b.toNat / 10 % 10), 48 + UInt8.ofNat (b.toNat % 10)])
      (by decide +kernel)
  have hb := b.toNat_lt
  have k := key b
  split at k
  · next h => exact ⟨⟨b.toNat, h⟩, 0, 0, Or.inl ⟨k, rfl⟩⟩
  · next h =>
    split at k
    · next h2 =>
      refine ⟨⟨b.toNat / 10, by omega⟩, ⟨b.toNat % 10, by omega⟩, 0, Or.inr (Or.inl ⟨k, ?_, ?_⟩)⟩
      · intro e; have := Fin.val_eq_of_eq e; simp at this; omega
      · simp only; omega
    · next h2 =>
      refine ⟨⟨b.toNat / 100, by omega⟩, ⟨b.toNat / 10 % 10, by omega⟩, ⟨b.toNat % 10, by omega⟩, Or.inr (Or.inr ⟨k, ?_, ?_⟩)⟩
      · intro e; have := Fin.val_eq_of_eq e; simp at this; omega
      · simp only; omega

theorem undec_digit (x : Fin 10) : undec (Char.ofNat (48 + UInt8.ofNat x.1).toNat) = some x.1 := by
  revert x; decide

theorem v4_digit (done : Bytes) (val dig : Nat) (x : Fin 10) (s : List Char) (h1 : ¬ (dig = 1 ∧ val = 0)) (h2 : val * 10 + x.1 ≤ 255) :
    v4Loop done val dig (Char.ofNat (48 + UInt8.ofNat x.1).toNat :: s) = v4Loop done (val * 10 + x.1) (dig + 1) s := by
  rw [v4Loop, undec_digit]
  simp only
  rw [if_neg h1, if_neg (by omega)]

theorem v4_field (done : Bytes) (b : UInt8) (s : List Char) :
    ∃ n, n ≠ 0 ∧ v4Loop done 0 0 (chars (digits b.toNat) ++ s) = v4Loop done b.toNat n s := by
  have hb := b.toNat_lt
  obtain ⟨x, y, z, h | h | h⟩ := digits_byte b
  · refine ⟨1, by omega, ?_⟩
    rw [h.1, h.2]
    show v4Loop done 0 0 (_ :: s) = _
    rw [v4_digit _ _ _ _ _ (by omega) (by omega)]
    simp
  · refine ⟨2, by omega, ?_⟩
    have hx : x.1 ≠ 0 := fun e => h.2.1 (Fin.ext e)
    rw [h.1, h.2.2]
    show v4Loop done 0 0 (_ :: _ :: s) = _
    rw [v4_digit _ _ _ _ _ (by omega) (by omega), v4_digit _ _ _ _ _ (by omega) (by omega)]
    simp
  · refine ⟨3, by omega, ?_⟩
    have hx : x.1 ≠ 0 := fun e => h.2.1 (Fin.ext e)
    rw [h.1, h.2.2]
    show v4Loop done 0 0 (_ :: _ :: _ :: s) = _
    rw [v4_digit _ _ _ _ _ (by omega) (by omega), v4_digit _ _ _ _ _ (by omega) (by omega), v4_digit _ _ _ _ _ (by omega) (by omega)]
    simp

theorem v4_dot (done : Bytes) (val dig : Nat) (s : List Char) (h1 : dig ≠ 0) (h2 : s ≠ []) (h3 : done.length < 3) :
    v4Loop done val dig ('.' :: s) = v4Loop (done ++ [UInt8.ofNat val]) 0 0 s := by
  rw [v4Loop, show undec '.' = none from rfl]
  simp only [if_true]
  rw [if_neg (fun h => h.elim h1 h2), if_neg (by omega)]

theorem digits_ne (n : Nat) : digits n ≠ [] := by
  intro h
  have := Json.decVal_digits n
  unfold digits at h
  split at h
  · cases h
  · next hn =>
    have e : digits n = [] := by unfold digits; rw [if_neg hn]; exact h
    rw [e] at this
    exact hn this.symm

theorem ofNat_toNat (b : UInt8) : UInt8.ofNat b.toNat = b := by simp

theorem v4_dotted (b : BytesN 4) : v4Loop [] 0 0 (chars (dotted b.1)) = some b.1 := by
  obtain ⟨l, hl⟩ := b
  match l, hl with
  | [a, b, c, d], _ =>
    show v4Loop [] 0 0 (chars (digits a.toNat ++ 46 :: (digits b.toNat ++ 46 :: (digits c.toNat ++ 46 :: digits d.toNat)))) = _
    have ne : ∀ (x : UInt8) (s : List Char), chars (digits x.toNat) ++ s ≠ [] := by
      intro x s h
      have := (List.append_eq_nil_iff.mp h).1
      unfold chars at this
      exact digits_ne _ (List.map_eq_nil_iff.mp this)
    have ne' : chars (digits d.toNat) ≠ [] := by
      intro h; exact ne d [] (by rw [h]; rfl)
    rw [chars_append, chars_cons, chars_append, chars_cons, chars_append, chars_cons]
    show v4Loop [] 0 0 (chars (digits a.toNat) ++ '.' :: (chars (digits b.toNat) ++ '.' :: (chars (digits c.toNat) ++ '.' :: chars (digits d.toNat)))) = _
    obtain ⟨n1, h1, e1⟩ := v4_field [] a ('.' :: (chars (digits b.toNat) ++ '.' :: (chars (digits c.toNat) ++ '.' :: chars (digits d.toNat))))
    rw [e1, v4_dot _ _ _ _ h1 (ne _ _) (by simp)]
    obtain ⟨n2, h2, e2⟩ := v4_field ([] ++ [UInt8.ofNat a.toNat]) b ('.' :: (chars (digits c.toNat) ++ '.' :: chars (digits d.toNat)))
    rw [e2, v4_dot _ _ _ _ h2 (ne _ _) (by simp)]
    obtain ⟨n3, h3, e3⟩ := v4_field ([] ++ [UInt8.ofNat a.toNat] ++ [UInt8.ofNat b.toNat]) c ('.' :: chars (digits d.toNat))
    rw [e3, v4_dot _ _ _ _ h3 ne' (by simp)]
    obtain ⟨n4, h4, e4⟩ := v4_field ([] ++ [UInt8.ofNat a.toNat] ++ [UInt8.ofNat b.toNat] ++ [UInt8.ofNat c.toNat]) d []
    rw [List.append_nil] at e4
    rw [e4, v4Loop, if_neg (by simp)]
    simp

theorem parse4_dotted (b : BytesN 4) : parse4 (chars (dotted b.1)) = some (.v4 b) := by
  unfold parse4
  rw [v4_dotted]
  show addr4 b.1 = _
  unfold addr4
  rw [dif_pos b.2]

/-! ### which kind of address -/

/-- characters that do not decide -/
def neutral (c : Char) : Prop := c ≠ '.' ∧ c ≠ ':' ∧ c ≠ '%'

theorem parseFrom_skip {all p s : List Char} (hp : ∀ c, c ∈ p → neutral c) : parseFrom all (p ++ s) = parseFrom all s := by
  induction p with
  | nil => rfl
  | cons c p ih =>
    obtain ⟨h1, h2, h3⟩ := hp c List.mem_cons_self
    rw [List.cons_append, parseFrom, if_neg h1, if_neg h2, if_neg h3]
    exact ih (fun c hc => hp c (List.mem_cons_of_mem _ hc))

theorem digits_neutral (b : UInt8) : ∀ c, c ∈ chars (digits b.toNat) → neutral c := by
  have key : ∀ b : UInt8, ∀ c, c ∈ chars (digits b.toNat) → c ≠ '.' ∧ c ≠ ':' ∧ c ≠ '%' :=
    forall_byte (p := fun b => ∀ c, c ∈ chars (digits b.toNat) → c ≠ '.' ∧ c ≠ ':' ∧ c ≠ '%') (by decide +kernel)
  exact key b

theorem parse_dotted (b : BytesN 4) : parseAddr (chars (dotted b.1)) = some (.v4 b) := by
  unfold parseAddr
  have h := parse4_dotted b
  obtain ⟨l, hl⟩ := b
  match l, hl with
  | [a, b, c, d], _ =>
    have e : chars (dotted [a, b, c, d]) = chars (digits a.toNat) ++ '.' :: chars (dotted [b, c, d]) := by
      show chars (digits a.toNat ++ 46 :: dotted [b, c, d]) = _
      rw [chars_append]; rfl
    have : parseFrom (chars (dotted [a, b, c, d])) (chars (dotted [a, b, c, d])) = parse4 (chars (dotted [a, b, c, d])) := by
      conv => lhs; arg 2; rw [e]
      rw [parseFrom_skip (digits_neutral a), parseFrom, if_pos rfl]
    rw [this]; exact h

/-! ### IPv6 -/

theorem unhex_hex (d : Nat) (h : d < 16) : unhex (Char.ofNat (hex (UInt8.ofNat d)).toNat) = some d := by
  have : ∀ d : Fin 16, unhex (Char.ofNat (hex (UInt8.ofNat d.1)).toNat) = some d.1 := by decide
  exact this ⟨d, h⟩

theorem hex_digit (off acc d : Nat) (s : List Char) (hd : d < 16) (h1 : off ≤ 3) (h2 : acc * 16 + d ≤ 65535) :
    hexGroup off acc (Char.ofNat (hex (UInt8.ofNat d)).toNat :: s) = hexGroup (off + 1) (acc * 16 + d) s := by
  rw [hexGroup, unhex_hex d hd]
  simp only
  rw [if_neg (by omega), if_neg (by omega)]

/-- what may follow a group -/
def Ends (s : List Char) : Prop := s = [] ∨ ∃ t, s = ':' :: t

theorem hexGroup_ends (off acc : Nat) {s : List Char} (h : Ends s) : hexGroup off acc s = some (acc, off, s) := by
  rcases h with rfl | ⟨t, rfl⟩
  · rfl
  · rw [hexGroup, show unhex ':' = none from by decide]

theorem hexGroup_text {x : Nat} (hx : x < 65536) {s : List Char} (h : Ends s) :
    ∃ n, n ≠ 0 ∧ hexGroup 0 0 (chars (hexText x) ++ s) = some (x, n, s) := by
  unfold hexText
  by_cases h1 : x ≥ 0x1000
  · refine ⟨4, by omega, ?_⟩
    rw [if_pos h1, if_pos (by omega), if_pos (by omega)]
    show hexGroup 0 0 (_ :: _ :: _ :: _ :: s) = _
    rw [hex_digit _ _ _ _ (by omega) (by omega) (by omega), hex_digit _ _ _ _ (by omega) (by omega) (by omega),
      hex_digit _ _ _ _ (by omega) (by omega) (by omega), hex_digit _ _ _ _ (by omega) (by omega) (by omega), hexGroup_ends _ _ h]
    simp only [Option.some.injEq, Prod.mk.injEq, and_true]; omega
  · rw [if_neg h1]
    by_cases h2 : x ≥ 0x100
    · refine ⟨3, by omega, ?_⟩
      rw [if_pos h2, if_pos (by omega)]
      show hexGroup 0 0 (_ :: _ :: _ :: s) = _
      rw [hex_digit _ _ _ _ (by omega) (by omega) (by omega), hex_digit _ _ _ _ (by omega) (by omega) (by omega),
        hex_digit _ _ _ _ (by omega) (by omega) (by omega), hexGroup_ends _ _ h]
      simp only [Option.some.injEq, Prod.mk.injEq, and_true]; omega
    · rw [if_neg h2]
      by_cases h3 : x ≥ 0x10
      · refine ⟨2, by omega, ?_⟩
        rw [if_pos h3]
        show hexGroup 0 0 (_ :: _ :: s) = _
        rw [hex_digit _ _ _ _ (by omega) (by omega) (by omega), hex_digit _ _ _ _ (by omega) (by omega) (by omega), hexGroup_ends _ _ h]
        simp only [Option.some.injEq, Prod.mk.injEq, and_true]; omega
      · rw [if_neg h3]
        refine ⟨1, by omega, ?_⟩
        show hexGroup 0 0 (_ :: s) = _
        rw [hex_digit _ _ _ _ (by omega) (by omega) (by omega), hexGroup_ends _ _ h]
        simp only [Option.some.injEq, Prod.mk.injEq, and_true]; omega

/-- the two bytes of a group -/
def pair (x : Nat) : Bytes := [UInt8.ofNat (x / 256), UInt8.ofNat (x % 256)]

/-- groups with colons between them -/
def join : List Nat → List Char
  | [] => []
  | [x] => chars (hexText x)
  | x :: l => chars (hexText x) ++ ':' :: join l

theorem v6_last {x : Nat} (hx : x < 65536) (n : Nat) (ip : Bytes) (e : Option Nat) :
    v6Loop (n + 1) ip e (chars (hexText x)) = some (ip ++ pair x, e, []) := by
  obtain ⟨k, hk, h⟩ := hexGroup_text hx (s := []) (Or.inl rfl)
  rw [List.append_nil] at h
  rw [v6Loop, h]
  simp only [if_neg hk]
  rw [if_neg (by simp)]
  rfl

theorem v6_next {x : Nat} (hx : x < 65536) (n : Nat) (ip : Bytes) (e : Option Nat) {c : Char} {s : List Char} (hc : c ≠ ':') :
    v6Loop (n + 1) ip e (chars (hexText x) ++ ':' :: c :: s) = v6Loop n (ip ++ pair x) e (c :: s) := by
  obtain ⟨k, hk, h⟩ := hexGroup_text hx (s := ':' :: c :: s) (Or.inr ⟨_, rfl⟩)
  rw [v6Loop, h]
  simp only [if_neg hk]
  rw [if_neg (by simp), if_neg (by simp), if_neg hc]
  rfl

theorem v6_gap {x : Nat} (hx : x < 65536) (n : Nat) (ip : Bytes) {s : List Char} (hs : s ≠ []) :
    v6Loop (n + 1) ip none (chars (hexText x) ++ ':' :: ':' :: s) = v6Loop n (ip ++ pair x) (some (ip ++ pair x).length) s := by
  obtain ⟨k, hk, h⟩ := hexGroup_text hx (s := ':' :: ':' :: s) (Or.inr ⟨_, rfl⟩)
  rw [v6Loop, h]
  simp only [if_neg hk]
  rw [if_neg (by simp), if_neg (by simp), if_pos trivial, if_neg (by simp), if_neg hs]
  simp [pair]

theorem v6_gap_end {x : Nat} (hx : x < 65536) (n : Nat) (ip : Bytes) :
    v6Loop (n + 1) ip none (chars (hexText x) ++ [':', ':']) = some (ip ++ pair x, some (ip ++ pair x).length, []) := by
  obtain ⟨k, hk, h⟩ := hexGroup_text hx (s := [':', ':']) (Or.inr ⟨_, rfl⟩)
  rw [v6Loop, h]
  simp only [if_neg hk]
  rw [if_neg (by simp), if_neg (by simp), if_pos trivial, if_neg (by simp), if_pos trivial]
  simp [pair]

/-- a text of a group begins with a digit -/
theorem hexText_head {x : Nat} (h : x < 65536) : ∃ c t, chars (hexText x) = c :: t ∧ c ≠ ':' := by
  have key : ∀ d : Nat, d < 16 → Char.ofNat (hex (UInt8.ofNat d)).toNat ≠ ':' := by
    intro d hd
    have : ∀ d : Fin 16, Char.ofNat (hex (UInt8.ofNat d.1)).toNat ≠ ':' := by decide
    exact this ⟨d, hd⟩
  unfold hexText
  by_cases h1 : x ≥ 0x1000
  · rw [if_pos h1]; exact ⟨_, _, rfl, key _ (by omega)⟩
  · rw [if_neg h1]
    by_cases h2 : x ≥ 0x100
    · rw [if_pos h2]; exact ⟨_, _, rfl, key _ (by omega)⟩
    · rw [if_neg h2]
      by_cases h3 : x ≥ 0x10
      · rw [if_pos h3]; exact ⟨_, _, rfl, key _ (by omega)⟩
      · rw [if_neg h3]; exact ⟨_, _, rfl, key _ (by omega)⟩

theorem join_head {l : List Nat} (hl : l ≠ []) (hx : ∀ x, x ∈ l → x < 65536) : ∃ c t, join l = c :: t ∧ c ≠ ':' := by
  match l with
  | [] => exact absurd rfl hl
  | [x] => exact hexText_head (hx x (by simp))
  | x :: y :: l =>
    obtain ⟨c, t, h, hc⟩ := hexText_head (hx x (by simp))
    exact ⟨c, t ++ ':' :: join (y :: l), by rw [join, h]; rfl; simp, hc⟩

/-- the bytes of groups -/
def flat (l : List Nat) : Bytes := l.flatMap pair

theorem v6_join : ∀ {l : List Nat} {n : Nat} (ip : Bytes) (e : Option Nat), l ≠ [] → l.length ≤ n → (∀ x, x ∈ l → x < 65536) →
    v6Loop n ip e (join l) = some (ip ++ flat l, e, [])
  | [], _, _, _, h, _, _ => absurd rfl h
  | [x], n, ip, e, _, hn, hx => by
    obtain ⟨m, rfl⟩ : ∃ m, n = m + 1 := ⟨n - 1, by simp at hn; omega⟩
    rw [join, v6_last (hx x (by simp))]
    simp [flat]
  | x :: y :: l, n, ip, e, _, hn, hx => by
    obtain ⟨m, rfl⟩ : ∃ m, n = m + 1 := ⟨n - 1, by simp at hn; omega⟩
    have hy : ∀ z, z ∈ y :: l → z < 65536 := fun z hz => hx z (List.mem_cons_of_mem _ hz)
    obtain ⟨c, t, h, hc⟩ := join_head (l := y :: l) (by simp) hy
    rw [join, h, v6_next (hx x (by simp)) _ _ _ hc, ← h, v6_join _ _ (by simp) (by simp at hn ⊢; omega) hy]
    · simp [flat]
    · simp

theorem v6_join_gap : ∀ {l : List Nat} {n : Nat} (ip : Bytes) {s : List Char}, l ≠ [] → l.length ≤ n → (∀ x, x ∈ l → x < 65536) →
    v6Loop n ip none (join l ++ ':' :: ':' :: s) =
      if s = [] then some (ip ++ flat l, some (ip ++ flat l).length, [])
      else v6Loop (n - l.length) (ip ++ flat l) (some (ip ++ flat l).length) s
  | [], _, _, _, h, _, _ => absurd rfl h
  | [x], n, ip, s, _, hn, hx => by
    obtain ⟨m, rfl⟩ : ∃ m, n = m + 1 := ⟨n - 1, by simp at hn; omega⟩
    have hf : flat [x] = pair x := by simp [flat]
    rw [join, hf]
    split
    · next h => rw [h, v6_gap_end (hx x (by simp))]
    · next h => rw [v6_gap (hx x (by simp)) _ _ h]; rfl
  | x :: y :: l, n, ip, s, _, hn, hx => by
    obtain ⟨m, rfl⟩ : ∃ m, n = m + 1 := ⟨n - 1, by simp at hn; omega⟩
    have hy : ∀ z, z ∈ y :: l → z < 65536 := fun z hz => hx z (List.mem_cons_of_mem _ hz)
    obtain ⟨c, t, h, hc⟩ := join_head (l := y :: l) (by simp) hy
    have hf : ip ++ pair x ++ flat (y :: l) = ip ++ flat (x :: y :: l) := by simp [flat]
    have ih := v6_join_gap (l := y :: l) (n := m) (ip ++ pair x) (s := s) (by simp) (by simp at hn ⊢; omega) hy
    have hm : m + 1 - (x :: y :: l).length = m - (y :: l).length := by simp only [List.length_cons]; omega
    rw [hf] at ih
    rw [hm, ← ih, join, List.append_assoc, List.cons_append, h, List.cons_append, v6_next (hx x (by simp)) _ _ _ hc]
    simp

/-! ### the longest run of zeros -/

/-- a run of zeros, or none -/
def IsRun (g : List Nat) (r : Nat × Nat) : Prop :=
  r = (255, 255) ∨ (r.1 + 2 ≤ r.2 ∧ r.2 ≤ g.length ∧ g = g.take r.1 ++ (List.replicate (r.2 - r.1) 0 ++ g.drop r.2))

theorem takeWhile_zero (l : List Nat) : l = List.replicate (l.takeWhile (· = 0)).length 0 ++ l.drop (l.takeWhile (· = 0)).length := by
  induction l with
  | nil => rfl
  | cons x l ih =>
    by_cases h : x = 0
    · subst h
      simp only [List.takeWhile, decide_true, List.length_cons, List.replicate_succ, List.cons_append, List.drop_succ_cons]
      rw [← ih]
    · simp [List.takeWhile, h]

theorem runStep_isRun {g : List Nat} {best : Nat × Nat} (hb : IsRun g best) {i : Nat} (hi : i ≤ g.length) : IsRun g (runStep g best i) := by
  unfold runStep
  split
  · next h =>
    refine Or.inr ⟨by simp only; omega, ?_, ?_⟩
    · have := (List.takeWhile_prefix (fun x => decide (x = 0)) (l := g.drop i)).length_le
      rw [List.length_drop] at this
      simp only; omega
    · have e := takeWhile_zero (g.drop i)
      rw [List.drop_drop] at e
      have e2 : g = g.take i ++ g.drop i := (List.take_append_drop i g).symm
      conv => lhs; rw [e2, e]
      simp
  · exact hb

theorem zeroRun_isRun {g : List Nat} (hg : g.length = 8) : IsRun g (zeroRun g) := by
  unfold zeroRun
  have : ∀ (l : List Nat) (best : Nat × Nat), (∀ i, i ∈ l → i ≤ g.length) → IsRun g best → IsRun g (l.foldl (runStep g) best) := by
    intro l
    induction l with
    | nil => intro best _ h; exact h
    | cons i l ih =>
      intro best hl hb
      exact ih _ (fun j hj => hl j (List.mem_cons_of_mem _ hj)) (runStep_isRun hb (hl i List.mem_cons_self))
  refine this _ _ (fun i hi => ?_) (Or.inl rfl)
  have := List.mem_range.mp hi
  omega

/-! ### the text -/

theorem text_plain {g : List Nat} (hg : g.length = 8) : chars (textLoop g (255, 255) 8 0) = join g := by
  match g, hg with
  | [a, b, c, d, e, f, g, h], _ =>
    simp [textLoop, chars_append, chars_cons, join]

theorem text_run {g : List Nat} (hg : g.length = 8) {a b : Nat} (h1 : a + 2 ≤ b) (h2 : b ≤ 8) :
    chars (textLoop g (a, b) 8 0) = join (g.take a) ++ ':' :: ':' :: join (g.drop b) := by
  match g, hg with
  | [g0, g1, g2, g3, g4, g5, g6, g7], _ =>
    have ha : a = 0 ∨ a = 1 ∨ a = 2 ∨ a = 3 ∨ a = 4 ∨ a = 5 ∨ a = 6 := by omega
    have hb : b = 2 ∨ b = 3 ∨ b = 4 ∨ b = 5 ∨ b = 6 ∨ b = 7 ∨ b = 8 := by omega
    rcases ha with rfl | rfl | rfl | rfl | rfl | rfl | rfl <;> rcases hb with rfl | rfl | rfl | rfl | rfl | rfl | rfl <;>
      first
      | omega
      | (simp [textLoop, chars_append, chars_cons, join]; try simp [chars])

/-! ### reading an IPv6 address -/

theorem groups_spec (b : BytesN 16) : (groups b.1).length = 8 ∧ (∀ x, x ∈ groups b.1 → x < 65536) ∧ flat (groups b.1) = b.1 := by
  have pr : ∀ x y : UInt8, pair (x.toNat * 256 + y.toNat) = [x, y] := by
    intro x y
    have hx := x.toNat_lt
    have hy := y.toNat_lt
    unfold pair
    rw [show (x.toNat * 256 + y.toNat) / 256 = x.toNat from by omega, show (x.toNat * 256 + y.toNat) % 256 = y.toNat from by omega,
      ofNat_toNat, ofNat_toNat]
  have lt : ∀ (b : Bytes) x, x ∈ groups b → x < 65536 := by
    intro b
    induction b using groups.induct with
    | case1 x y r ih =>
      intro z hz
      rw [groups] at hz
      rcases List.mem_cons.mp hz with rfl | hz
      · have hx := x.toNat_lt
        have hy := y.toNat_lt
        omega
      · exact ih z hz
    | case2 l h =>
      intro z hz
      have : groups l = [] := by
        unfold groups
        split
        · next x y r => exact absurd rfl (h x y r)
        · rfl
      rw [this] at hz; cases hz
  refine ⟨?_, lt b.1, ?_⟩
  · obtain ⟨l, hl⟩ := b
    match l, hl with
    | [_, _, _, _, _, _, _, _, _, _, _, _, _, _, _, _], _ => rfl
  · obtain ⟨l, hl⟩ := b
    match l, hl with
    | [_, _, _, _, _, _, _, _, _, _, _, _, _, _, _, _], _ => simp [flat, groups, pr]

theorem parse6In_plain {z s : List Char} {c : Char} (hc : c ≠ ':') :
    parse6In z (c :: s) = (v6Loop 8 [] none (c :: s)).bind (fun r => (expand r.1 r.2.1 r.2.2).bind (addr6 z)) := by
  unfold parse6In
  split
  · next h => exact absurd (List.cons.inj h).1 hc
  · next h => exact absurd (List.cons.inj h).1 hc
  · rfl

theorem parse6In_gap {z s : List Char} (hs : s ≠ []) :
    parse6In z (':' :: ':' :: s) = (v6Loop 8 [] (some 0) s).bind (fun r => (expand r.1 r.2.1 r.2.2).bind (addr6 z)) := by
  unfold parse6In
  split
  · next h => exact absurd (List.cons.inj (List.cons.inj h).2).2 hs
  · next h => rw [(List.cons.inj (List.cons.inj h).2).2]
  · next h1 h2 => exact absurd rfl (h2 s)

theorem flat_length (l : List Nat) : (flat l).length = 2 * l.length := by
  induction l with
  | nil => rfl
  | cons x l ih =>
    show (pair x ++ flat l).length = _
    rw [List.length_append, ih, List.length_cons]
    show 2 + _ = _
    omega

theorem flat_append (a b : List Nat) : flat (a ++ b) = flat a ++ flat b := by simp [flat]

theorem flat_zeros (n : Nat) : flat (List.replicate n 0) = List.replicate (2 * n) 0 := by
  induction n with
  | zero => rfl
  | succ n ih =>
    show pair 0 ++ flat (List.replicate n 0) = _
    rw [ih, show 2 * (n + 1) = 2 * n + 1 + 1 from by omega, List.replicate_succ, List.replicate_succ]
    rfl

theorem addr6_some (b : BytesN 16) : addr6 [] b.1 = some (.v6 b "") := by
  unfold addr6
  rw [dif_pos b.2]

theorem parse6In_text (b : BytesN 16) : parse6In [] (chars (text6 b.1)) = some (.v6 b "") := by
  obtain ⟨hl, hx, hf⟩ := groups_spec b
  have e16 : b.1.length = 16 := b.2
  unfold text6
  rcases zeroRun_isRun hl with h | ⟨h1, h2, h3⟩
  · rw [h, text_plain hl]
    have hne : groups b.1 ≠ [] := fun h => by rw [h] at hl; cases hl
    obtain ⟨c, t, hj, hc⟩ := join_head hne hx
    rw [hj, parse6In_plain hc, ← hj, v6_join [] none hne (by omega) hx]
    show (expand (flat (groups b.1)) none []).bind _ = _
    rw [hf]
    unfold expand
    rw [if_neg (by simp), if_neg (by omega), if_neg (by simp)]
    exact addr6_some b
  · generalize hr : zeroRun (groups b.1) = r at h1 h2 h3 ⊢
    obtain ⟨i, j⟩ := r
    simp only at h1 h2 h3
    rw [hl] at h2
    rw [text_run hl h1 h2]
    generalize hg : groups b.1 = g at hl hx hf h3 ⊢
    have ht : ∀ x, x ∈ g.take i → x < 65536 := fun x h => hx x (List.mem_of_mem_take h)
    have hd : ∀ x, x ∈ g.drop j → x < 65536 := fun x h => hx x (List.mem_of_mem_drop h)
    have whole : flat (g.take i) ++ (List.replicate (2 * (j - i)) 0 ++ flat (g.drop j)) = b.1 := by
      rw [← hf]
      conv => rhs; rw [h3]
      rw [flat_append, flat_append, flat_zeros]
    have li : (flat (g.take i)).length = 2 * i := by rw [flat_length, List.length_take, hl]; omega
    have lj : (flat (g.drop j)).length = 2 * (8 - j) := by rw [flat_length, List.length_drop, hl]
    have fin : ∀ {k : Nat}, k = 2 * i →
        (expand (flat (g.take i) ++ flat (g.drop j)) (some k) []).bind (addr6 []) = some (.v6 b "") := by
      intro k hk
      have hlen : (flat (g.take i) ++ flat (g.drop j)).length = 2 * i + 2 * (8 - j) := by rw [List.length_append, li, lj]
      unfold expand
      rw [if_neg (by simp), if_pos (by omega)]
      simp only
      rw [hlen, List.take_left' (by omega), List.drop_left' (by omega), show 16 - (2 * i + 2 * (8 - j)) = 2 * (j - i) from by omega, whole]
      exact addr6_some b
    by_cases hi : i = 0
    · subst hi
      show parse6In [] (':' :: ':' :: join (g.drop j)) = _
      by_cases hj : j = 8
      · subst hj
        have : g.drop 8 = [] := List.drop_eq_nil_of_le (by omega)
        rw [this]
        show addr6 [] (List.replicate 16 0) = _
        rw [this] at whole
        have : List.replicate 16 (0 : UInt8) = b.1 := by rw [← whole]; simp [flat]
        rw [this]
        exact addr6_some b
      · have hne : g.drop j ≠ [] := fun h => by have := List.drop_eq_nil_iff.mp h; omega
        obtain ⟨c, t, hjo, hc⟩ := join_head hne hd
        rw [parse6In_gap (by rw [hjo]; simp), v6_join [] (some 0) hne (by rw [List.length_drop]; omega) hd]
        have := fin (k := 0) (by omega)
        simpa [flat] using this
    · have hne : g.take i ≠ [] := fun h => by
        have := congrArg List.length h
        rw [List.length_take, hl] at this
        simp at this; omega
      obtain ⟨c, t, hjo, hc⟩ := join_head hne ht
      have lt : (g.take i).length = i := by rw [List.length_take, hl]; omega
      have step := v6_join_gap (l := g.take i) (n := 8) [] (s := join (g.drop j)) hne (by omega) ht
      rw [List.nil_append] at step
      rw [hjo, List.cons_append] at step ⊢
      rw [parse6In_plain hc, step]
      by_cases hj : j = 8
      · subst hj
        have hz : g.drop 8 = [] := List.drop_eq_nil_of_le (by omega)
        rw [hz, if_pos (show join [] = [] from rfl)]
        have := fin (k := (flat (g.take i)).length) (by omega)
        rw [hz] at this
        simpa [flat] using this
      · have hne2 : g.drop j ≠ [] := fun h => by have := List.drop_eq_nil_iff.mp h; omega
        obtain ⟨c2, t2, hjo2, _⟩ := join_head hne2 hd
        rw [if_neg (by rw [hjo2]; simp), lt, v6_join _ _ hne2 (by rw [List.length_drop]; omega) hd]
        exact fin (by omega)

/-! ### the characters of a text -/

/-- the characters of addresses -/
def addrChars : List Char := "0123456789abcdef.:".toList

theorem hexText_chars {x : Nat} (h : x < 65536) : ∀ c, c ∈ chars (hexText x) → c ∈ "0123456789abcdef".toList := by
  have key : ∀ d : Nat, d < 16 → Char.ofNat (hex (UInt8.ofNat d)).toNat ∈ "0123456789abcdef".toList := by
    intro d hd
    have : ∀ d : Fin 16, Char.ofNat (hex (UInt8.ofNat d.1)).toNat ∈ "0123456789abcdef".toList := by decide
    exact this ⟨d, hd⟩
  have opt : ∀ (p : Prop) [Decidable p] (d : Nat) (t : Bytes), d < 16 → (∀ c, c ∈ chars t → c ∈ "0123456789abcdef".toList) →
      ∀ c, c ∈ chars ((if p then [hex (UInt8.ofNat d)] else []) ++ t) → c ∈ "0123456789abcdef".toList := by
    intro p _ d t hd ht c hc
    rw [chars_append] at hc
    rcases List.mem_append.mp hc with hc | hc
    · split at hc
      · rw [chars_cons] at hc
        rcases List.mem_cons.mp hc with rfl | hc
        · exact key d hd
        · cases hc
      · cases hc
    · exact ht c hc
  unfold hexText
  refine opt _ _ _ (by omega) (opt _ _ _ (by omega) (opt _ _ _ (by omega) ?_))
  intro c hc
  rw [chars_cons] at hc
  rcases List.mem_cons.mp hc with rfl | hc
  · exact key _ (by omega)
  · cases hc

theorem hex_sub {c : Char} (h : c ∈ "0123456789abcdef".toList) : c ∈ "0123456789abcdef:".toList := by
  have e : "0123456789abcdef:".toList = "0123456789abcdef".toList ++ [':'] := by decide
  rw [e]; exact List.mem_append_left _ h

theorem join_chars : ∀ {l : List Nat}, (∀ x, x ∈ l → x < 65536) → ∀ c, c ∈ join l → c ∈ "0123456789abcdef:".toList
  | [], _, c, hc => by cases hc
  | [x], h, c, hc => hex_sub (hexText_chars (h x (by simp)) c hc)
  | x :: y :: l, h, c, hc => by
    rw [join] at hc
    · rcases List.mem_append.mp hc with hc | hc
      · exact hex_sub (hexText_chars (h x (by simp)) c hc)
      · rcases List.mem_cons.mp hc with rfl | hc
        · decide
        · exact join_chars (fun z hz => h z (List.mem_cons_of_mem _ hz)) c hc
    · simp

theorem dotted_chars (b : Bytes) : ∀ c, c ∈ chars (dotted b) → c ∈ "0123456789.".toList := by
  intro c hc
  unfold chars at hc
  obtain ⟨x, hx, rfl⟩ := List.mem_map.mp hc
  exact forall_byte (p := fun x => Json.isDig x = true ∨ x = 46 → Char.ofNat x.toNat ∈ "0123456789.".toList) (by decide +kernel) x
    (Json.dotted_mem b x hx)

/-- how the text of an IPv6 address begins and which characters it has -/
theorem text6_shape (b : BytesN 16) : (∃ p s, chars (text6 b.1) = p ++ ':' :: s ∧ ∀ c, c ∈ p → neutral c) ∧
    ∀ c, c ∈ chars (text6 b.1) → c ∈ "0123456789abcdef:".toList := by
  obtain ⟨hl, hx, _⟩ := groups_spec b
  have neu : ∀ x, x < 65536 → ∀ c, c ∈ chars (hexText x) → neutral c := by
    intro x h c hc
    have k : ∀ c, c ∈ "0123456789abcdef".toList → c ≠ '.' ∧ c ≠ ':' ∧ c ≠ '%' := by decide
    exact k c (hexText_chars h c hc)
  unfold text6
  rcases zeroRun_isRun hl with h | ⟨h1, h2, h3⟩
  · rw [h, text_plain hl]
    refine ⟨?_, join_chars hx⟩
    generalize groups b.1 = g at hl hx
    match g, hl with
    | x :: y :: l, _ =>
      exact ⟨chars (hexText x), join (y :: l), by rw [join]; simp, neu x (hx x (by simp))⟩
  · generalize zeroRun (groups b.1) = r at h1 h2 h3
    obtain ⟨i, j⟩ := r
    rw [hl] at h2
    simp only at h1 h2 h3
    rw [text_run hl h1 h2]
    generalize groups b.1 = g at hl hx h3
    have ht : ∀ x, x ∈ g.take i → x < 65536 := fun x h => hx x (List.mem_of_mem_take h)
    have hd : ∀ x, x ∈ g.drop j → x < 65536 := fun x h => hx x (List.mem_of_mem_drop h)
    constructor
    · generalize g.take i = t at ht
      match t with
      | [] => exact ⟨[], _, rfl, fun c hc => by cases hc⟩
      | [x] => exact ⟨chars (hexText x), _, rfl, neu x (ht x (by simp))⟩
      | x :: y :: l =>
        refine ⟨chars (hexText x), join (y :: l) ++ ':' :: ':' :: join (g.drop j), ?_, neu x (ht x (by simp))⟩
        rw [join]
        · simp
        · simp
    · intro c hc
      rcases List.mem_append.mp hc with hc | hc
      · exact join_chars ht c hc
      · rcases List.mem_cons.mp hc with rfl | hc
        · decide
        · rcases List.mem_cons.mp hc with rfl | hc
          · decide
          · exact join_chars hd c hc

theorem parse6_free {s : List Char} (h : '%' ∉ s) : parse6 s = parse6In [] s := by
  unfold parse6
  rw [if_neg (by simpa using h)]

theorem parse_text6 (b : BytesN 16) : parseAddr (chars (text6 b.1)) = some (.v6 b "") := by
  obtain ⟨⟨p, s, e, hp⟩, hc⟩ := text6_shape b
  have hn : '%' ∉ chars (text6 b.1) := fun h => absurd (hc _ h) (by decide)
  have : parseFrom (chars (text6 b.1)) (chars (text6 b.1)) = parse6 (chars (text6 b.1)) := by
    conv => lhs; arg 2; rw [e]
    rw [parseFrom_skip hp, parseFrom, if_neg (by decide), if_pos rfl]
  unfold parseAddr
  rw [this, parse6_free hn]
  exact parse6In_text b

theorem hexGroup_digits (b : UInt8) (s : List Char) :
    ∃ v n, n ≠ 0 ∧ hexGroup 0 0 (chars (digits b.toNat) ++ '.' :: s) = some (v, n, '.' :: s) := by
  have dig : ∀ (off acc : Nat) (x : Fin 10) (t : List Char), off ≤ 3 → acc * 16 + x.1 ≤ 65535 →
      hexGroup off acc (Char.ofNat (48 + UInt8.ofNat x.1).toNat :: t) = hexGroup (off + 1) (acc * 16 + x.1) t := by
    intro off acc x t h1 h2
    have k : ∀ x : Fin 10, unhex (Char.ofNat (48 + UInt8.ofNat x.1).toNat) = some x.1 := by decide
    rw [hexGroup, k x]
    simp only
    rw [if_neg (by omega), if_neg (by omega)]
  have stop : ∀ off acc, hexGroup off acc ('.' :: s) = some (acc, off, '.' :: s) := by
    intro off acc
    rw [hexGroup, show unhex '.' = none from by decide]
  obtain ⟨x, y, z, h | h | h⟩ := digits_byte b
  · refine ⟨0 * 16 + x.1, 1, by omega, ?_⟩
    rw [h.1]
    show hexGroup 0 0 (_ :: '.' :: s) = _
    rw [dig _ _ _ _ (by omega) (by omega), stop]
  · refine ⟨(0 * 16 + x.1) * 16 + y.1, 2, by omega, ?_⟩
    rw [h.1]
    show hexGroup 0 0 (_ :: _ :: '.' :: s) = _
    rw [dig _ _ _ _ (by omega) (by omega), dig _ _ _ _ (by omega) (by omega), stop]
  · refine ⟨((0 * 16 + x.1) * 16 + y.1) * 16 + z.1, 3, by omega, ?_⟩
    rw [h.1]
    show hexGroup 0 0 (_ :: _ :: _ :: '.' :: s) = _
    rw [dig _ _ _ _ (by omega) (by omega), dig _ _ _ _ (by omega) (by omega), dig _ _ _ _ (by omega) (by omega), stop]

theorem parse_in6 (b : BytesN 16) (h : in6 b.1 = true) :
    parseAddr (chars ([58, 58, 102, 102, 102, 102, 58] ++ dotted (b.1.drop 12))) = some (.v6 b "") := by
  have h12 : b.1.take 12 = List.replicate 10 0 ++ [0xFF, 0xFF] := of_decide_eq_true h
  have l4 : (b.1.drop 12).length = 4 := by rw [List.length_drop, b.2]
  have e : chars ([58, 58, 102, 102, 102, 102, 58] ++ dotted (b.1.drop 12)) =
      ':' :: ':' :: (chars (hexText 65535) ++ ':' :: chars (dotted (b.1.drop 12))) := by
    rw [chars_append]
    have : chars (hexText 65535) = ['f', 'f', 'f', 'f'] := by decide +kernel
    rw [this]; rfl
  have hn : '%' ∉ chars ([58, 58, 102, 102, 102, 102, 58] ++ dotted (b.1.drop 12)) := by
    rw [chars_append]
    intro hm
    rcases List.mem_append.mp hm with hm | hm
    · revert hm; decide
    · exact absurd (dotted_chars _ _ hm) (by decide)
  unfold parseAddr
  have : parseFrom (chars ([58, 58, 102, 102, 102, 102, 58] ++ dotted (b.1.drop 12)))
      (chars ([58, 58, 102, 102, 102, 102, 58] ++ dotted (b.1.drop 12))) =
      parse6 (chars ([58, 58, 102, 102, 102, 102, 58] ++ dotted (b.1.drop 12))) := by
    conv => lhs; arg 2; rw [e]
    rw [parseFrom, if_neg (by decide), if_pos rfl]
  rw [this, parse6_free hn, e, parse6In_gap (by intro h; have := (List.append_eq_nil_iff.mp h).2; cases this)]
  have v4 := v4_dotted ⟨b.1.drop 12, l4⟩
  simp only at v4
  have whole : b.1 = List.replicate 10 0 ++ ([0xFF, 0xFF] ++ b.1.drop 12) := by
    conv => lhs; rw [← List.take_append_drop 12 b.1, h12]
    rw [List.append_assoc]
  generalize hd : b.1.drop 12 = d at l4 v4 whole ⊢
  match d, l4 with
  | [x1, x2, x3, x4], _ =>
    have ed : chars (dotted [x1, x2, x3, x4]) = chars (digits x1.toNat) ++ '.' :: chars (dotted [x2, x3, x4]) := by
      show chars (digits x1.toNat ++ 46 :: dotted [x2, x3, x4]) = _
      rw [chars_append]; rfl
    obtain ⟨c, t, hct, hc⟩ : ∃ c t, chars (dotted [x1, x2, x3, x4]) = c :: t ∧ c ≠ ':' := by
      cases hq : chars (dotted [x1, x2, x3, x4]) with
      | nil => rw [ed] at hq; have := (List.append_eq_nil_iff.mp hq).2; cases this
      | cons c t =>
        refine ⟨c, t, rfl, fun hc => ?_⟩
        have := dotted_chars [x1, x2, x3, x4] c (by rw [hq]; exact List.mem_cons_self)
        rw [hc] at this
        exact absurd this (by decide)
    rw [hct, v6_next (by omega) _ _ _ hc, ← hct]
    obtain ⟨v, n, hn0, hg⟩ := hexGroup_digits x1 (chars (dotted [x2, x3, x4]))
    rw [← ed] at hg
    have step : v6Loop 7 ([] ++ pair 65535) (some 0) (chars (dotted [x1, x2, x3, x4])) =
        some ([0xFF, 0xFF] ++ [x1, x2, x3, x4], some 0, []) := by
      rw [v6Loop, hg]
      simp only [if_neg hn0]
      rw [if_pos (by rfl), if_neg (by simp), if_neg (by decide), v4]
      rfl
    have fin : expand ([0xFF, 0xFF] ++ [x1, x2, x3, x4]) (some 0) [] = some b.1 := by
      rw [whole]; rfl
    rw [step, Option.bind_some]
    simp only
    rw [fin, Option.bind_some]
    exact addr6_some b

theorem parse_v6Text (b : BytesN 16) : parseAddr (chars (v6Text b "")) = some (.v6 b "") := by
  unfold v6Text
  rw [if_pos (rfl : ("" : String) = ""), List.append_nil]
  split
  · next h => exact parse_in6 b h
  · exact parse_text6 b

/-! ### what the handlers and the texts of the reports need -/

theorem byte_mem {x : UInt8} {b : Bytes} (h : x ∈ b) : Char.ofNat x.toNat ∈ chars b := List.mem_map_of_mem h

theorem in6_chars (b : Bytes) : ∀ c, c ∈ chars ([58, 58, 102, 102, 102, 102, 58] ++ dotted b) → c ∈ "0123456789abcdef.:".toList := by
  intro c hc
  rw [chars_append] at hc
  rcases List.mem_append.mp hc with h | h
  · have k : ∀ c, c ∈ chars [58, 58, 102, 102, 102, 102, 58] → c ∈ "0123456789abcdef.:".toList := by decide
    exact k c h
  · have k : ∀ c, c ∈ "0123456789.".toList → c ∈ "0123456789abcdef.:".toList := by decide
    exact k c (dotted_chars _ c h)

/-- the characters of the text of an IPv6 address without a zone -/
theorem v6Text_chars (b : BytesN 16) : ∀ c, c ∈ chars (v6Text b "") → c ∈ "0123456789abcdef.:".toList := by
  intro c hc
  unfold v6Text at hc
  rw [if_pos (rfl : ("" : String) = ""), List.append_nil] at hc
  split at hc
  · exact in6_chars _ c hc
  · have k : ∀ c, c ∈ "0123456789abcdef:".toList → c ∈ "0123456789abcdef.:".toList := by decide
    exact k c ((text6_shape b).2 c hc)

theorem v6Text_colon (b : BytesN 16) : 58 ∈ v6Text b "" := by
  unfold v6Text
  rw [if_pos (rfl : ("" : String) = ""), List.append_nil]
  split
  · simp
  · obtain ⟨⟨p, s, e, _⟩, _⟩ := text6_shape b
    have : ':' ∈ chars (text6 b.1) := by rw [e]; simp
    obtain ⟨x, hx, he⟩ := List.mem_map.mp this
    have := forall_byte (p := fun x => Char.ofNat x.toNat = ':' → x = 58) (by decide +kernel) x he
    rwa [this] at hx

theorem v6Text_zone (b : BytesN 16) (z : String) : v6Text b z =
    v6Text b "" ++ (if z = "" then [] else 37 :: z.toList.map (fun c => if c.toNat < 128 then UInt8.ofNat c.toNat else 63)) := by
  unfold v6Text
  rw [if_pos (rfl : ("" : String) = ""), List.append_nil]

theorem v6Text_ascii (b : BytesN 16) (z : String) : ∀ x, x ∈ v6Text b z → x < 0x80 := by
  intro x hx
  rw [v6Text_zone] at hx
  rcases List.mem_append.mp hx with hx | hx
  · exact forall_byte (p := fun x => Char.ofNat x.toNat ∈ "0123456789abcdef.:".toList → x < 0x80) (by decide +kernel) x
      (v6Text_chars b _ (byte_mem hx))
  · split at hx
    · cases hx
    · rcases List.mem_cons.mp hx with rfl | hx
      · decide
      · obtain ⟨c, _, rfl⟩ := List.mem_map.mp hx
        split
        · next h =>
          rw [UInt8.lt_iff_toNat_lt, UInt8.toNat_ofNat']
          show c.toNat % 256 < 128
          omega
        · decide

theorem ascii_valid : ∀ {s : Bytes}, (∀ x, x ∈ s → x < 0x80) → Peers.validUTF8 s = true
  | [], _ => by decide +kernel
  | b :: s, h => by
    rw [Json.valid_ascii (h b List.mem_cons_self)]
    exact ascii_valid (fun x hx => h x (List.mem_cons_of_mem _ hx))

theorem addr4_some {b : Bytes} {a : Addr} (h : addr4 b = some a) : a ≠ .zero := by
  unfold addr4 at h
  split at h
  · cases h; intro e; cases e
  · cases h

theorem addr6_ne {z : List Char} {b : Bytes} {a : Addr} (h : addr6 z b = some a) : a ≠ .zero := by
  unfold addr6 at h
  split at h
  · cases h; intro e; cases e
  · cases h

theorem parse6In_ne {z s : List Char} {a : Addr} (h : parse6In z s = some a) : a ≠ .zero := by
  unfold parse6In at h
  split at h
  · exact addr6_ne h
  · obtain ⟨_, _, h⟩ := Option.bind_eq_some_iff.mp h
    obtain ⟨_, _, h⟩ := Option.bind_eq_some_iff.mp h
    exact addr6_ne h
  · obtain ⟨_, _, h⟩ := Option.bind_eq_some_iff.mp h
    obtain ⟨_, _, h⟩ := Option.bind_eq_some_iff.mp h
    exact addr6_ne h

theorem parseFrom_ne {all : List Char} : ∀ {s : List Char} {a : Addr}, parseFrom all s = some a → a ≠ .zero
  | [], _, h => by cases h
  | c :: s, a, h => by
    unfold parseFrom at h
    split at h
    · obtain ⟨_, _, h⟩ := Option.bind_eq_some_iff.mp h
      exact addr4_some h
    · split at h
      · unfold parse6 at h
        split at h
        · split at h
          · cases h
          · exact parse6In_ne h
        · exact parse6In_ne h
      · split at h
        · cases h
        · exact parseFrom_ne h

theorem parse_ne {s : List Char} {a : Addr} (h : parseAddr s = some a) : a ≠ .zero := parseFrom_ne h

theorem parseFrom_pct {all : List Char} : ∀ {p r : List Char}, '.' ∉ p → ':' ∉ p → parseFrom all (p ++ '%' :: r) = none
  | [], r, _, _ => by simp [parseFrom]
  | c :: p, r, h1, h2 => by
    simp only [List.mem_cons, not_or] at h1 h2
    rw [List.cons_append, parseFrom, if_neg (Ne.symm h1.1), if_neg (Ne.symm h2.1)]
    split
    · rfl
    · exact parseFrom_pct h1.2 h2.2

theorem v4Loop_colon : ∀ {s : List Char} {done : Bytes} {val dig : Nat}, ':' ∈ s → v4Loop done val dig s = none
  | c :: s, done, val, dig, h => by
    rw [v4Loop]
    rcases List.mem_cons.mp h with rfl | h
    · rw [show undec ':' = none from by decide]
      simp
    · cases hc : undec c with
      | some d =>
        simp only
        split
        · rfl
        · split
          · rfl
          · exact v4Loop_colon h
      | none =>
        simp only
        split
        · split
          · rfl
          · split
            · rfl
            · exact v4Loop_colon h
        · rfl

/-- an IPv4 address followed by a port is not an address -/
theorem parse_port (b : BytesN 4) (s : Bytes) : parseAddr (chars (dotted b.1 ++ 58 :: s)) = none := by
  have hc : ':' ∈ chars (dotted b.1 ++ 58 :: s) := byte_mem (x := 58) (by simp)
  have h4 : parse4 (chars (dotted b.1 ++ 58 :: s)) = none := by
    unfold parse4
    rw [v4Loop_colon hc]; rfl
  unfold parseAddr
  obtain ⟨l, hl⟩ := b
  match l, hl with
  | [a, b, c, d], hl =>
    have e : chars (dotted [a, b, c, d] ++ 58 :: s) = chars (digits a.toNat) ++ '.' :: chars (dotted [b, c, d] ++ 58 :: s) := by
      show chars ((digits a.toNat ++ 46 :: dotted [b, c, d]) ++ 58 :: s) = _
      rw [List.append_assoc, chars_append]; rfl
    rw [show parseFrom (chars (dotted [a, b, c, d] ++ 58 :: s)) (chars (dotted [a, b, c, d] ++ 58 :: s)) =
      parseFrom (chars (dotted [a, b, c, d] ++ 58 :: s)) (chars (digits a.toNat) ++ '.' :: chars (dotted [b, c, d] ++ 58 :: s)) from by rw [← e],
      parseFrom_skip (digits_neutral a), parseFrom, if_pos rfl]
    exact h4

end Verif.Services.Netip
