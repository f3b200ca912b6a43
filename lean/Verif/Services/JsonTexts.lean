import Verif.Services.JsonLemmas
import Verif.Chains.ForkOk
/-
Lemmas about the text of JSON values: identifiers and addresses can be told apart by their texts.
-/

set_option autoImplicit false

namespace Verif.Services.Json

open Verif
open Verif.Chains (Addr BytesN BlockID Fork GeneratorStats WavesAddr)
open Verif.Peers (validUTF8 validUTF8_append Peer Registry Lib)

/-! ### base58 -/

theorem alphabet_idx : ∀ d, d < 58 → alphabet.idxOf (alphabet.getD d 0) = d := by decide +kernel

theorem alphabet_ascii : ∀ d, d < 58 → alphabet.getD d 0 < 0x80 := by decide +kernel

theorem beVal_pos_cons {b : UInt8} {s : Bytes} (h : b ≠ 0) : 256 ^ s.length ≤ beVal (b :: s) := by
  have : 1 ≤ b.toNat := by
    rcases Nat.eq_zero_or_pos b.toNat with h0 | h0
    · exact absurd (UInt8.toNat_inj.mp (by rw [h0]; rfl)) h
    · exact h0
  unfold beVal
  calc 256 ^ s.length = 1 * 256 ^ s.length := (Nat.one_mul _).symm
    _ ≤ b.toNat * 256 ^ s.length := Nat.mul_le_mul_right _ this
    _ ≤ _ := Nat.le_add_right _ _

theorem beVal_inj_of_length {a b : Bytes} (hl : a.length = b.length) (h : beVal a = beVal b) : a = b := by
  by_cases e : a = b
  · exact e
  · exfalso
    cases h1 : bytesLt a b with
    | true => have := (bytesLt_iff_beVal hl).mp h1; omega
    | false => have := (bytesLt_iff_beVal hl.symm).mp (bytesLt_total e h1); omega

theorem beVal_lead {a b : Bytes} (ha : ∀ x, a.head? = some x → x ≠ 0) (hb : ∀ x, b.head? = some x → x ≠ 0) (h : beVal a = beVal b) : a = b := by
  have hlen : ∀ {a b : Bytes}, (∀ x, b.head? = some x → x ≠ 0) → beVal a = beVal b → b.length ≤ a.length := by
    intro a b hb h
    cases b with
    | nil => simp
    | cons y b =>
      have h1 := beVal_pos_cons (s := b) (hb y rfl)
      have h2 := beVal_lt a
      rw [h] at h2
      have h3 : 256 ^ b.length < 256 ^ a.length := by omega
      have := (Nat.pow_lt_pow_iff_right (by decide : 1 < 256)).mp h3
      simp only [List.length_cons]; omega
  exact beVal_inj_of_length (Nat.le_antisymm (hlen ha h.symm) (hlen hb h)) h

theorem beVal_drop : ∀ a : Bytes, beVal (a.dropWhile (· = 0)) = beVal a
  | [] => rfl
  | x :: a => by
    rw [List.dropWhile_cons]
    by_cases h : x = 0
    · subst h
      simp only [decide_true, if_true]
      rw [beVal_drop a]; simp [beVal]
    · simp [h]

theorem head_drop (a : Bytes) : ∀ x, (a.dropWhile (· = 0)).head? = some x → x ≠ 0 := by
  induction a with
  | nil => intro x h; simp at h
  | cons y a ih =>
    intro x hx
    rw [List.dropWhile_cons] at hx
    by_cases h : y = 0
    · simp only [h, decide_true, if_true] at hx; exact ih x hx
    · simp only [h, decide_false] at hx
      cases hx; exact h

theorem take_zeros (a : Bytes) : a.takeWhile (· = 0) = List.replicate (a.takeWhile (· = 0)).length 0 := by
  refine List.eq_replicate_iff.mpr ⟨rfl, fun b hb => ?_⟩
  have := List.all_takeWhile (p := fun b : UInt8 => decide (b = 0)) (l := a)
  rw [List.all_eq_true] at this
  exact of_decide_eq_true (this b hb)

theorem bytes_of_parts {a b : Bytes} (h1 : (a.takeWhile (· = 0)).length = (b.takeWhile (· = 0)).length) (h2 : beVal a = beVal b) : a = b := by
  have e : a.dropWhile (· = 0) = b.dropWhile (· = 0) :=
    beVal_lead (head_drop a) (head_drop b) (by rw [beVal_drop, beVal_drop, h2])
  rw [← List.takeWhile_append_dropWhile (p := fun x : UInt8 => decide (x = 0)) (l := a),
    ← List.takeWhile_append_dropWhile (p := fun x : UInt8 => decide (x = 0)) (l := b), e, take_zeros a, take_zeros b, h1]

theorem replicate_split {n m : Nat} {s t : Bytes} {c : UInt8} (hs : s.head? ≠ some c) (ht : t.head? ≠ some c)
    (h : List.replicate n c ++ s = List.replicate m c ++ t) : n = m ∧ s = t := by
  induction n generalizing m with
  | zero =>
    cases m with
    | zero => exact ⟨rfl, h⟩
    | succ m =>
      rw [List.replicate_succ, List.replicate_zero, List.nil_append, List.cons_append] at h
      rw [h] at hs; exact absurd rfl hs
  | succ n ih =>
    cases m with
    | zero =>
      rw [List.replicate_succ, List.replicate_zero, List.nil_append, List.cons_append] at h
      rw [← h] at ht; exact absurd rfl ht
    | succ m =>
      rw [List.replicate_succ, List.replicate_succ, List.cons_append, List.cons_append] at h
      obtain ⟨h1, h2⟩ := ih (List.cons.inj h).2
      exact ⟨by rw [h1], h2⟩

theorem digits58_head (n : Nat) : (digitsIn 58 (fun d => alphabet.getD d 0) n n []).head? ≠ some 49 := by
  by_cases h : n = 0
  · subst h; decide
  · obtain ⟨d, h1, h2, h3⟩ := digitsIn_head (base := 58) (dig := fun d => alphabet.getD d 0) (by decide) n n [] (Nat.le_refl n) h
    rw [h3]
    intro h4
    have : ∀ d, d < 58 → 0 < d → alphabet.getD d 0 ≠ 49 := by decide +kernel
    exact this d h2 h1 (Option.some.inj h4)

theorem base58_inj {a b : Bytes} (h : base58 a = base58 b) : a = b := by
  unfold base58 at h
  obtain ⟨h1, h2⟩ := replicate_split (digits58_head _) (digits58_head _) h
  refine bytes_of_parts h1 ?_
  have := congrArg (fun s => s.foldl (fun x b => x * 58 + alphabet.idxOf b) 0) h2
  rw [digitsIn_val (v := fun b => alphabet.idxOf b) (by decide) alphabet_idx _ _ _ (Nat.le_refl _),
    digitsIn_val (v := fun b => alphabet.idxOf b) (by decide) alphabet_idx _ _ _ (Nat.le_refl _)] at this
  exact this

theorem base58_valid (a : Bytes) : validUTF8 (base58 a) = true := by
  refine all_ascii_valid _ (fun x hx => ?_)
  unfold base58 at hx
  rcases List.mem_append.mp hx with hx | hx
  · rw [(List.mem_replicate.mp hx).2]; decide
  · exact digitsIn_mem (P := fun x => x < 0x80) (by decide) alphabet_ascii _ _ _ (by simp) x hx

/-! ### addresses -/

/-- what follows is no digit -/
def NoDig (r : Bytes) : Prop := ∀ b, r.head? = some b → isDig b = false

theorem takeWhile_noDig {ds r : Bytes} (h : ∀ x, x ∈ ds → isDig x = true) (hr : NoDig r) :
    (ds ++ r).takeWhile isDig = ds ∧ (ds ++ r).dropWhile isDig = r := by
  rw [List.takeWhile_append_of_pos h, List.dropWhile_append_of_pos h]
  cases r with
  | nil => simp
  | cons b r => simp [hr b rfl]

theorem digits_split {n m : Nat} {r t : Bytes} (hr : NoDig r) (ht : NoDig t) (h : digits n ++ r = digits m ++ t) : n = m ∧ r = t := by
  obtain ⟨a1, a2⟩ := takeWhile_noDig (digits_isDig n) hr
  obtain ⟨b1, b2⟩ := takeWhile_noDig (digits_isDig m) ht
  rw [h] at a1 a2
  refine ⟨?_, a2.symm.trans b2⟩
  have := a1.symm.trans b1
  rw [← decVal_digits n, ← decVal_digits m, this]

theorem noDig_nil : NoDig [] := by intro b h; cases h

theorem noDig_cons {b : UInt8} (h : isDig b = false) (r : Bytes) : NoDig (b :: r) := by intro c hc; cases hc; exact h

theorem dotted_split : ∀ {a b r t : Bytes}, a.length = b.length → NoDig r → NoDig t → dotted a ++ r = dotted b ++ t → a = b ∧ r = t
  | [], [], _, _, _, _, _, h => ⟨rfl, h⟩
  | [x], [y], r, t, _, hr, ht, h => by
    simp only [dotted] at h
    obtain ⟨h1, h2⟩ := digits_split hr ht h
    exact ⟨by rw [UInt8.toNat_inj.mp h1], h2⟩
  | x :: x' :: a, y :: y' :: b, r, t, hl, hr, ht, h => by
    simp only [dotted, List.append_assoc, List.cons_append] at h
    obtain ⟨h1, h2⟩ := digits_split (noDig_cons (by decide) _) (noDig_cons (by decide) _) h
    obtain ⟨h3, h4⟩ := dotted_split (a := x' :: a) (b := y' :: b) (by simpa using hl) hr ht (List.cons.inj h2).2
    exact ⟨by rw [UInt8.toNat_inj.mp h1, h3], h4⟩
  | [], _ :: _, _, _, hl, _, _, _ => by simp at hl
  | _ :: _, [], _, _, hl, _, _, _ => by simp at hl
  | [_], _ :: _ :: _, _, _, hl, _, _, _ => by simp at hl
  | _ :: _ :: _, [_], _, _, hl, _, _, _ => by simp at hl

theorem dotted_mem : ∀ (a : Bytes) (x : UInt8), x ∈ dotted a → isDig x = true ∨ x = 46
  | [], x, h => by simp [dotted] at h
  | [b], x, h => Or.inl (digits_isDig _ x h)
  | b :: c :: a, x, h => by
    simp only [dotted, List.mem_append, List.mem_cons] at h
    rcases h with h | h | h
    · exact Or.inl (digits_isDig _ x h)
    · exact Or.inr h
    · exact dotted_mem (c :: a) x h

theorem dotted_valid (a : Bytes) : validUTF8 (dotted a) = true := by
  refine all_ascii_valid _ (fun x hx => ?_)
  rcases dotted_mem a x hx with h | h
  · exact isDig_ascii x h
  · rw [h]; decide

theorem dotted_ne : ∀ {a : Bytes}, a ≠ [] → dotted a ≠ []
  | [], h => absurd rfl h
  | [b], _ => (digits_head _).1
  | b :: c :: a, _ => by simp [dotted]

/-- What is relied upon of the texts that are not modelled: IPv6 addresses contain a colon and times and IPv6 addresses can be told apart;
all are UTF-8, and a version is encoded without repeating a name. -/
structure Texts.Lawful (t : Texts) (w : Web) (d : Dates) : Prop where
  v6_inj : ∀ a b, t.v6 a "" = t.v6 b "" → a = b
  v6_colon : ∀ a, 58 ∈ t.v6 a ""
  v6_valid : ∀ a z, validUTF8 (t.v6 a z) = true
  milli_inj : ∀ m n, w.encodes m = true → w.encodes n = true → t.milli m = t.milli n → m = n
  milli_valid : ∀ m, validUTF8 (t.milli m) = true
  sec_inj : ∀ m n, d.encodes m = true → d.encodes n = true → t.sec m = t.sec n → m = n
  sec_valid : ∀ m, validUTF8 (t.sec m) = true
  version_clean : ∀ v, (t.version v).clean

variable {t : Texts} {w : Web} {d : Dates}

theorem Texts.Lawful.addr_valid (T : t.Lawful w d) (a : Addr) : validUTF8 (t.addr a) = true := by
  cases a with
  | zero => show validUTF8 [] = true; decide +kernel
  | v4 b => exact dotted_valid b.1
  | v6 b z => exact T.v6_valid b z

theorem Texts.Lawful.addrPort_valid (T : t.Lawful w d) (a : Addr) (p : UInt16) : validUTF8 (t.addrPort a p) = true := by
  cases a with
  | zero => show validUTF8 [] = true; decide +kernel
  | v4 b =>
    refine validUTF8_append _ (dotted_valid b.1) ?_
    rw [valid_ascii (by decide)]; exact digits_valid _
  | v6 b z =>
    show validUTF8 (91 :: (t.v6 b z ++ 93 :: 58 :: digits p.toNat)) = true
    rw [valid_ascii (by decide)]
    refine validUTF8_append _ (T.v6_valid b z) ?_
    rw [valid_ascii (by decide), valid_ascii (by decide)]; exact digits_valid _

theorem no_colon (b : Bytes) : 58 ∉ dotted b := by
  intro h
  rcases dotted_mem b 58 h with h | h
  · revert h; decide
  · revert h; decide

theorem Texts.Lawful.addr_inj (T : t.Lawful w d) {a b : Addr} (ha : a.plain = a) (hb : b.plain = b) (h : t.addr a = t.addr b) : a = b := by
  have ne4 : ∀ b : BytesN 4, dotted b.1 ≠ [] := fun b => dotted_ne (by intro h; have := b.2; rw [h] at this; cases this)
  have ne6 : ∀ (b : BytesN 16), t.v6 b "" ≠ [] := fun b h => by have := T.v6_colon b; rw [h] at this; cases this
  have ne46 : ∀ (a : BytesN 4) (b : BytesN 16), dotted a.1 ≠ t.v6 b "" := fun a b h => no_colon a.1 (h ▸ T.v6_colon b)
  have z : ∀ {b : BytesN 16} {z : String}, (Addr.v6 b z).plain = .v6 b z → z = "" := by
    intro b z h; cases h; rfl
  cases a with
  | zero =>
    cases b with
    | zero => rfl
    | v4 b => exact absurd h.symm (ne4 b)
    | v6 b z' => cases z hb; exact absurd h.symm (ne6 b)
  | v4 a =>
    cases b with
    | zero => exact absurd h (ne4 a)
    | v4 b =>
      have h : dotted a.1 ++ [] = dotted b.1 ++ [] := by rw [List.append_nil, List.append_nil]; exact h
      have := (dotted_split (by rw [a.2, b.2]) noDig_nil noDig_nil h).1
      rw [Subtype.ext this]
    | v6 b z' => cases z hb; exact absurd h (ne46 a b)
  | v6 a z' =>
    cases z ha
    cases b with
    | zero => exact absurd h (ne6 a)
    | v4 b => exact absurd h.symm (ne46 b a)
    | v6 b z'' => cases z hb; rw [T.v6_inj a b h]

/-! ### trees -/

mutual
theorem utf8_of_clean : ∀ j : J, j.clean → j.utf8
  | .null, _ => by rw [J.utf8] <;> simp
  | .bool _, _ => by rw [J.utf8] <;> simp
  | .num _, _ => by rw [J.utf8] <;> simp
  | .str s, h => by rw [J.utf8]; rw [J.clean] at h; exact h
  | .arr l, h => by rw [J.utf8]; rw [J.clean] at h; exact utf8s_of_clean l h
  | .obj m, h => by rw [J.utf8]; rw [J.clean] at h; exact utf8m_of_clean m h.1
theorem utf8s_of_clean : ∀ l : Js, l.clean → l.utf8
  | .nil, _ => by rw [Js.utf8]; trivial
  | .cons j l, h => by rw [Js.utf8]; rw [Js.clean] at h; exact ⟨utf8_of_clean j h.1, utf8s_of_clean l h.2⟩
theorem utf8m_of_clean : ∀ m : Ms, m.clean → m.utf8
  | .nil, _ => by rw [Ms.utf8]; trivial
  | .cons k j m, h => by rw [Ms.utf8]; rw [Ms.clean] at h; exact ⟨h.1, utf8_of_clean j h.2.1, utf8m_of_clean m h.2.2⟩
end

theorem num_clean (i : Int) : (J.num i).clean := by rw [J.clean] <;> simp

theorem null_clean : J.null.clean := by rw [J.clean] <;> simp

theorem bool_clean (b : Bool) : (J.bool b).clean := by rw [J.clean] <;> simp

theorem str_clean {s : Bytes} (h : validUTF8 s = true) : (J.str s).clean := by rw [J.clean]; exact h

theorem score_clean (o : Option Nat) : (score o).clean := by
  cases o with
  | none => exact null_clean
  | some n => exact num_clean _

theorem members_clean : ∀ l : List (String × J), (∀ x, x ∈ l → validUTF8 (ascii x.1) = true ∧ x.2.clean) → (members l).clean
  | [], _ => by rw [members, Ms.clean]; trivial
  | (k, j) :: l, h => by
    rw [members, Ms.clean]
    exact ⟨(h _ List.mem_cons_self).1, (h _ List.mem_cons_self).2, members_clean l (fun x hx => h x (List.mem_cons_of_mem _ hx))⟩

theorem members_names : ∀ l : List (String × J), (members l).names = l.map (fun x => ascii x.1)
  | [] => rfl
  | (k, j) :: l => by rw [members, Ms.names, members_names l]; rfl

theorem obj_clean {l : List (String × J)} (h : ∀ x, x ∈ l → x.2.clean) (hk : (l.map (fun x => ascii x.1)).Nodup)
    (hv : ∀ k, k ∈ l.map (·.1) → validUTF8 (ascii k) = true) : (J.obj (members l)).clean := by
  rw [J.clean]
  refine ⟨members_clean l (fun x hx => ⟨hv _ (List.mem_map_of_mem hx), h x hx⟩), ?_⟩
  rw [members_names]; exact hk

theorem list_clean : ∀ l : List J, (∀ j, j ∈ l → j.clean) → (list l).clean
  | [], _ => by rw [list, Js.clean]; trivial
  | j :: l, h => by
    rw [list, Js.clean]
    exact ⟨h j List.mem_cons_self, list_clean l (fun x hx => h x (List.mem_cons_of_mem _ hx))⟩

theorem array_clean {α : Type} {f : α → J} {l : List α} (h : ∀ a, a ∈ l → (f a).clean) : (array f l).clean := by
  unfold array
  rw [J.clean]
  refine list_clean _ (fun j hj => ?_)
  obtain ⟨a, ha, rfl⟩ := List.mem_map.mp hj
  exact h a ha

theorem addrs_clean (T : t.Lawful w d) (l : List Addr) : (J.arr (list (l.map (fun a => .str (t.addr a))))).clean :=
  array_clean (f := fun a => .str (t.addr a)) (fun a _ => str_clean (T.addr_valid a))

theorem fork_clean (T : t.Lawful w d) (f : Fork) : (t.fork f).clean := by
  unfold Texts.fork
  refine obj_clean ?_ (by simp only [List.map_cons, List.map_nil]; decide +kernel) (by simp only [List.map_cons, List.map_nil]; decide +kernel)
  simp only [List.forall_mem_cons]
  refine ⟨bool_clean _, str_clean (base58_valid _), str_clean ?_, str_clean (base58_valid _), num_clean _, ?_,
    num_clean _, ?_, str_clean (base58_valid _), num_clean _, by simp⟩
  · split
    · decide +kernel
    · exact T.milli_valid _
  · split
    · trivial
    · exact num_clean _
  · split
    · trivial
    · exact addrs_clean T _

theorem peer_clean (T : t.Lawful w d) {p : Peer} (hp : validUTF8 p.name = true) : (t.peer p).clean := by
  unfold Texts.peer
  refine obj_clean ?_ (by simp only [List.map_cons, List.map_nil]; decide +kernel) (by simp only [List.map_cons, List.map_nil]; decide +kernel)
  simp only [List.forall_mem_cons]
  exact ⟨str_clean (T.addrPort_valid _ _), num_clean _, str_clean hp, T.version_clean _, num_clean _, str_clean (T.sec_valid _),
    score_clean _, by simp⟩

theorem head_clean (T : t.Lawful w d) (h : HeadInfo) : (t.head h).clean := by
  unfold Texts.head
  refine obj_clean ?_ (by simp only [List.map_cons, List.map_nil]; decide +kernel) (by simp only [List.map_cons, List.map_nil]; decide +kernel)
  simp only [List.forall_mem_cons]
  exact ⟨num_clean _, str_clean (base58_valid _), num_clean _, num_clean _, str_clean (T.milli_valid _), by simp⟩

theorem leash_clean (T : t.Lawful w d) (l : LeashInfo) : (t.leash l).clean := by
  unfold Texts.leash
  refine obj_clean ?_ (by simp only [List.map_cons, List.map_nil]; decide +kernel) (by simp only [List.map_cons, List.map_nil]; decide +kernel)
  simp only [List.forall_mem_cons]
  exact ⟨str_clean (base58_valid _), num_clean _, num_clean _, str_clean (T.milli_valid _), str_clean (base58_valid _), num_clean _,
    addrs_clean T _, by simp⟩

theorem generator_clean (g : GeneratorStats) : (generator g).clean := by
  unfold generator
  refine obj_clean ?_ (by simp only [List.map_cons, List.map_nil]; decide +kernel) (by simp only [List.map_cons, List.map_nil]; decide +kernel)
  simp only [List.forall_mem_cons]
  exact ⟨str_clean (base58_valid _), num_clean _, by simp⟩

theorem status_clean {v : Bytes} (hv : validUTF8 v = true) (n : Nat) (s : Status) : (statusJ v n s).clean := by
  unfold statusJ
  refine obj_clean ?_ (by simp only [List.map_cons, List.map_nil]; decide +kernel) (by simp only [List.map_cons, List.map_nil]; decide +kernel)
  simp only [List.forall_mem_cons]
  exact ⟨str_clean hv, num_clean _, num_clean _, num_clean _, num_clean _, num_clean _, num_clean _, by simp⟩

theorem list_inj : ∀ {l l' : List J}, list l = list l' → l = l'
  | [], [], _ => rfl
  | [], _ :: _, h => by simp [list] at h
  | _ :: _, [], h => by simp [list] at h
  | a :: l, b :: l', h => by
    simp only [list, Js.cons.injEq] at h
    rw [h.1, list_inj h.2]

theorem map_inj_on {α β : Type} {f : α → β} : ∀ {l l' : List α}, (∀ a, a ∈ l → ∀ b, b ∈ l' → f a = f b → a = b) → l.map f = l'.map f → l = l'
  | [], [], _, _ => rfl
  | [], _ :: _, _, h => by simp at h
  | _ :: _, [], _, h => by simp at h
  | a :: l, b :: l', hf, h => by
    simp only [List.map_cons, List.cons.injEq] at h
    rw [hf a List.mem_cons_self b List.mem_cons_self h.1,
      map_inj_on (fun x hx y hy => hf x (List.mem_cons_of_mem _ hx) y (List.mem_cons_of_mem _ hy)) h.2]

theorem array_inj {α : Type} {f : α → J} {l l' : List α} (hf : ∀ a, a ∈ l → ∀ b, b ∈ l' → f a = f b → a = b) (h : array f l = array f l') :
    l = l' := by
  unfold array at h
  exact map_inj_on hf (list_inj (J.arr.inj h))

theorem addrs_inj (T : t.Lawful w d) {l l' : List Addr} (hl : ∀ a, a ∈ l → a.plain = a) (hl' : ∀ a, a ∈ l' → a.plain = a)
    (h : list (l.map (fun a => J.str (t.addr a))) = list (l'.map (fun a => .str (t.addr a)))) : l = l' :=
  map_inj_on (fun a ha b hb e => T.addr_inj (hl a ha) (hl' b hb) (J.str.inj e)) (list_inj h)

theorem body_inj {j j' : J} (hj : j.clean) (hj' : j'.clean) (h : body j = body j') : j = j' := by
  have h1 := read_body (utf8_of_clean j hj)
  rw [h, read_body (utf8_of_clean j' hj')] at h1
  exact (Option.some.inj h1).symm

/-- an address without a zone, other than the zero address -/
def Usual (a : Addr) : Prop := a.plain = a ∧ a ≠ .zero

/-- the entries whose text tells everything -/
def ForkOK (w : Web) (f : Fork) : Prop :=
  w.encodes f.headTimestamp.toNat = true ∧ (∀ a, a ∈ f.peers → Usual a) ∧ (f.peers = [] → f.headTimestamp = 0 ∧ f.score = 0)

theorem fork_inj (T : t.Lawful w d) {f g : Fork} (hf : ForkOK w f) (hg : ForkOK w g) (h : t.fork f = t.fork g) : f = g := by
  unfold Texts.fork at h
  simp only [members, J.obj.injEq, Ms.cons.injEq, true_and, J.bool.injEq, J.str.injEq, J.num.injEq, and_true] at h
  obtain ⟨h1, h2, h3, h4, h5, h6, h7, h8, h9, h10⟩ := h
  have h2 := Subtype.ext (base58_inj h2)
  have h4 := Subtype.ext (base58_inj h4)
  have h5 : f.headHeight = g.headHeight := UInt32.toNat_inj.mp (by omega)
  have h7 : f.peersCount = g.peersCount := by omega
  have h368 : f.headTimestamp = g.headTimestamp ∧ f.score = g.score ∧ f.peers = g.peers := by
    by_cases ef : f.peers = []
    · by_cases eg : g.peers = []
      · obtain ⟨a1, a2⟩ := hf.2.2 ef
        obtain ⟨b1, b2⟩ := hg.2.2 eg
        exact ⟨by rw [a1, b1], by rw [a2, b2], by rw [ef, eg]⟩
      · rw [if_pos (List.isEmpty_iff.mpr ef), if_neg (fun h => eg (List.isEmpty_iff.mp h))] at h8
        cases h8
    · by_cases eg : g.peers = []
      · rw [if_neg (fun h => ef (List.isEmpty_iff.mp h)), if_pos (List.isEmpty_iff.mpr eg)] at h8
        cases h8
      · have nf : ¬ (f.peers.isEmpty = true) := fun h => ef (List.isEmpty_iff.mp h)
        have ng : ¬ (g.peers.isEmpty = true) := fun h => eg (List.isEmpty_iff.mp h)
        rw [if_neg nf, if_neg ng] at h3 h6 h8
        have h6 := J.num.inj h6
        exact ⟨UInt64.toNat_inj.mp (T.milli_inj _ _ hf.1 hg.1 h3), by omega, addrs_inj T (fun a ha => (hf.2.1 a ha).1) (fun a ha => (hg.2.1 a ha).1) (J.arr.inj h8)⟩
  obtain ⟨h3, h6, h8⟩ := h368
  have h9 := Subtype.ext (base58_inj h9)
  cases f; cases g
  simp only [Fork.mk.injEq]
  exact ⟨h1, h2, h3, h4, h5, h6, h7, h8, h9, h10⟩

theorem head_inj (T : t.Lawful w d) {f g : HeadInfo} (hf : w.encodes f.timestamp.toNat = true) (hg : w.encodes g.timestamp.toNat = true)
    (h : t.head f = t.head g) : f = g := by
  unfold Texts.head at h
  simp only [members, J.obj.injEq, Ms.cons.injEq, true_and, J.str.injEq, J.num.injEq, and_true] at h
  obtain ⟨h1, h2, h3, h4, h5⟩ := h
  have h1 : f.number = g.number := UInt64.toNat_inj.mp (by omega)
  have h2 := Subtype.ext (base58_inj h2)
  have h3 : f.height = g.height := UInt32.toNat_inj.mp (by omega)
  have h4 : f.score = g.score := by omega
  have h5 := UInt64.toNat_inj.mp (T.milli_inj _ _ hf hg h5)
  cases f; cases g
  simp only [HeadInfo.mk.injEq]
  exact ⟨h1, h2, h3, h4, h5⟩

/-- the entries whose text tells everything -/
def LeashOK (w : Web) (l : LeashInfo) : Prop := w.encodes l.timestamp.toNat = true ∧ ∀ a, a ∈ l.peers → Usual a

theorem leash_inj (T : t.Lawful w d) {f g : LeashInfo} (hf : LeashOK w f) (hg : LeashOK w g) (h : t.leash f = t.leash g) : f = g := by
  unfold Texts.leash at h
  simp only [members, J.obj.injEq, Ms.cons.injEq, true_and, J.str.injEq, J.num.injEq, J.arr.injEq, and_true] at h
  obtain ⟨h1, h2, h3, h4, h5, h6, h7⟩ := h
  have h1 := Subtype.ext (base58_inj h1)
  have h2 : f.height = g.height := UInt32.toNat_inj.mp (by omega)
  have h3 : f.score = g.score := by omega
  have h4 := UInt64.toNat_inj.mp (T.milli_inj _ _ hf.1 hg.1 h4)
  have h5 := Subtype.ext (base58_inj h5)
  have h7 := addrs_inj T (fun a ha => (hf.2 a ha).1) (fun a ha => (hg.2 a ha).1) h7
  cases f; cases g
  simp only [LeashInfo.mk.injEq]
  exact ⟨h1, h2, h3, h4, h5, h7⟩

theorem generator_inj {f g : GeneratorStats} (h : generator f = generator g) : f = g := by
  unfold generator at h
  simp only [members, J.obj.injEq, Ms.cons.injEq, true_and, J.str.injEq, J.num.injEq, and_true] at h
  obtain ⟨h1, h2⟩ := h
  have h1 := Subtype.ext (base58_inj h1)
  have h2 : f.blocks = g.blocks := by omega
  cases f; cases g
  simp only [GeneratorStats.mk.injEq]
  exact ⟨h1, h2⟩

theorem score_inj {a b : Option Nat} (h : score a = score b) : a = b := by
  cases a <;> cases b <;> simp [score] at h ⊢
  omega

theorem stateNum_inj {a b : Peers.State} (h : stateNum a = stateNum b) : a = b := by
  cases a <;> cases b <;> simp [stateNum] at h ⊢

/-- equality of two peers as far as a report can tell: the version as far as its text does, and nothing of the connection -/
theorem peer_inj (T : t.Lawful w d) {p q : Peer} (hp : d.encodes p.nextAttempt = true) (hq : d.encodes q.nextAttempt = true)
    (hp4 : Peers.is4 p.addr = true) (hq4 : Peers.is4 q.addr = true) (h : t.peer p = t.peer q) :
    t.version p.version = t.version q.version ∧ { p with version := .zero, conn := none } = { q with version := .zero, conn := none } := by
  unfold Texts.peer at h
  simp only [members, J.obj.injEq, Ms.cons.injEq, true_and, J.str.injEq, J.num.injEq, and_true] at h
  obtain ⟨h1, h2, h3, h4, h5, h6, h7⟩ := h
  refine ⟨h4, ?_⟩
  obtain ⟨a, ha⟩ := Peers.is4_iff.mp hp4
  obtain ⟨b, hb⟩ := Peers.is4_iff.mp hq4
  rw [ha, hb] at h1
  obtain ⟨h1, h1'⟩ := dotted_split (by rw [a.2, b.2]) (noDig_cons (by decide) _) (noDig_cons (by decide) _) h1
  have h1 : p.addr = q.addr := by rw [ha, hb, Subtype.ext h1]
  have h1' := (List.cons.inj h1').2
  have h8 : p.port = q.port := by
    apply UInt16.toNat_inj.mp
    rw [← decVal_digits p.port.toNat, h1', decVal_digits]
  have h2 : p.nonce = q.nonce := UInt64.toNat_inj.mp (by omega)
  have h5 := stateNum_inj h5
  have h6 := T.sec_inj _ _ hp hq h6
  have h7 := score_inj h7
  rw [h1, h8, h2, h3, h5, h6, h7]

end Verif.Services.Json
