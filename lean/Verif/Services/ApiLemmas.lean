import Verif.Services.Api
import Verif.Chains.LeashSteps
import Verif.Chains.ForkOk
/-
Lemmas about the HTTP handlers.
-/

set_option autoImplicit false

namespace Verif.Services

open Verif
open Verif.Chains (Addr BytesN BlockID DB Env Fork Head Block Leash Linkage ProtoBlock GeneratorStats WavesAddr Forks ForkOf HasLeash getLeash)
open Verif.Chains.Spec (Op Fresh Stored Reachable exec step inserts target)

theorem Resp.after_ok {α β : Type} {r : Go α} {k : α → Resp β} {b : β} (h : Resp.after r k = .ok b) :
    ∃ a, r = .ok a ∧ k a = .ok b := by
  unfold Resp.after at h
  split at h
  · exact ⟨_, rfl, h⟩
  · cases h
  · cases h

theorem Web.encode_ok {α : Type} {w : Web} {x y : α} {ts : List Nat} (h : w.encode x ts = .ok y) :
    y = x ∧ ∀ t, t ∈ ts → w.encodes t = true := by
  unfold Web.encode at h
  split at h
  · rename_i ha; cases h; exact ⟨rfl, fun t ht => List.all_eq_true.mp ha t ht⟩
  · cases h

theorem Web.encode_all {α : Type} {w : Web} {x : α} {ts : List Nat} (h : ∀ t, t ∈ ts → w.encodes t = true) : w.encode x ts = .ok x := by
  unfold Web.encode
  rw [if_pos (List.all_eq_true.mpr h)]

/-- `c` is `s` without the blanks at both ends -/
def Bare (space : Char → Bool) (s c : List Char) : Prop :=
  ∃ l r, s = l ++ (c ++ r) ∧ (∀ x, x ∈ l → space x = true) ∧ (∀ x, x ∈ r → space x = true) ∧
    (∀ x, c.head? = some x → space x = false) ∧ ∀ x, c.getLast? = some x → space x = false

theorem head_kept {p : Char → Bool} : ∀ {l : List Char} {x : Char}, (l.dropWhile p).head? = some x → p x = false
  | [], _, h => by cases h
  | y :: l, x, h => by
    rw [List.dropWhile_cons] at h
    split at h
    · exact head_kept h
    · next hy => cases h; simpa using hy

theorem drop_bare {p : Char → Bool} {l c : List Char} (hl : ∀ x, x ∈ l → p x = true) (hc : ∀ x, c.head? = some x → p x = false) :
    (l ++ c).dropWhile p = c := by
  rw [List.dropWhile_append_of_pos hl]
  cases c with
  | nil => rfl
  | cons x c => rw [List.dropWhile_cons, hc x rfl]; rfl

theorem bare_iff (space : Char → Bool) (s c : List Char) :
    Bare space s c ↔ ((s.dropWhile space).reverse.dropWhile space).reverse = c := by
  constructor
  · rintro ⟨l, r, rfl, hl, hr, h1, h2⟩
    rcases List.eq_nil_or_concat c with rfl | ⟨c', y, rfl⟩
    · have : ((l ++ ([] ++ r)).dropWhile space) = [] := by
        rw [List.nil_append, ← List.append_nil (l ++ r)]
        exact drop_bare (fun x hx => (List.mem_append.mp hx).elim (hl x) (hr x)) (fun x h => by cases h)
      rw [this]; rfl
    · rw [drop_bare hl (fun x hx => h1 x ?_)]
      · rw [List.reverse_append, drop_bare (fun x hx => hr x (List.mem_reverse.mp hx)) (fun x hx => h2 x ?_), List.reverse_reverse]
        rw [List.head?_reverse] at hx; exact hx
      · rw [List.head?_append] at hx
        cases hh : (c'.concat y).head? with
        | none => simp at hh
        | some z => rw [hh] at hx; exact hx
  · rintro rfl
    refine ⟨s.takeWhile space, ((s.dropWhile space).reverse.takeWhile space).reverse, ?_, ?_, ?_, ?_, ?_⟩
    · rw [← List.reverse_append, List.takeWhile_append_dropWhile, List.reverse_reverse, List.takeWhile_append_dropWhile]
    · exact fun x hx => List.all_eq_true.mp (List.all_takeWhile) x hx
    · exact fun x hx => List.all_eq_true.mp (List.all_takeWhile) x (List.mem_reverse.mp hx)
    · intro x hx
      apply head_kept (l := s)
      obtain ⟨pre, hpre⟩ := List.dropWhile_suffix (l := (s.dropWhile space).reverse) space
      have : s.dropWhile space = ((s.dropWhile space).reverse.dropWhile space).reverse ++ pre.reverse := by
        rw [← List.reverse_append, hpre, List.reverse_reverse]
      rw [this, List.head?_append, hx]; rfl
    · intro x hx
      rw [List.getLast?_reverse] at hx
      exact head_kept hx

/-- a string made of pieces with commas between them -/
def joined : List (List Char) → List Char
  | [] => []
  | [p] => p
  | p :: q :: ps => p ++ ',' :: joined (q :: ps)

theorem split_piece {p : List Char} (h : ',' ∉ p) : split p = [p] := by
  induction p with
  | nil => rfl
  | cons c p ih =>
    simp only [List.mem_cons, not_or] at h
    rw [split, if_neg (Ne.symm h.1), ih h.2]

theorem split_cons {p : List Char} (h : ',' ∉ p) (s : List Char) : split (p ++ ',' :: s) = p :: split s := by
  induction p with
  | nil => rw [List.nil_append, split, if_pos rfl]
  | cons c p ih =>
    simp only [List.mem_cons, not_or] at h
    rw [List.cons_append, split, if_neg (Ne.symm h.1), ih h.2]

theorem split_joined {ps : List (List Char)} (hne : ps ≠ []) (h : ∀ p, p ∈ ps → ',' ∉ p) : split (joined ps) = ps := by
  induction ps with
  | nil => exact absurd rfl hne
  | cons p ps ih =>
    cases ps with
    | nil => rw [joined, split_piece (h p (by simp))]
    | cons q ps =>
      rw [joined, split_cons (h p (by simp)), ih (by simp) (fun p' hp => h p' (List.mem_cons_of_mem _ hp))]

theorem peersLoop_none {w : Web} {ps : List (List Char)} :
    w.peersLoop ps = none ↔ ∃ p, p ∈ ps ∧ w.trim p ≠ [] ∧ w.parse (w.trim p) = none := by
  induction ps with
  | nil => simp [Web.peersLoop]
  | cons p ps ih =>
    rw [Web.peersLoop]
    by_cases ht : w.trim p = []
    · rw [if_pos ht, ih]; simp [ht]
    · rw [if_neg ht]
      cases hp : w.parse (w.trim p) with
      | none => simp [ht, hp]
      | some a => simp [ht, hp, ih]

theorem peersLoop_some {w : Web} {ps : List (List Char)} {as : List Addr} (h : w.peersLoop ps = some as) (a : Addr) :
    a ∈ as ↔ ∃ p, p ∈ ps ∧ w.trim p ≠ [] ∧ w.parse (w.trim p) = some a := by
  induction ps generalizing as with
  | nil => cases h; simp
  | cons p ps ih =>
    rw [Web.peersLoop] at h
    by_cases ht : w.trim p = []
    · rw [if_pos ht] at h; rw [ih h]; simp [ht]
    · rw [if_neg ht] at h
      cases hp : w.parse (w.trim p) with
      | none => rw [hp] at h; cases h
      | some b =>
        rw [hp] at h
        simp only [Option.map_eq_some_iff] at h
        obtain ⟨as', h1, rfl⟩ := h
        simp only [List.mem_cons, ih h1, exists_eq_or_imp, hp, ht, ne_eq, not_false_eq_true, true_and, Option.some.injEq]
        constructor
        · rintro (rfl | h)
          · exact Or.inl rfl
          · exact Or.inr h
        · rintro (rfl | h)
          · exact Or.inl rfl
          · exact Or.inr h

/-- leashes are never removed -/
theorem hasLeash_kept {g : ProtoBlock} {l0 : Linkage} (hf : Fresh g l0) (ops1 ops2 : List Op)
    (hb : inserts (ops1 ++ ops2) + 2 < 2 ^ 32) (a : Addr) (h : HasLeash (exec l0 ops1).db a = .ok true) :
    HasLeash (exec l0 (ops1 ++ ops2)).db a = .ok true := by
  obtain ⟨ga, sc, _, _, _, R0⟩ := Chains.fresh_rep hf
  rw [Chains.inserts_append] at hb
  obtain ⟨ns1, hs1, R1, hpre, hl1⟩ := R0.exec ops1 (by simp; omega)
  rw [Chains.exec_append]
  have hn : ns1.length + 1 + inserts ops2 < 2 ^ 32 := by simp at hl1; omega
  clear hb hl1 hpre
  generalize exec l0 ops1 = l at h R1 ⊢
  induction ops2 generalizing l ns1 hs1 with
  | nil => exact h
  | cons o ops ih =>
    obtain ⟨ns2, hs2, R2, _, hl⟩ := R1.step_next o ops hn
    refine ih ns2 hs2 hl (step l o).1 ?_ R2
    have ho := R1.step_outcome (by omega) o
    have hsome : ∀ {db : DB}, HasLeash db a = .ok true ↔ ∃ id, getLeash db a = .ok id := by
      intro db
      unfold HasLeash
      constructor
      · intro h; split at h
        · exact ⟨_, by assumption⟩
        · cases h
        · cases h
      · rintro ⟨id, h⟩; rw [h]
    rw [hsome] at h ⊢
    obtain ⟨id, hid⟩ := h
    cases ht : target o with
    | none => rw [ht] at ho; simp only at ho; rw [ho]; exact ⟨id, hid⟩
    | some t =>
      obtain ⟨a0, i0⟩ := t
      rw [ht] at ho
      have moved : Chains.Moved l.db (step l o).1.db a0 i0 → ∃ id, getLeash (step l o).1.db a = .ok id := by
        intro m
        rw [m a]
        split
        · exact ⟨_, rfl⟩
        · exact ⟨id, hid⟩
      rcases ho with ⟨_, m, _⟩ | ⟨_, st⟩ | ⟨_, _, m, _⟩
      · exact moved m
      · rw [st a]; exact ⟨id, hid⟩
      · exact moved m

theorem leashLess_strictWeak : Chains.StrictWeak leashLess where
  irrefl a := by simp [leashLess]
  trans a b c h1 h2 := by
    unfold leashLess at *
    split at h1 <;> split at h2 <;> split <;> simp at * <;> omega
  incomp a b c h1 h2 h3 h4 := by
    unfold leashLess at *
    split at h1 <;> split at h2 <;> split at h3 <;> split at h4 <;> (constructor <;> split <;> simp at * <;> omega)

end Verif.Services
