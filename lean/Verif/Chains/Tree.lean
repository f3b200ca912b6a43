import Verif.Chains.Types
/-
The ghost tree behind the database: a list of nodes in insertion order.  Node
`n` (numbered from 1) is `ns[n-1]`.  Pure facts, no database.
-/

set_option autoImplicit false

namespace Verif.Chains

open Verif

/-- A ghost node: the stored record, the number of its parent and the number of the node it
extends (its parent for a block, its reference for a micro-block).  Both are 0 for genesis. -/
structure Node where
  br : BlockRec
  par : Nat
  ext : Nat

/-- 1-based lookup -/
def at1 {α : Type} (l : List α) (n : Nat) : Option α :=
  match n with
  | 0 => none
  | k + 1 => l[k]?

@[simp] theorem at1_zero {α : Type} (l : List α) : at1 l 0 = none := rfl
@[simp] theorem at1_succ {α : Type} (l : List α) (k : Nat) : at1 l (k+1) = l[k]? := rfl

theorem at1_some_iff {α : Type} {l : List α} {n : Nat} {x : α} :
    at1 l n = some x ↔ 1 ≤ n ∧ l[n-1]? = some x := by
  cases n <;> simp

theorem at1_le {α : Type} {l : List α} {n : Nat} {x : α} (h : at1 l n = some x) : 1 ≤ n ∧ n ≤ l.length := by
  cases n with
  | zero => simp at h
  | succ k =>
    simp only [at1_succ] at h
    obtain ⟨hk, _⟩ := List.getElem?_eq_some_iff.mp h
    omega

theorem at1_isSome {α : Type} {l : List α} {n : Nat} (h1 : 1 ≤ n) (h2 : n ≤ l.length) : ∃ x, at1 l n = some x := by
  cases n with
  | zero => omega
  | succ k => exact ⟨l[k], by simp [List.getElem?_eq_getElem (show k < l.length by omega)]⟩

theorem at1_none {α : Type} {l : List α} {n : Nat} (h : n = 0 ∨ l.length < n) : at1 l n = none := by
  cases n with
  | zero => rfl
  | succ k => simp; omega

theorem at1_append_le {α : Type} {l : List α} {m : List α} {n : Nat} (h : n ≤ l.length) :
    at1 (l ++ m) n = at1 l n := by
  cases n with
  | zero => rfl
  | succ k => simp [List.getElem?_append_left (show k < l.length by omega)]

theorem at1_append_of_some {α : Type} {l : List α} {m : List α} {n : Nat} {x : α} (h : at1 l n = some x) :
    at1 (l ++ m) n = some x := by rw [at1_append_le (at1_le h).2, h]

theorem at1_append_new {α : Type} {l : List α} {x : α} : at1 (l ++ [x]) (l.length + 1) = some x := by
  simp

theorem at1_append_cases {α : Type} {l : List α} {x y : α} {n : Nat} (h : at1 (l ++ [x]) n = some y) :
    at1 l n = some y ∨ (n = l.length + 1 ∧ y = x) := by
  by_cases hn : n ≤ l.length
  · rw [at1_append_le hn] at h; exact Or.inl h
  · have := (at1_le h).2
    have : n = l.length + 1 := by simp at this; omega
    subst this
    rw [at1_append_new] at h
    exact Or.inr ⟨rfl, (Option.some.inj h).symm⟩

theorem at1_append {α : Type} {l : List α} {x : α} {n : Nat} :
    at1 (l ++ [x]) n = if n = l.length + 1 then some x else at1 l n := by
  by_cases h : n = l.length + 1
  · subst h; simp
  · by_cases h2 : n ≤ l.length
    · simp [h, at1_append_le h2]
    · rw [at1_none (l := l) (by omega), at1_none (by simp; omega)]; simp [h]

theorem at1_mem {α : Type} {l : List α} {n : Nat} {x : α} (h : at1 l n = some x) : x ∈ l := by
  cases n with
  | zero => simp at h
  | succ k => exact List.mem_of_getElem? h

theorem mem_at1 {α : Type} {l : List α} {x : α} (h : x ∈ l) : ∃ n, at1 l n = some x := by
  obtain ⟨i, hi, rfl⟩ := List.mem_iff_getElem.mp h
  exact ⟨i + 1, by simp⟩

/-- number of the parent (0: none) -/
def parN (ns : List Node) (n : Nat) : Nat :=
  match at1 ns n with
  | some x => x.par
  | none => 0

/-- height (0: no such node) -/
def ht (ns : List Node) (n : Nat) : Nat :=
  match at1 ns n with
  | some x => x.br.height.toNat
  | none => 0

/-- the k-th ancestor -/
def up (ns : List Node) (n : Nat) : Nat → Nat
  | 0 => n
  | k + 1 => parN ns (up ns n k)

/-- the tree invariant -/
structure TreeOK (ns : List Node) : Prop where
  genesis : ∃ g, at1 ns 1 = some g ∧ g.par = 0 ∧ g.ext = 0 ∧ g.br.height = 1 ∧ g.br.parent = []
  node : ∀ n x, at1 ns n = some x → n ≠ 1 → ∃ p, at1 ns x.par = some p ∧ x.par < n ∧
    x.br.height.toNat = p.br.height.toNat + 1 ∧ x.br.parent = p.br.id ∧ p.br.score ≤ x.br.score ∧
    1 ≤ x.ext ∧ x.ext < n
  idlen : ∀ n x, at1 ns n = some x → x.br.id.length = 32 ∨ x.br.id.length = 64
  inj : ∀ n m x y, at1 ns n = some x → at1 ns m = some y → x.br.id = y.br.id → n = m

variable {ns : List Node}

theorem parN_zero : parN ns 0 = 0 := rfl
theorem ht_zero : ht ns 0 = 0 := rfl

theorem ht_of_none {n : Nat} (h : at1 ns n = none) : ht ns n = 0 := by simp [ht, h]

theorem ht_of_some {n : Nat} {x : Node} (h : at1 ns n = some x) : ht ns n = x.br.height.toNat := by simp [ht, h]

theorem parN_of_some {n : Nat} {x : Node} (h : at1 ns n = some x) : parN ns n = x.par := by simp [parN, h]

theorem up_add (n j k : Nat) : up ns n (j + k) = up ns (up ns n j) k := by
  induction k with
  | zero => rfl
  | succ k ih => rw [← Nat.add_assoc]; simp [up, ih]

theorem up_zero_node (k : Nat) : up ns 0 k = 0 := by
  induction k with
  | zero => rfl
  | succ k ih => simp [up, ih, parN_zero]

theorem TreeOK.parN_lt (T : TreeOK ns) {n : Nat} (h : n ≠ 0) : parN ns n < n := by
  cases hx : at1 ns n with
  | none => simp [parN, hx]; omega
  | some x =>
    rw [parN_of_some hx]
    by_cases h1 : n = 1
    · subst h1
      obtain ⟨g, hg, hp, _⟩ := T.genesis
      rw [hx] at hg; cases hg; omega
    · obtain ⟨p, _, h, _⟩ := T.node n x hx h1
      exact h

theorem TreeOK.ht_parN (T : TreeOK ns) (n : Nat) : ht ns (parN ns n) = ht ns n - 1 := by
  cases hx : at1 ns n with
  | none => simp [parN, hx, ht_zero, ht_of_none hx]
  | some x =>
    rw [parN_of_some hx, ht_of_some hx]
    by_cases h1 : n = 1
    · subst h1
      obtain ⟨g, hg, hp, _, hh, _⟩ := T.genesis
      rw [hx] at hg; cases hg
      simp [hp, ht_zero, hh]
    · obtain ⟨p, hp, _, hh, _⟩ := T.node n x hx h1
      rw [ht_of_some hp, hh]; omega

theorem TreeOK.ht_up (T : TreeOK ns) (n k : Nat) : ht ns (up ns n k) = ht ns n - k := by
  induction k with
  | zero => rfl
  | succ k ih => simp only [up]; rw [T.ht_parN, ih]; omega

theorem TreeOK.ht_pos (T : TreeOK ns) {n : Nat} {x : Node} (h : at1 ns n = some x) : 1 ≤ ht ns n := by
  rw [ht_of_some h]
  by_cases h1 : n = 1
  · subst h1
    obtain ⟨g, hg, _, _, hh, _⟩ := T.genesis
    rw [h] at hg; cases hg; simp [hh]
  · obtain ⟨p, hp, _, hh, _⟩ := T.node n x h h1
    omega

theorem ht_pos_some {n : Nat} (h : 1 ≤ ht ns n) : ∃ x, at1 ns n = some x := by
  cases hx : at1 ns n with
  | none => rw [ht_of_none hx] at h; omega
  | some x => exact ⟨x, rfl⟩

theorem TreeOK.ht_eq_one (T : TreeOK ns) {n : Nat} (h : ht ns n = 1) : n = 1 := by
  obtain ⟨x, hx⟩ := ht_pos_some (ns := ns) (n := n) (by omega)
  by_cases h1 : n = 1
  · exact h1
  · obtain ⟨p, hp, _, hh, _⟩ := T.node n x hx h1
    have := T.ht_pos hp
    rw [ht_of_some hx] at h
    rw [ht_of_some hp] at this
    omega

theorem TreeOK.ht_le (T : TreeOK ns) (n : Nat) : ht ns n ≤ n := by
  induction n using Nat.strongRecOn with
  | ind n ih =>
    cases hx : at1 ns n with
    | none => rw [ht_of_none hx]; omega
    | some x =>
      by_cases h1 : n = 1
      · subst h1
        obtain ⟨g, hg, _, _, hh, _⟩ := T.genesis
        rw [hx] at hg; cases hg
        rw [ht_of_some hx, hh]; decide
      · obtain ⟨p, hp, hlt, hh, _⟩ := T.node n x hx h1
        have := ih _ hlt
        rw [ht_of_some hp] at this
        rw [ht_of_some hx]; omega

theorem TreeOK.len_pos (T : TreeOK ns) : 1 ≤ ns.length := by
  obtain ⟨g, hg, _⟩ := T.genesis
  exact (at1_le hg).2

/-- two nodes at the same height have the same ancestor above the meeting point -/
theorem up_eq_mono {n m j k : Nat} (h : up ns n j = up ns m j) (hk : j ≤ k) : up ns n k = up ns m k := by
  obtain ⟨d, rfl⟩ := Nat.exists_eq_add_of_le hk
  rw [up_add, up_add, h]

/-! ### appending a node -/

theorem parN_append {x : Node} {n : Nat} (h : n ≤ ns.length) : parN (ns ++ [x]) n = parN ns n := by
  simp [parN, at1_append_le h]

theorem ht_append {x : Node} {n : Nat} (h : n ≤ ns.length) : ht (ns ++ [x]) n = ht ns n := by
  simp [ht, at1_append_le h]

theorem TreeOK.up_le (T : TreeOK ns) (n k : Nat) : up ns n k ≤ n := by
  induction k with
  | zero => exact Nat.le_refl _
  | succ k ih =>
    simp only [up]
    by_cases h : up ns n k = 0
    · rw [h, parN_zero]; omega
    · have := T.parN_lt h; omega

theorem TreeOK.up_append (T : TreeOK ns) {x : Node} {n : Nat} (h : n ≤ ns.length) (k : Nat) :
    up (ns ++ [x]) n k = up ns n k := by
  induction k with
  | zero => rfl
  | succ k ih =>
    simp only [up, ih]
    exact parN_append (Nat.le_trans (T.up_le n k) h)

/-- what a new node has to satisfy -/
structure NewOK (ns : List Node) (x : Node) : Prop where
  par : ∃ p, at1 ns x.par = some p ∧ x.br.height.toNat = p.br.height.toNat + 1 ∧ x.br.parent = p.br.id ∧
    p.br.score ≤ x.br.score
  ext : ∃ e, at1 ns x.ext = some e
  idlen : x.br.id.length = 32 ∨ x.br.id.length = 64
  fresh : ∀ n y, at1 ns n = some y → y.br.id ≠ x.br.id

theorem TreeOK.append (T : TreeOK ns) {x : Node} (N : NewOK ns x) : TreeOK (ns ++ [x]) where
  genesis := by
    obtain ⟨g, hg, h⟩ := T.genesis
    exact ⟨g, at1_append_of_some hg, h⟩
  node := by
    intro n y hy h1
    rcases at1_append_cases hy with hy | ⟨rfl, rfl⟩
    · obtain ⟨p, hp, h⟩ := T.node n y hy h1
      exact ⟨p, at1_append_of_some hp, h⟩
    · obtain ⟨p, hp, hh, hpar, hsc⟩ := N.par
      obtain ⟨e, he⟩ := N.ext
      have := at1_le hp
      have := at1_le he
      exact ⟨p, at1_append_of_some hp, by omega, hh, hpar, hsc, by omega, by omega⟩
  idlen := by
    intro n y hy
    rcases at1_append_cases hy with hy | ⟨rfl, rfl⟩
    · exact T.idlen n y hy
    · exact N.idlen
  inj := by
    intro n m y z hy hz he
    rcases at1_append_cases hy with hy' | ⟨h1, h2⟩ <;> rcases at1_append_cases hz with hz' | ⟨h3, h4⟩
    · exact T.inj n m y z hy' hz' he
    · exact absurd (h4 ▸ he) (N.fresh _ _ hy')
    · exact absurd (h2 ▸ he.symm) (N.fresh _ _ hz')
    · rw [h1, h3]

theorem TreeOK.parN_ge_one (T : TreeOK ns) {n : Nat} {x : Node} (h : at1 ns n = some x) (h1 : n ≠ 1) :
    ∃ p, at1 ns (parN ns n) = some p ∧ x.br.parent = p.br.id := by
  obtain ⟨p, hp, _, _, hh, _⟩ := T.node n x h h1
  exact ⟨p, by rw [parN_of_some h]; exact hp, hh⟩

/-! ### lookup by id -/

/-- number of the node with this id -/
def numOf (ns : List Node) (id : BlockID) : Option Nat :=
  (ns.findIdx? (fun x => decide (x.br.id = id.1))).map (· + 1)

theorem numOf_some {id : BlockID} {n : Nat} (h : numOf ns id = some n) :
    ∃ x, at1 ns n = some x ∧ x.br.id = id.1 := by
  simp only [numOf, Option.map_eq_some_iff] at h
  obtain ⟨i, hi, rfl⟩ := h
  obtain ⟨hlt, hp, _⟩ := List.findIdx?_eq_some_iff_getElem.mp hi
  exact ⟨ns[i], by simp, by simpa using hp⟩

theorem numOf_none {id : BlockID} (h : numOf ns id = none) {n : Nat} {x : Node} (hx : at1 ns n = some x) :
    x.br.id ≠ id.1 := by
  simp only [numOf, Option.map_eq_none_iff, List.findIdx?_eq_none_iff] at h
  have := h x (at1_mem hx)
  simpa using this

theorem TreeOK.numOf_eq (T : TreeOK ns) {id : BlockID} {n : Nat} {x : Node} (hx : at1 ns n = some x)
    (he : x.br.id = id.1) : numOf ns id = some n := by
  cases h : numOf ns id with
  | none => exact absurd he (numOf_none h hx)
  | some m =>
    obtain ⟨y, hy, hye⟩ := numOf_some h
    rw [T.inj m n y x hy hx (hye.trans he.symm)]

theorem numOf_append {x : Node} {id : BlockID} (hf : ∀ n y, at1 ns n = some y → y.br.id ≠ x.br.id) :
    numOf (ns ++ [x]) id = if id.1 = x.br.id then some (ns.length + 1) else numOf ns id := by
  simp only [numOf, List.findIdx?_append, List.findIdx?_cons, List.findIdx?_nil]
  by_cases he : id.1 = x.br.id
  · have : List.findIdx? (fun x => decide (x.br.id = id.1)) ns = none := by
      rw [List.findIdx?_eq_none_iff]
      intro y hy
      obtain ⟨n, hn⟩ := mem_at1 hy
      have := hf n y hn
      simp [he, this]
    rw [this]; simp [he]
  · simp [he, Ne.symm he]

end Verif.Chains
