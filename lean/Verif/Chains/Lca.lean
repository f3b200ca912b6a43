import Verif.Chains.History
/-
`lca` under the representation invariant.
-/
set_option autoImplicit false

namespace Verif.Chains

open Verif KV Spec

variable {db : DB} {ns : List Node} {hs : List Nat}

theorem le_two_pow_clog2 (h : Nat) : h ≤ 2 ^ clog2 h := by
  have := lt_clog2 (i := clog2 h) (h := h)
  omega

theorem Rep.ht_lt (_R : Rep db ns hs) (n : Nat) : ht ns n < 2 ^ 32 := by
  cases h : at1 ns n with
  | none => rw [ht_of_none h]; decide
  | some x => rw [ht_of_some h]; exact x.br.height.toNat_lt

theorem Rep.goIndex_parents (_R : Rep db ns hs) {n i : Nat} (x : Node) (h : 2 ^ i < ht ns n) :
    goIndex (linkOf ns n x).parents i = .ok (UInt64.ofNat (up ns n (2 ^ i))) := by
  simp [goIndex, linkOf_parents_get n x h]

theorem Rep.getLink_up (R : Rep db ns hs) {n k : Nat} (h : k < ht ns n) :
    ∃ x, at1 ns (up ns n k) = some x ∧ getLink db (UInt64.ofNat (up ns n k)) = .ok (linkOf ns (up ns n k) x) := by
  obtain ⟨x, hx⟩ := ht_pos_some (ns := ns) (n := up ns n k) (by rw [R.tree.ht_up]; omega)
  exact ⟨x, hx, R.getLink_ofNat hx⟩

/-! ### equalising heights -/

theorem Rep.fbLoop (R : Rep db ns hs) (other : LinkRec) (h1 : 1 ≤ other.height.toNat) :
    ∀ (fuel k n : Nat) (x : Node), at1 ns n = some x → k ≤ fuel → k ≤ clog2 (ht ns n) →
      other.height.toNat ≤ ht ns n → ht ns n - other.height.toNat < 2 ^ k →
      ∃ y, at1 ns (up ns n (ht ns n - other.height.toNat)) = some y ∧
        fbLoop db other fuel k (linkOf ns n x) = .ok (linkOf ns (up ns n (ht ns n - other.height.toNat)) y) := by
  intro fuel
  induction fuel with
  | zero =>
    intro k n x hx hf hk hm hd
    have : k = 0 := by omega
    subst this
    have : ht ns n - other.height.toNat = 0 := by simp at hd; omega
    rw [this]
    exact ⟨x, hx, rfl⟩
  | succ fuel ih =>
    intro k n x hx hf hk hm hd
    cases k with
    | zero =>
      have : ht ns n - other.height.toNat = 0 := by simp at hd; omega
      rw [this]
      exact ⟨x, hx, rfl⟩
    | succ i =>
      have h2 := lt_clog2.mp (show i < clog2 (ht ns n) by omega)
      have hlt := R.ht_lt n
      have hsub : ((linkOf ns n x).height - UInt32.ofNat (2 ^ i)).toNat = ht ns n - 2 ^ i := by
        have e1 : (UInt32.ofNat (2 ^ i)).toNat = 2 ^ i := by
          simp only [UInt32.toNat_ofNat']; exact Nat.mod_eq_of_lt (by omega)
        have e2 : (linkOf ns n x).height.toNat = ht ns n := by rw [ht_of_some hx]; rfl
        rw [UInt32.toNat_sub_of_le, e1, e2]
        rw [UInt32.le_iff_toNat_le, e1, e2]; omega
      rw [Chains.fbLoop]
      by_cases hc : other.height.toNat ≤ ht ns n - 2 ^ i
      · have hcond : (linkOf ns n x).height - UInt32.ofNat (2 ^ i) ≥ other.height := by
          rw [ge_iff_le, UInt32.le_iff_toNat_le, hsub]; exact hc
        rw [if_pos hcond]
        rw [R.goIndex_parents x h2]
        obtain ⟨y, hy, hgl⟩ := R.getLink_up h2
        simp only [go_bind_ok, hgl]
        have hh := R.tree.ht_up n (2 ^ i)
        have hup : ∀ j, up ns (up ns n (2 ^ i)) j = up ns n (2 ^ i + j) := fun j => (up_add _ _ _).symm
        have harith : 2 ^ i + (ht ns (up ns n (2 ^ i)) - other.height.toNat) = ht ns n - other.height.toNat := by
          rw [hh]; omega
        rw [linkOf_parents_length]
        rw [Nat.pow_succ] at hd
        by_cases hi : i ≥ clog2 (ht ns (up ns n (2 ^ i)))
        · rw [if_pos hi]
          have hle := le_two_pow_clog2 (ht ns (up ns n (2 ^ i)))
          obtain ⟨z, hz, hres⟩ := ih (clog2 (ht ns (up ns n (2 ^ i)))) _ y hy (by omega) (Nat.le_refl _)
            (by rw [hh]; exact hc) (by omega)
          rw [hup, harith] at hz hres
          exact ⟨z, hz, hres⟩
        · rw [if_neg hi]
          obtain ⟨z, hz, hres⟩ := ih i _ y hy (by omega) (by omega) (by rw [hh]; exact hc) (by omega)
          rw [hup, harith] at hz hres
          exact ⟨z, hz, hres⟩
      · have hcond : ¬ ((linkOf ns n x).height - UInt32.ofNat (2 ^ i) ≥ other.height) := by
          rw [ge_iff_le, UInt32.le_iff_toNat_le, hsub]; exact hc
        rw [if_neg hcond]
        exact ih i n x hx (by omega) (by omega) hm (by omega)

theorem Rep.fastBackward (R : Rep db ns hs) {n m : Nat} {x y : Node} (hx : at1 ns n = some x) (hy : at1 ns m = some y)
    (h : ht ns m ≤ ht ns n) :
    ∃ z, at1 ns (up ns n (ht ns n - ht ns m)) = some z ∧
      fastBackwardFarthest db (linkOf ns n x) (linkOf ns m y) = .ok (linkOf ns (up ns n (ht ns n - ht ns m)) z) := by
  have hm : (linkOf ns m y).height.toNat = ht ns m := by rw [ht_of_some hy]; rfl
  have hpos := R.tree.ht_pos hy
  have hle := le_two_pow_clog2 (ht ns n)
  have := R.fbLoop (linkOf ns m y) (by omega) (clog2 (ht ns n)) (clog2 (ht ns n)) n x hx (Nat.le_refl _)
    (Nat.le_refl _) (by omega) (by omega)
  rw [hm] at this
  unfold fastBackwardFarthest
  rw [linkOf_parents_length]
  exact this

/-! ### the main loop -/

/-- the main loop runs into an index that does not exist, recursively -/
def LoopPanics : (k d h : Nat) → Prop
  | 0, _, _ => False
  | i + 1, d, h => if 2 ^ i < h then (if 2 ^ i ≤ d then LoopPanics i (d - 2 ^ i) (h - 2 ^ i) else LoopPanics i d h)
      else True

/-- `d + 1` is the distance of the meeting point of `n` and `m` -/
def Meet (ns : List Node) (n m d : Nat) : Prop :=
  up ns n (d + 1) = up ns m (d + 1) ∧ ∀ j, j ≤ d → up ns n j ≠ up ns m j

theorem Meet.ne_iff {n m d : Nat} (M : Meet ns n m d) (j : Nat) : up ns n j ≠ up ns m j ↔ j ≤ d := by
  constructor
  · intro h
    by_cases hj : j ≤ d
    · exact hj
    · exact absurd (up_eq_mono M.1 (by omega)) h
  · exact M.2 j

theorem Meet.shift {n m d j : Nat} (M : Meet ns n m d) (hj : j ≤ d) : Meet ns (up ns n j) (up ns m j) (d - j) := by
  constructor
  · rw [← up_add, ← up_add]
    have : j + (d - j + 1) = d + 1 := by omega
    rw [this]; exact M.1
  · intro i hi
    rw [← up_add, ← up_add]
    exact M.2 _ (by omega)

theorem ofNat64_inj {a b : Nat} (ha : a < 2 ^ 64) (hb : b < 2 ^ 64) : UInt64.ofNat a = UInt64.ofNat b ↔ a = b := by
  rw [← UInt64.toNat_inj, toNat_ofNat64 ha, toNat_ofNat64 hb]

theorem Rep.lcaLoop_panic_out (_R : Rep db ns hs) {k n m : Nat} {x y : Node}
    (h : ¬ 2 ^ k < ht ns n) : lcaLoop db (k + 1) (linkOf ns n x) (linkOf ns m y) = goPanic := by
  rw [lcaLoop]
  have : goIndex (linkOf ns n x).parents k = goPanic := by
    simp [goIndex, linkOf_parents_get_none (ns := ns) n x (i := k) (by omega)]
  rw [this]; rfl

open Classical in
theorem Rep.lcaLoop (R : Rep db ns hs) : ∀ (k n m d : Nat) (x y : Node), at1 ns n = some x → at1 ns m = some y →
    ht ns n = ht ns m → Meet ns n m d → d + 1 < ht ns n → d < 2 ^ k →
    ∃ x' y', at1 ns (up ns n d) = some x' ∧ at1 ns (up ns m d) = some y' ∧
      lcaLoop db k (linkOf ns n x) (linkOf ns m y) =
        if LoopPanics k d (ht ns n) then goPanic
        else .ok (linkOf ns (up ns n d) x', linkOf ns (up ns m d) y') := by
  intro k
  induction k with
  | zero =>
    intro n m d x y hx hy hh M hd hk
    have : d = 0 := by simp at hk; exact hk
    subst this
    exact ⟨x, y, hx, hy, by simp [Chains.lcaLoop, LoopPanics, up]⟩
  | succ i ih =>
    intro n m d x y hx hy hh M hd hk
    obtain ⟨x', hx', _⟩ := R.getLink_up (n := n) (k := d) (by omega)
    obtain ⟨y', hy', _⟩ := R.getLink_up (n := m) (k := d) (by omega)
    refine ⟨x', y', hx', hy', ?_⟩
    by_cases h2 : 2 ^ i < ht ns n
    · rw [Chains.lcaLoop, R.goIndex_parents x h2, R.goIndex_parents y (hh ▸ h2)]
      simp only [go_bind_ok]
      have hne : (UInt64.ofNat (up ns n (2 ^ i)) ≠ UInt64.ofNat (up ns m (2 ^ i))) ↔ 2 ^ i ≤ d := by
        rw [← M.ne_iff, Ne, Ne, ofNat64_inj (R.up_lt64 hx _) (R.up_lt64 hy _)]
      by_cases hj : 2 ^ i ≤ d
      · have hLP : LoopPanics (i + 1) d (ht ns n) = LoopPanics i (d - 2 ^ i) (ht ns n - 2 ^ i) := by
          simp [LoopPanics, h2, hj]
        rw [if_pos (hne.mpr hj)]
        simp only [hLP]
        obtain ⟨u, hu, hgu⟩ := R.getLink_up h2
        obtain ⟨v, hv, hgv⟩ := R.getLink_up (n := m) (hh ▸ h2)
        simp only [hgu, hgv, go_bind_ok]
        have hhu := R.tree.ht_up n (2 ^ i)
        have hhv := R.tree.ht_up m (2 ^ i)
        rw [Nat.pow_succ] at hk
        obtain ⟨x2, y2, hx2, hy2, hres⟩ := ih _ _ (d - 2 ^ i) u v hu hv (by rw [hhu, hhv, hh]) (M.shift hj)
          (by rw [hhu]; omega) (by omega)
        have e1 : up ns (up ns n (2 ^ i)) (d - 2 ^ i) = up ns n d := by
          rw [← up_add]; congr 1; omega
        have e2 : up ns (up ns m (2 ^ i)) (d - 2 ^ i) = up ns m d := by
          rw [← up_add]; congr 1; omega
        rw [e1] at hx2; rw [e2] at hy2
        rw [hx'] at hx2; rw [hy'] at hy2
        cases hx2; cases hy2
        rw [hres]
        simp only [hhu, e1, e2]
      · have hLP : LoopPanics (i + 1) d (ht ns n) = LoopPanics i d (ht ns n) := by
          simp [LoopPanics, h2, hj]
        rw [if_neg (fun h => hj (hne.mp h))]
        simp only [hLP]
        obtain ⟨x2, y2, hx2, hy2, hres⟩ := ih n m d x y hx hy hh M hd (by omega)
        rw [hx'] at hx2; rw [hy'] at hy2
        cases hx2; cases hy2
        exact hres
    · rw [R.lcaLoop_panic_out h2]
      simp [LoopPanics, h2]

/-- closed form of the panic condition: `c` is the height of the common ancestor and `d + 1` the
distance to it from the lower of the two blocks -/
def LcaPanics (c d : Nat) : Prop := ∃ i, 1 ≤ i ∧ d.testBit i = true ∧ d % 2 ^ i + c < 2 ^ (i - 1)

theorem loopPanics_iff : ∀ (k d h c : Nat), d < 2 ^ k → k ≤ clog2 h → h = c + d + 1 →
    (LoopPanics k d h ↔ LcaPanics c d) := by
  intro k
  induction k with
  | zero =>
    intro d h c hd hk hh
    have : d = 0 := by simp at hd; exact hd
    subst this
    simp [LoopPanics, LcaPanics]
  | succ i ih =>
    intro d h c hd hk hh
    have h2 := lt_clog2.mp (show i < clog2 h by omega)
    simp only [LoopPanics, h2, if_true]
    by_cases hj : 2 ^ i ≤ d
    · rw [if_pos hj]
      obtain ⟨e, rfl⟩ := Nat.exists_eq_add_of_le hj
      rw [Nat.pow_succ] at hd
      have he : e < 2 ^ i := by omega
      have e1 : 2 ^ i + e - 2 ^ i = e := by omega
      rw [e1]
      have hmod : (2 ^ i + e) % 2 ^ i = e := by rw [Nat.add_mod_left, Nat.mod_eq_of_lt he]
      have hbit : (2 ^ i + e).testBit i = true := by
        rw [Nat.testBit_two_pow_add_eq, Nat.testBit_lt_two_pow he]; rfl
      cases i with
      | zero =>
        simp only [LoopPanics, false_iff]
        rintro ⟨j, h1, hb, _⟩
        have : (2 ^ 0 + e).testBit j = false := Nat.testBit_lt_two_pow (by
          have : 2 ^ 1 ≤ 2 ^ j := Nat.pow_le_pow_right (by omega) h1
          omega)
        rw [this] at hb; cases hb
      | succ j =>
        by_cases hin : 2 ^ j < h - 2 ^ (j + 1)
        · have hcl : j + 1 ≤ clog2 (h - 2 ^ (j + 1)) := lt_clog2.mpr hin
          rw [ih e (h - 2 ^ (j + 1)) c he hcl (by omega)]
          constructor
          · rintro ⟨i', h1, hb, hlt⟩
            have hi' : i' < j + 1 := by
              by_cases h : i' < j + 1
              · exact h
              · have : e.testBit i' = false := Nat.testBit_lt_two_pow (Nat.lt_of_lt_of_le he
                  (Nat.pow_le_pow_right (by omega) (by omega)))
                rw [this] at hb; cases hb
            refine ⟨i', h1, by rw [Nat.testBit_two_pow_add_gt hi']; exact hb, ?_⟩
            have : (2 ^ (j + 1) + e) % 2 ^ i' = e % 2 ^ i' := by
              obtain ⟨r, hr⟩ := Nat.exists_eq_add_of_le (Nat.le_of_lt hi')
              rw [hr, Nat.pow_add, Nat.mul_add_mod]
            rw [this]; exact hlt
          · rintro ⟨i', h1, hb, hlt⟩
            have hle : i' ≤ j + 1 := by
              by_cases h : i' ≤ j + 1
              · exact h
              · have : (2 ^ (j + 1) + e).testBit i' = false := Nat.testBit_lt_two_pow (by
                  have : 2 ^ (j + 2) ≤ 2 ^ i' := Nat.pow_le_pow_right (by omega) (by omega)
                  have e3 : 2 ^ (j + 2) = 2 ^ (j + 1) * 2 := Nat.pow_succ 2 (j + 1)
                  omega)
                rw [this] at hb; cases hb
            by_cases hi' : i' = j + 1
            · subst hi'
              rw [hmod] at hlt
              simp only [Nat.add_sub_cancel] at hlt
              omega
            · have hi' : i' < j + 1 := by omega
              refine ⟨i', h1, by rw [Nat.testBit_two_pow_add_gt hi'] at hb; exact hb, ?_⟩
              have : (2 ^ (j + 1) + e) % 2 ^ i' = e % 2 ^ i' := by
                obtain ⟨r, hr⟩ := Nat.exists_eq_add_of_le (Nat.le_of_lt hi')
                rw [hr, Nat.pow_add, Nat.mul_add_mod]
              rw [this] at hlt; exact hlt
        · have hL : LoopPanics (j + 1) e (h - 2 ^ (j + 1)) := by simp [LoopPanics, hin]
          refine ⟨fun _ => ⟨j + 1, by omega, hbit, ?_⟩, fun _ => hL⟩
          rw [hmod]
          simp only [Nat.add_sub_cancel]
          omega
    · rw [if_neg hj]
      exact ih d h c (by omega) (by omega) hh

theorem not_lcaPanics_of_le {c d : Nat} (h : d ≤ 2 * c + 1) : ¬ LcaPanics c d := by
  rintro ⟨i, h1, hb, hlt⟩
  obtain ⟨j, rfl⟩ := Nat.exists_eq_add_of_le h1
  have hge := Nat.ge_two_pow_of_testBit hb
  rw [Nat.add_sub_cancel_left] at hlt
  have hp : 2 ^ (1 + j) = 2 ^ j * 2 := by rw [Nat.add_comm, Nat.pow_succ]
  rw [hp] at hge hlt
  have hm : d % (2 ^ j * 2) ≤ d - 2 ^ j * 2 := by
    obtain ⟨e, rfl⟩ := Nat.exists_eq_add_of_le hge
    rw [Nat.add_mod_left]
    have := Nat.mod_le e (2 ^ j * 2)
    omega
  have hpos := Nat.two_pow_pos j
  omega

/-! ### the meeting point -/

theorem TreeOK.exists_meet (T : TreeOK ns) {n m : Nat} (hh : ht ns n = ht ns m) (hpos : 1 ≤ ht ns n) (hne : n ≠ m) :
    ∃ d, Meet ns n m d ∧ d + 1 < ht ns n := by
  have key : ∀ k, (∀ j, j ≤ k → up ns n j ≠ up ns m j) ∨ ∃ d, d < k ∧ Meet ns n m d := by
    intro k
    induction k with
    | zero => left; intro j hj; have : j = 0 := by omega
              subst this; exact hne
    | succ k ih =>
      rcases ih with h | ⟨d, hd, M⟩
      · by_cases he : up ns n (k + 1) = up ns m (k + 1)
        · right; exact ⟨k, by omega, he, h⟩
        · left; intro j hj
          by_cases hjk : j = k + 1
          · subst hjk; exact he
          · exact h j (by omega)
      · right; exact ⟨d, by omega, M⟩
  rcases key (ht ns n - 1) with h | ⟨d, hd, M⟩
  · exfalso
    have h1 := T.ht_eq_one (n := up ns n (ht ns n - 1)) (by rw [T.ht_up]; omega)
    have h2 := T.ht_eq_one (n := up ns m (ht ns n - 1)) (by rw [T.ht_up]; omega)
    exact h _ (Nat.le_refl _) (h1.trans h2.symm)
  · exact ⟨d, M, by omega⟩

theorem newID_of_node (T : TreeOK ns) {n : Nat} {x : Node} (hx : at1 ns n = some x) :
    ∃ id : BlockID, id.1 = x.br.id ∧ newBlockIDFromBytes x.br.id = .ok id ∧ numOf ns id = some n := by
  refine ⟨⟨x.br.id, T.idlen n x hx⟩, rfl, ?_, T.numOf_eq hx rfl⟩
  simp [newBlockIDFromBytes, T.idlen n x hx]

/-- the node number of the lowest common ancestor of `n` and `m`, with the distance data -/
structure LcaData (ns : List Node) (n m c : Nat) : Prop where
  upn : ∃ i, up ns n i = c ∧ i < ht ns n
  upm : ∃ j, up ns m j = c ∧ j < ht ns m
  lowest : ∀ i j, i < ht ns n → j < ht ns m → up ns n i = up ns m j → ∃ k, k < ht ns c ∧ up ns c k = up ns n i

open Classical in
theorem Rep.lca_nums (R : Rep db ns hs) {id1 id2 : BlockID} {n m : Nat} (hn : numOf ns id1 = some n)
    (hm : numOf ns id2 = some m) :
    ∃ c cid, numOf ns cid = some c ∧ LcaData ns n m c ∧
      lca db id1 id2 = if LcaPanics (ht ns c) (min (ht ns n) (ht ns m) - ht ns c - 1) then goPanic else .ok cid := by
  obtain ⟨x, hx, _⟩ := numOf_some hn
  obtain ⟨y, hy, _⟩ := numOf_some hm
  have hnpos := R.tree.ht_pos hx
  have hmpos := R.tree.ht_pos hy
  -- normalise the order
  have core : ∀ (n m : Nat) (x y : Node), at1 ns n = some x → at1 ns m = some y → ht ns m ≤ ht ns n →
      ∃ c cid, numOf ns cid = some c ∧ LcaData ns n m c ∧
        (do
          let far ← fastBackwardFarthest db (linkOf ns n x) (linkOf ns m y)
          if far.blockID = (linkOf ns m y).blockID then newBlockIDFromBytes far.blockID
          else do
            let (far, _) ← Chains.lcaLoop db far.parents.length far (linkOf ns m y)
            let p ← goIndex far.parents 0
            let l ← getLink db p
            newBlockIDFromBytes l.blockID) =
          if LcaPanics (ht ns c) (ht ns m - ht ns c - 1) then goPanic else .ok cid := by
    intro n m x y hx hy hle
    have hmpos := R.tree.ht_pos hy
    obtain ⟨z, hz, hfb⟩ := R.fastBackward hx hy hle
    rw [hfb]
    simp only [go_bind_ok]
    have hha : ht ns (up ns n (ht ns n - ht ns m)) = ht ns m := by rw [R.tree.ht_up]; omega
    by_cases heq : up ns n (ht ns n - ht ns m) = m
    · -- the lower block is an ancestor
      rw [heq] at hz
      rw [hy] at hz; cases hz
      obtain ⟨cid, hcid, hnew, hnum⟩ := newID_of_node R.tree hy
      refine ⟨m, cid, hnum, ⟨⟨_, heq, by omega⟩, ⟨0, rfl, by omega⟩, ?_⟩, ?_⟩
      · intro i j hi hj he
        exact ⟨j, hj, he.symm⟩
      · have hnp : ¬ LcaPanics (ht ns m) (ht ns m - ht ns m - 1) := by
          rintro ⟨i, _, hb, _⟩
          have : ht ns m - ht ns m - 1 = 0 := by omega
          rw [this] at hb; simp at hb
        rw [if_neg hnp, heq]
        have : (linkOf ns m y).blockID = (linkOf ns m y).blockID := rfl
        rw [if_pos this]
        exact hnew
    · obtain ⟨d, M, hd⟩ := R.tree.exists_meet hha (by omega) heq
      rw [hha] at hd
      have hidne : (linkOf ns (up ns n (ht ns n - ht ns m)) z).blockID ≠ (linkOf ns m y).blockID := by
        intro he
        exact heq (R.tree.inj _ _ z y hz hy he)
      rw [if_neg hidne]
      have hlt2 : d < 2 ^ clog2 (ht ns m) := by
        have := le_two_pow_clog2 (ht ns m); omega
      obtain ⟨x', y', hx', hy', hloop⟩ := R.lcaLoop (clog2 (ht ns m)) _ m d z y hz hy hha M (by rw [hha]; exact hd) hlt2
      rw [linkOf_parents_length, hha, hloop]
      -- the common ancestor
      have hupc : ∃ w, at1 ns (up ns m (d + 1)) = some w ∧ getLink db (UInt64.ofNat (up ns m (d + 1)))
          = .ok (linkOf ns (up ns m (d + 1)) w) := R.getLink_up hd
      obtain ⟨w, hw, hgw⟩ := hupc
      obtain ⟨cid, hcid, hnew, hnum⟩ := newID_of_node R.tree hw
      have hhc : ht ns (up ns m (d + 1)) = ht ns m - (d + 1) := R.tree.ht_up _ _
      have hnc : up ns n (ht ns n - ht ns m + (d + 1)) = up ns m (d + 1) := by rw [up_add]; exact M.1
      refine ⟨up ns m (d + 1), cid, hnum, ⟨⟨_, hnc, by omega⟩, ⟨d + 1, rfl, hd⟩, ?_⟩, ?_⟩
      · intro i j hi hj he
        have hhe := congrArg (ht ns) he
        rw [R.tree.ht_up, R.tree.ht_up] at hhe
        have hi2 : i = ht ns n - ht ns m + j := by omega
        have hj2 : d + 1 ≤ j := by
          by_cases h : j ≤ d
          · exact absurd (by rw [← up_add, ← hi2]; exact he) (M.2 j h)
          · omega
        refine ⟨j - (d + 1), by omega, ?_⟩
        rw [← up_add, he]; congr 1; omega
      · have hP : LoopPanics (clog2 (ht ns m)) d (ht ns m) ↔
            LcaPanics (ht ns (up ns m (d + 1))) (ht ns m - ht ns (up ns m (d + 1)) - 1) := by
          have e : ht ns m - ht ns (up ns m (d + 1)) - 1 = d := by omega
          rw [e]
          exact loopPanics_iff _ _ _ _ hlt2 (Nat.le_refl _) (by omega)
        rw [hha]
        by_cases hp : LoopPanics (clog2 (ht ns m)) d (ht ns m)
        · rw [if_pos hp, if_pos (hP.mp hp)]; rfl
        · rw [if_neg hp, if_neg (fun h => hp (hP.mpr h))]
          simp only [go_bind_ok]
          have hhx' : ht ns (up ns (up ns n (ht ns n - ht ns m)) d) = ht ns m - d := by rw [R.tree.ht_up, hha]
          rw [R.goIndex_parents x' (i := 0) (by rw [hhx']; simp; omega)]
          simp only [go_bind_ok]
          have : up ns (up ns (up ns n (ht ns n - ht ns m)) d) (2 ^ 0) = up ns m (d + 1) := by
            rw [← up_add]; exact M.1
          rw [this, hgw]
          exact hnew
  unfold lca
  rw [R.getLinkByID hn hx, R.getLinkByID hm hy]
  simp only [go_bind_ok]
  have e1 : (linkOf ns n x).height.toNat = ht ns n := by rw [ht_of_some hx]; rfl
  have e2 : (linkOf ns m y).height.toNat = ht ns m := by rw [ht_of_some hy]; rfl
  by_cases hlt : (linkOf ns n x).height < (linkOf ns m y).height
  · have hlt' : ht ns n < ht ns m := by rw [UInt32.lt_iff_toNat_lt, e1, e2] at hlt; exact hlt
    simp only [if_pos hlt]
    obtain ⟨c, cid, hc, D, hres⟩ := core m n y x hy hx (by omega)
    refine ⟨c, cid, hc, ⟨D.upm, D.upn, ?_⟩, ?_⟩
    · intro i j hi hj he
      obtain ⟨k, hk, hk2⟩ := D.lowest j i hj hi he.symm
      exact ⟨k, hk, hk2.trans he.symm⟩
    · rw [Nat.min_eq_left (by omega)]; exact hres
  · have hge : ht ns m ≤ ht ns n := by rw [UInt32.lt_iff_toNat_lt, e1, e2] at hlt; omega
    simp only [if_neg hlt]
    obtain ⟨c, cid, hc, D, hres⟩ := core n m x y hx hy hge
    refine ⟨c, cid, hc, D, ?_⟩
    rw [Nat.min_eq_right hge]; exact hres

/-! ### the ancestor relation -/

theorem Rep.isParent_iff (R : Rep db ns hs) {p c : BlockID} {n : Nat} (hn : numOf ns c = some n) :
    IsParent db p c ↔ n ≠ 1 ∧ numOf ns p = some (parN ns n) := by
  obtain ⟨x, hx, hxe⟩ := numOf_some hn
  unfold IsParent
  rw [R.getBlockByID_some hn hx]
  by_cases h1 : n = 1
  · subst h1
    obtain ⟨g, hg, _, _, _, hpar⟩ := R.tree.genesis
    rw [hx] at hg; cases hg
    simp only [Except.ok.injEq, exists_eq_left', ne_eq, not_true, false_and, iff_false, hpar]
    intro h
    have := p.2; rw [← h] at this; simp at this
  · obtain ⟨q, hq, hqp⟩ := R.tree.parN_ge_one hx h1
    simp only [Except.ok.injEq, exists_eq_left', ne_eq, h1, not_false_eq_true, true_and, hqp]
    constructor
    · intro h; exact R.tree.numOf_eq hq h
    · intro h
      obtain ⟨z, hz, hze⟩ := numOf_some h
      rw [hq] at hz; cases hz; exact hze

theorem Rep.anc_iff (R : Rep db ns hs) {a b : BlockID} {n : Nat} (hn : numOf ns b = some n) :
    Anc db a b ↔ ∃ k, k < ht ns n ∧ numOf ns a = some (up ns n k) := by
  constructor
  · intro h
    induction h generalizing n with
    | refl =>
      obtain ⟨x, hx, _⟩ := numOf_some hn
      exact ⟨0, R.tree.ht_pos hx, hn⟩
    | step h hp ih =>
      obtain ⟨h1, hpn⟩ := (R.isParent_iff hn).mp hp
      obtain ⟨k, hk, hk2⟩ := ih hpn
      rw [R.tree.ht_parN] at hk
      refine ⟨k + 1, by omega, ?_⟩
      rw [hk2]
      have : parN ns n = up ns n 1 := rfl
      rw [this, ← up_add, Nat.add_comm]
  · rintro ⟨k, hk, hk2⟩
    induction k generalizing n b with
    | zero =>
      obtain ⟨x, hx, hxe⟩ := numOf_some hn
      obtain ⟨y, hy, hye⟩ := numOf_some hk2
      simp only [up] at hy
      rw [hx] at hy; cases hy
      have : a = b := Subtype.ext (hye.symm.trans hxe)
      subst this; exact .refl _
    | succ k ih =>
      obtain ⟨x, hx, hxe⟩ := numOf_some hn
      have h1 : n ≠ 1 := by
        rintro rfl
        obtain ⟨g, hg, _, _, hh, _⟩ := R.tree.genesis
        rw [hx] at hg; cases hg
        rw [ht_of_some hx, hh] at hk
        simp at hk
      obtain ⟨q, hq, hqp⟩ := R.tree.parN_ge_one hx h1
      obtain ⟨pid, hpid, _, hpn⟩ := newID_of_node R.tree hq
      have : up ns n (k + 1) = up ns (parN ns n) k := by
        rw [Nat.add_comm, up_add]; rfl
      rw [this] at hk2
      refine .step (ih hpn (by rw [R.tree.ht_parN]; omega) hk2) ?_
      exact (R.isParent_iff hn).mpr ⟨h1, hpn⟩

theorem Rep.isLCA (R : Rep db ns hs) {a b c : BlockID} {n m k : Nat} (hn : numOf ns a = some n) (hm : numOf ns b = some m)
    (hc : numOf ns c = some k) (D : LcaData ns n m k) : IsLCA db a b c := by
  refine ⟨(R.anc_iff hn).mpr ?_, (R.anc_iff hm).mpr ?_, ?_⟩
  · obtain ⟨i, hi, hlt⟩ := D.upn
    exact ⟨i, hlt, hi ▸ hc⟩
  · obtain ⟨i, hi, hlt⟩ := D.upm
    exact ⟨i, hlt, hi ▸ hc⟩
  · intro d hda hdb
    obtain ⟨i, hi, hi2⟩ := (R.anc_iff hn).mp hda
    obtain ⟨j, hj, hj2⟩ := (R.anc_iff hm).mp hdb
    obtain ⟨r, hr, hr2⟩ := D.lowest i j hi hj (by rw [hi2] at hj2; exact Option.some.inj hj2)
    exact (R.anc_iff hc).mpr ⟨r, hr, by rw [hr2]; exact hi2⟩

theorem Rep.heightOf (R : Rep db ns hs) {a : BlockID} {n h : Nat} (hn : numOf ns a = some n) :
    HeightOf db a h ↔ ht ns n = h := by
  obtain ⟨x, hx, _⟩ := numOf_some hn
  simp [HeightOf, R.getBlockByID_some hn hx, ht_of_some hx]

theorem Rep.stored_iff (R : Rep db ns hs) {a : BlockID} : Stored db a ↔ ∃ n, numOf ns a = some n := by
  simp [Stored, HasBlock, R.hasBlock, Option.isSome_iff_exists]

end Verif.Chains
