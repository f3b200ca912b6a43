import Verif.Chains.Edges
import Verif.Chains.Examples
import Verif.Chains.Shapes
/-
Property C13: the last common block of two chains.
-/
set_option autoImplicit false

namespace Verif.Props

open Verif KV Chains Spec

/-- two blocks have at most one lowest common ancestor -/
theorem C13_unique {g : ProtoBlock} {l : Linkage} (h : Reachable g l) {a b c c' : BlockID} (ha : Stored l.db a)
    (h1 : IsLCA l.db a b c) (h2 : IsLCA l.db a b c') : c = c' := by
  obtain ⟨ns, hs, R, _⟩ := reachable_rep h
  have k1 := h2.2.2 c h1.1 h1.2.1
  have k2 := h1.2.2 c' h2.1 h2.2.1
  obtain ⟨n, hn⟩ := R.stored_iff.mp ha
  obtain ⟨i, _, hc⟩ := (R.anc_iff hn).mp h1.1
  obtain ⟨j, _, hc'⟩ := (R.anc_iff hn).mp h2.1
  obtain ⟨p, _, e1⟩ := (R.anc_iff hc').mp k1
  obtain ⟨q, _, e2⟩ := (R.anc_iff hc).mp k2
  have l1 := R.tree.up_le (up ns n j) p
  have l2 := R.tree.up_le (up ns n i) q
  rw [hc] at e1
  rw [hc'] at e2
  have e1 := Option.some.inj e1
  have e2 := Option.some.inj e2
  have : up ns n i = up ns n j := by omega
  obtain ⟨x, hx, hxe⟩ := numOf_some hc
  obtain ⟨y, hy, hye⟩ := numOf_some hc'
  rw [this, hy] at hx; cases hx
  exact Subtype.ext (hxe.symm.trans hye)

/-- The comparison of two stored blocks never gives a wrong answer or an error: it returns the lowest
common ancestor, or panics, and it panics exactly if `LcaPanics c d`, where `c` is the height of the
lowest common ancestor and `d` is one less than the distance from it to the lower of the two blocks. -/
theorem C13_lca_exact {g : ProtoBlock} {l : Linkage} (h : Reachable g l) (a b : BlockID) (ha : Stored l.db a)
    (hb : Stored l.db b) (hta htb : Nat) (hha : HeightOf l.db a hta) (hhb : HeightOf l.db b htb) :
    ∃ c htc, IsLCA l.db a b c ∧ HeightOf l.db c htc ∧ htc ≤ hta ∧ htc ≤ htb ∧
      (LcaPanics htc (min hta htb - htc - 1) → lca l.db a b = goPanic) ∧
      (¬ LcaPanics htc (min hta htb - htc - 1) → lca l.db a b = .ok c) := by
  obtain ⟨ns, hs, R, _⟩ := reachable_rep h
  obtain ⟨n, hn⟩ := R.stored_iff.mp ha
  obtain ⟨m, hm⟩ := R.stored_iff.mp hb
  rw [R.heightOf hn] at hha
  rw [R.heightOf hm] at hhb
  subst hha hhb
  obtain ⟨c, cid, hc, D, e⟩ := R.lca_nums hn hm
  refine ⟨cid, ht ns c, R.isLCA hn hm hc D, (R.heightOf hc).mpr rfl, ?_, ?_, ?_, ?_⟩
  · obtain ⟨i, rfl, _⟩ := D.upn; rw [R.tree.ht_up]; omega
  · obtain ⟨i, rfl, _⟩ := D.upm; rw [R.tree.ht_up]; omega
  · intro hp; rw [e, if_pos hp]
  · intro hp; rw [e, if_neg hp]

/-- What holds of the claim: if the lower block is at most 2 * (height of the last common block) + 2 above
the last common block, the comparison answers with the lowest common ancestor.  In particular
this covers every pair with a block on the other's chain, and all forks not longer than the common
part.  Missing: the two branches may be longer, then the comparison may panic
(`C13_panics`). -/
theorem C13_lca_partial {g : ProtoBlock} {l : Linkage} (h : Reachable g l) (a b c : BlockID) (ha : Stored l.db a)
    (hb : Stored l.db b) (hta htb htc : Nat) (hha : HeightOf l.db a hta) (hhb : HeightOf l.db b htb)
    (hc : IsLCA l.db a b c) (hhc : HeightOf l.db c htc) (hd : min hta htb ≤ 3 * htc + 2) :
    lca l.db a b = .ok c := by
  obtain ⟨c', htc', h1, h2, _, _, _, h3⟩ := C13_lca_exact h a b ha hb hta htb hha hhb
  have := C13_unique h ha hc h1
  subst this
  have : htc = htc' := by
    obtain ⟨r, hr, rfl⟩ := hhc
    obtain ⟨r', hr', rfl⟩ := h2
    rw [hr] at hr'; cases hr'; rfl
  subst this
  exact h3 (not_lcaPanics_of_le (by omega))

/-- two branches of five blocks each on top of the genesis block -/
def twoBranches : List Op :=
  [Ex.pb 1 0 1, Ex.pb 2 1 1, Ex.pb 3 2 1, Ex.pb 4 3 1, Ex.pb 5 4 1,
   Ex.pb 11 0 2, Ex.pb 12 11 2, Ex.pb 13 12 2, Ex.pb 14 13 2, Ex.pb 15 14 2]

/-- The claim fails: on two branches that split right after genesis the comparison of the heads
panics. -/
theorem C13_panics : ∃ l a b, Reachable Ex.g0 l ∧ Stored l.db a ∧ Stored l.db b ∧ lca l.db a b = goPanic := by
  refine ⟨exec Ex.l0 twoBranches, Ex.bid 5, Ex.bid 15, ⟨Ex.l0, _, Ex.fresh, by decide +kernel, rfl⟩, ?_, ?_, ?_⟩
  · unfold Stored; decide +kernel
  · unfold Stored; decide +kernel
  · decide +kernel

/-- Every length of the common part and of the branches happens: for every height `c` of the last common block and every `d` there are a
store and two blocks of it, both `d + 1` blocks above their last common block.  The comparison of the two panics exactly if
`LcaPanics c d`. -/
theorem C13_shapes (c d : Nat) (hc : 1 ≤ c) (hroom : c + 2 * d + 3 < 2 ^ 32) : ∃ l a b x, Reachable Ex.g0 l ∧ Stored l.db a ∧
    Stored l.db b ∧ IsLCA l.db a b x ∧ HeightOf l.db x c ∧ HeightOf l.db a (c + d + 1) ∧ HeightOf l.db b (c + d + 1) ∧
    (lca l.db a b = goPanic ↔ LcaPanics c d) := by
  have ha := @Shape.stored c d hroom (c + d) (by omega)
  have hb := @Shape.stored c d hroom (c + 2 * d + 1) (by omega)
  have hl := @Shape.isLCA c d hc hroom
  have R := (told_holds (@Shape.told c d hroom)).reachable
  have h1 := @Shape.heightOf c d hc hroom (c - 1) (by omega)
  have h2 := @Shape.heightOf c d hc hroom (c + d) (by omega)
  have h3 := @Shape.heightOf c d hc hroom (c + 2 * d + 1) (by omega)
  rw [show Shape.height c d (c - 1) = c by unfold Shape.height; split <;> omega] at h1
  rw [show Shape.height c d (c + d) = c + d + 1 by unfold Shape.height; split <;> omega] at h2
  rw [show Shape.height c d (c + 2 * d + 1) = c + d + 1 by unfold Shape.height; split <;> omega] at h3
  refine ⟨_, _, _, _, R, ha, hb, hl, h1, h2, h3, ?_⟩
  obtain ⟨x, hx, k1, k2, _, _, k3, k4⟩ := C13_lca_exact R _ _ ha hb _ _ h2 h3
  have := C13_unique R ha hl k1
  subst this
  have : c = hx := by
    obtain ⟨r, hr, e⟩ := h1
    obtain ⟨r', hr', e'⟩ := k2
    rw [hr] at hr'; cases hr'; omega
  subst this
  rw [show min (c + d + 1) (c + d + 1) - c - 1 = d by omega] at k3 k4
  refine ⟨fun e => ?_, k3⟩
  by_cases hp : LcaPanics c d
  · exact hp
  · rw [k4 hp] at e; exact absurd e (by unfold goPanic; simp)

/-- The failure is not rare: for a last common block at any height `c` there are a store and two of its blocks, at most `4 * c + 1` blocks
above their last common block, that cannot be compared. -/
theorem C13_panics_at_every_height (c : Nat) (hc : 1 ≤ c) (hroom : 9 * c + 3 < 2 ^ 32) : ∃ l a b x h, Reachable Ex.g0 l ∧ Stored l.db a ∧
    Stored l.db b ∧ IsLCA l.db a b x ∧ HeightOf l.db x c ∧ HeightOf l.db a h ∧ HeightOf l.db b h ∧ h ≤ c + (4 * c + 1) ∧
    lca l.db a b = goPanic := by
  have h1 : c < 2 ^ (c.log2 + 1) := Nat.lt_log2_self
  have h2 : 2 ^ c.log2 ≤ c := Nat.log2_self_le (by omega)
  have h3 : 2 ^ (c.log2 + 2) = 4 * 2 ^ c.log2 := by rw [Nat.pow_add]; omega
  obtain ⟨l, a, b, x, k1, k2, k3, k4, k5, k6, k7, k8⟩ := C13_shapes c (2 ^ (c.log2 + 2)) hc (by omega)
  refine ⟨l, a, b, x, _, k1, k2, k3, k4, k5, k6, k7, by omega, k8.mpr ⟨c.log2 + 2, by omega, by simp [Nat.testBit_two_pow_self], ?_⟩⟩
  rw [Nat.mod_self]
  simpa using h1

example : Reachable Ex.g0 Ex.l1 ∧ Stored Ex.l1.db (Ex.bid 5) ∧ Stored Ex.l1.db (Ex.bid 4) ∧
    lca Ex.l1.db (Ex.bid 5) (Ex.bid 4) = .ok (Ex.bid 1) :=
  ⟨Ex.reach1, by unfold Stored; decide +kernel, by unfold Stored; decide +kernel, by decide +kernel⟩

end Verif.Props
