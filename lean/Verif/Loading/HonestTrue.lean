import Verif.Loading.HonestSteps
import Verif.Chains.Genuine
/-
The history of an honest peer as a part of what is true: lemmas for property C97.
-/

set_option autoImplicit false

namespace Verif.Loading

open Verif
open Verif.Chains (Addr BlockID ProtoBlock MicroInv Linkage BlockRec getBlockByID)
open Verif.Chains.Spec (Stored blockScore Truth Holds)

variable {g : ProtoBlock} {n : Nat} {s0 : Nat} {ch : List ProtoBlock} {T : Truth}

/-- A true history: it begins with the genesis block, and its blocks are what their ids stand for. -/
structure TrueHistory (T : Truth) (g : ProtoBlock) (ch : List ProtoBlock) : Prop where
  history : History ch
  first : ch[0]? = some g
  real : ∀ b, b ∈ ch → T b.id = b

/-- the score of its first block -/
abbrev base (g : ProtoBlock) : Nat := blockScore g.baseTarget.toNat

theorem TrueHistory.other (H : TrueHistory T g ch) {k : Nat} {a : ProtoBlock} (ha : ch[k + 1]? = some a) : a.id ≠ g.id := by
  intro he
  have := H.history.index ha H.first he
  omega

theorem TrueHistory.below (H : TrueHistory T g ch) {k : Nat} {a : ProtoBlock} (ha : ch[k + 1]? = some a) :
    ∃ y, ch[k]? = some y ∧ (T a.id).parent = y.id ∧ T a.id = a := by
  have hlt := (List.getElem?_eq_some_iff.mp ha).1
  have hy : ch[k]? = some ch[k] := List.getElem?_eq_getElem (by omega)
  have ht := H.real a (List.mem_of_getElem? ha)
  exact ⟨_, hy, by rw [ht]; exact H.history.linked k _ _ hy ha, ht⟩

/-- the true record of a block of the history -/
theorem TrueHistory.fits (H : TrueHistory T g ch) (k : Nat) :
    ∀ a r, ch[k]? = some a → Chains.Spec.Genuine T g a.id r → Fits (base g) ch k r := by
  induction k with
  | zero =>
    intro a r ha hr
    rw [H.first] at ha; cases ha
    generalize hid : g.id = i at hr
    cases hr with
    | genesis ga hg => exact ⟨rfl, fun k a h => by cases h⟩
    | block _ r0 ga hne => exact absurd hid.symm hne
  | succ k ih =>
    intro a r ha hr
    obtain ⟨y, hy, hp, ht⟩ := H.below ha
    obtain ⟨r0, ga, h0, hg, rfl⟩ := hr.inv (H.other ha)
    rw [hp] at h0
    refine ⟨?_, ?_⟩
    · simp only
      rw [(ih y r0 hy h0).1, Loading.worth, ha, ht]
      simp only; omega
    · intro j y' hj hy'
      have : j = k := by omega
      subst this
      rw [hy] at hy'; cases hy'
      simp only [hp]

/-- a store that tells the truth is faithful to every true history -/
theorem TrueHistory.faithful (H : TrueHistory T g ch) {lk : Linkage} (h : Holds T g lk) (S : Serving g n lk) : Faithful (base g) ch lk.db where
  first := fun a ha => by rw [H.first] at ha; cases ha; exact S.genesis_stored
  fits := fun i b r hb hr => H.fits i b r hb (h.record _ _ hr)

theorem TrueHistory.genuine (H : TrueHistory T g ch) {x : ProtoBlock} (hx : T x.id = x) : Genuine ch x := by
  intro y hy he
  rw [← hx, ← he, H.real y hy]

theorem TrueHistory.micro (H : TrueHistory T g ch) {lk : Linkage} (h : Holds T g lk) (S : Serving g n lk) {inv : MicroInv}
    (hi : T inv.totalBlockID = { T inv.reference with id := inv.totalBlockID }) : GenuineMicro (base g) ch lk.db inv := by
  intro i b r hb hid hst hr hne
  have hrec := h.record _ _ hr
  have href : inv.reference ≠ g.id := by
    intro e
    generalize inv.reference = i at hrec e
    cases hrec with
    | genesis ga hg => exact hne rfl
    | block _ r0 ga hne' => exact hne' e
  obtain ⟨r0, ga, h0, hg, rfl⟩ := hrec.inv href
  cases i with
  | zero =>
    rw [H.first] at hb; cases hb
    exact absurd S.genesis_stored hst
  | succ k =>
    obtain ⟨y, hy, hp, ht⟩ := H.below hb
    rw [hid] at hi
    rw [hi] at hp ht
    have hp' : (T inv.reference).parent = y.id := hp
    rw [hp'] at h0
    refine ⟨?_, ?_⟩
    · simp only
      rw [(H.fits k y r0 hy h0).1, Loading.worth, hb]
      have : (T inv.reference).baseTarget = b.baseTarget := by rw [← ht]
      simp only [this]; omega
    · intro j y' hj hy'
      have : j = k := by omega
      subst this
      rw [hy] at hy'; cases hy'
      simp only [hp']

/-- the height that is stored -/
theorem TrueHistory.height (H : TrueHistory T g ch) {lk : Linkage} (h : Holds T g lk) (k : Nat) :
    ∀ a r, ch[k]? = some a → getBlockByID lk.db a.id = .ok r → r.height.toNat = k + 1 := by
  obtain ⟨ns, hs, R, _⟩ := Chains.reachable_rep h.reachable
  induction k with
  | zero =>
    intro a r ha hr
    rw [H.first] at ha; cases ha
    have hrec := h.record _ _ hr
    generalize hid : g.id = i at hrec
    cases hrec with
    | genesis ga hg => rfl
    | block _ r0 ga hne => exact absurd hid.symm hne
  | succ k ih =>
    intro a r ha hr
    obtain ⟨y, hy, hp, ht⟩ := H.below ha
    have hrec := h.record _ _ hr
    obtain ⟨r0, ga, h0, hg, he⟩ := hrec.inv (H.other ha)
    have hpar : r.parent = y.id.1 := by rw [he]; simp only [hp]
    rw [R.getBlockByID] at hr
    cases hn : Chains.numOf ns a.id with
    | none => rw [hn] at hr; cases hr
    | some m =>
      obtain ⟨x, hx, _⟩ := Chains.numOf_some hn
      rw [hn] at hr
      simp only [Option.bind_some, hx] at hr
      cases hr
      by_cases h1 : m = 1
      · subst h1
        obtain ⟨x', hx', _, _, _, hbot⟩ := R.tree.genesis
        rw [hx] at hx'; cases hx'
        rw [hbot] at hpar
        have := y.id.2
        rw [← hpar] at this
        rcases this with h | h <;> cases h
      · obtain ⟨p, hp1, _, hh, hpid, _⟩ := R.tree.node m x hx h1
        rw [hh, ih y p.br hy (R.getBlockByID_some (R.tree.numOf_eq hp1 (hpid.symm.trans hpar)) hp1)]

end Verif.Loading
