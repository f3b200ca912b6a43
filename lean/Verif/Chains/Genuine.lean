import Verif.Chains.Order
import Verif.Chains.Frame
/-
Blocks that are what they claim to be.
-/
set_option autoImplicit false

namespace Verif.Chains.Spec

open Verif

/-- What every block id stands for.  The program does not check it: the id of a block in the old format is its signature, which is not
verified, and the id in a micro-block announcement is whatever the sender writes. -/
abbrev Truth := BlockID → ProtoBlock

/-- The delivery tells the truth: a block has the contents that its id stands for, and the total block id of a micro-block stands for
the contents of the block it refers to, under the new id. -/
def Truthful (T : Truth) : Op → Prop
  | .putBlock b _ _ _ => T b.id = b
  | .putMicro inv _ _ _ => T inv.totalBlockID = { T inv.reference with id := inv.totalBlockID }
  | .moveLeash _ _ _ => True
  | .reopen _ _ => True

/-- The record that a block has to have, by what the ids stand for: height and score are counted along the true chain. -/
inductive Genuine (T : Truth) (g : ProtoBlock) : BlockID → BlockRec → Prop where
  | genesis (ga : WavesAddr) (hg : g.generator = some ga) :
      Genuine T g g.id ⟨1, g.timestamp, blockScore g.baseTarget.toNat, g.id.1, [], ga⟩
  | block (id : BlockID) (r : BlockRec) (ga : WavesAddr) (hne : id ≠ g.id) (hp : Genuine T g (T id).parent r)
      (hg : (T id).generator = some ga) :
      Genuine T g id ⟨r.height + 1, (T id).timestamp, blockScore (T id).baseTarget.toNat + r.score, id.1, (T id).parent.1, ga⟩

/-- there is only one such record -/
theorem Genuine.unique {T : Truth} {g : ProtoBlock} {id : BlockID} {r r' : BlockRec} (h : Genuine T g id r) (h' : Genuine T g id r') : r = r' := by
  induction h generalizing r' with
  | genesis ga hg =>
    cases h' with
    | genesis ga' hg' => rw [hg] at hg'; cases hg'; rfl
    | block id r ga hne => exact absurd rfl hne
  | block id r ga hne hp hg ih =>
    generalize hid : id = id' at h'
    cases h' with
    | genesis ga' hg' => exact absurd hid hne
    | block id' r1 ga' hne' hp' hg' =>
      subst hid
      rw [hg] at hg'; cases hg'
      rw [ih hp']

theorem Genuine.inv {T : Truth} {g : ProtoBlock} {id : BlockID} {r : BlockRec} (h : Genuine T g id r) (hne : id ≠ g.id) :
    ∃ r0 ga, Genuine T g (T id).parent r0 ∧ (T id).generator = some ga ∧
      r = ⟨r0.height + 1, (T id).timestamp, blockScore (T id).baseTarget.toNat + r0.score, id.1, (T id).parent.1, ga⟩ := by
  cases h with
  | genesis => exact absurd rfl hne
  | block _ r0 ga _ hp hg => exact ⟨r0, ga, hp, hg, rfl⟩

/-- A store to which only the truth was told, in any order, by any peers, with any writes failing or interrupted. -/
def Told (T : Truth) (g : ProtoBlock) (l : Linkage) : Prop :=
  ∃ l0 ops, Fresh g l0 ∧ inserts ops + 2 < 2 ^ 32 ∧ (∀ o, o ∈ ops → Truthful T o) ∧ l = exec l0 ops

/-- The store tells the truth: whatever is recorded of a block is what the block has to have. -/
structure Holds (T : Truth) (g : ProtoBlock) (l : Linkage) : Prop where
  reachable : Reachable g l
  record : ∀ id r, getBlockByID l.db id = .ok r → Genuine T g id r

/-- `a` is `b` or a block below it on the true chain -/
inductive Below (T : Truth) (g : ProtoBlock) : BlockID → BlockID → Prop where
  | refl (a : BlockID) : Below T g a a
  | step {a b : BlockID} (hne : b ≠ g.id) (h : Below T g a (T b).parent) : Below T g a b

/-- the true chain down from a block: at most the given number of ids, ending at the genesis block -/
def chainDown (T : Truth) (g : ProtoBlock) : Nat → BlockID → List BlockID
  | 0, _ => []
  | n + 1, id => id :: if id = g.id then [] else chainDown T g n (T id).parent

/-- going down the true chain from `a`, the block `b` is reached after the given number of steps -/
inductive Steps (T : Truth) (g : ProtoBlock) : Nat → BlockID → BlockID → Prop where
  | zero (a : BlockID) : Steps T g 0 a a
  | succ {k : Nat} {a b : BlockID} (hne : a ≠ g.id) (h : Steps T g k (T a).parent b) : Steps T g (k + 1) a b

/-- `c` is the last block that the true chains of `a` and `b` have in common -/
def LastCommon (T : Truth) (g : ProtoBlock) (a b c : BlockID) : Prop :=
  Below T g c a ∧ Below T g c b ∧ ∀ d, Below T g d a → Below T g d b → Below T g d c

end Verif.Chains.Spec

namespace Verif.Chains

open Verif KV Spec

variable {db : DB} {ns : List Node} {hs : List Nat}

theorem calculateScore_ok {bt : UInt64} {sc : Nat} (h : calculateScore bt = .ok sc) : sc = blockScore bt.toNat := by
  by_cases hbt : bt.toNat < 2 ^ 63
  · rw [calculateScore_eq hbt] at h; cases h; rfl
  · rw [calculateScore_panics (by omega)] at h; cases h

theorem Rep.genuine {T : Truth} {g : ProtoBlock} {ga : WavesAddr} {sc : Nat} {ops : List Op} (R : Rep db ns hs) (O : Origin ns ops)
    (h1 : at1 ns 1 = some (genesisNode g ga sc)) (hga : g.generator = some ga) (hsc : calculateScore g.baseTarget = .ok sc)
    (ht : ∀ o, o ∈ ops → Truthful T o) : ∀ (n : Nat) (x : Node) (id : BlockID), at1 ns n = some x → x.br.id = id.1 → Genuine T g id x.br := by
  intro n
  induction n using Nat.strongRecOn with
  | _ n ih =>
    intro x id hx hid
    by_cases hn : n = 1
    · subst hn
      rw [h1] at hx
      cases hx
      have e : id = g.id := Subtype.ext hid.symm
      subst e
      have := Genuine.genesis (T := T) ga hga
      rw [← calculateScore_ok hsc] at this
      exact this
    · have hne : id ≠ g.id := by
        rintro rfl
        exact hn (R.tree.inj n 1 x _ hx h1 hid)
      obtain ⟨o, i, c, ho, hc, hm⟩ := O n x hx hn
      have hi : i = id := Subtype.ext (hm.id.symm.trans hid)
      subst hi
      obtain ⟨p, hp, hlt, _⟩ := R.tree.node n x hx hn
      cases o with
      | putBlock b a f1 f2 =>
        cases hc
        obtain ⟨_, q, y, ga', sc', hq, hy, hg', hsc', rfl⟩ := hm
        have hT : T b.id = b := ht _ ho
        have hq1 : q < n := hlt
        obtain ⟨y', hy', hyid⟩ := numOf_some hq
        rw [hy] at hy'; cases hy'
        have hpar := ih q hq1 y b.parent hy hyid
        have := Genuine.block (T := T) (g := g) b.id y.br ga' hne (by rw [hT]; exact hpar) (by rw [hT]; exact hg')
        rw [hT, ← calculateScore_ok hsc'] at this
        exact this
      | putMicro inv a f1 f2 =>
        cases hc
        obtain ⟨q, y, hq, hy, hq1, rfl⟩ := hm
        have hT : T inv.totalBlockID = { T inv.reference with id := inv.totalBlockID } := ht _ ho
        obtain ⟨y', hy', hyid⟩ := numOf_some hq
        rw [hy] at hy'; cases hy'
        have hext : q < n := by
          obtain ⟨_, _, _, _, _, _, _, he⟩ := R.tree.node n _ hx hn
          exact he
        have href := ih q hext y inv.reference hy hyid
        have hrne : inv.reference ≠ g.id := by
          intro e
          exact hq1 (R.tree.inj q 1 y _ hy h1 (by rw [hyid, e]; rfl))
        show Genuine T g inv.totalBlockID { y.br with id := inv.totalBlockID.1 }
        obtain ⟨r, ga', hp', hg', e⟩ := href.inv hrne
        rw [e]
        have := Genuine.block (T := T) (g := g) inv.totalBlockID r ga' hne (by rw [hT]; exact hp') (by rw [hT]; exact hg')
        rw [hT] at this
        exact this
      | moveLeash i a f => cases hc
      | reopen g' f => cases hc

/-- a store that only the truth was told to -/
theorem genuine_exec {T : Truth} {g : ProtoBlock} {l0 : Linkage} (hf : Fresh g l0) {ops : List Op} (hb : inserts ops + 2 < 2 ^ 32)
    (ht : ∀ o, o ∈ ops → Truthful T o) {id : BlockID} {r : BlockRec} (h : getBlockByID (exec l0 ops).db id = .ok r) : Genuine T g id r := by
  obtain ⟨ga, sc, hga, hsc, _, R0⟩ := fresh_rep hf
  have O0 : Origin [genesisNode g ga sc] [] := by
    intro n x hx h1
    have := at1_le hx
    simp at this; omega
  obtain ⟨ns, hs, R, O, p1, _⟩ := R0.exec_origin O0 ops (by simp; omega)
  have e1 : at1 ns 1 = some (genesisNode g ga sc) := by obtain ⟨t, rfl⟩ := p1; rfl
  rw [R.getBlockByID] at h
  cases hn : numOf ns id with
  | none => rw [hn] at h; cases h
  | some n =>
    obtain ⟨x, hx, hid⟩ := numOf_some hn
    rw [hn] at h
    simp only [Option.bind_some, hx] at h
    cases h
    exact R.genuine (by simpa using O) e1 hga hsc ht n x id hx hid

theorem told_holds {T : Truth} {g : ProtoBlock} {l : Linkage} (h : Told T g l) : Holds T g l := by
  obtain ⟨l0, ops, hf, hb, ht, rfl⟩ := h
  exact ⟨⟨l0, ops, hf, hb, rfl⟩, fun id r hr => genuine_exec hf hb ht hr⟩

theorem record_of_stored {g : ProtoBlock} {l : Linkage} (h : Reachable g l) {id : BlockID} (hs : Stored l.db id) :
    ∃ r, getBlockByID l.db id = .ok r := by
  obtain ⟨ns, hds, R, _⟩ := reachable_rep h
  obtain ⟨n, hn⟩ := R.stored_iff.mp hs
  obtain ⟨x, hx, _⟩ := numOf_some hn
  exact ⟨_, R.getBlockByID_some hn hx⟩

theorem Rep.length_unique {ns' : List Node} {hs' : List Nat} (R : Rep db ns hs) (R' : Rep db ns' hs') : ns.length = ns'.length := by
  have h := R.cnt
  rw [R'.cnt] at h
  have h1 := R.bound
  have h2 := R'.bound
  have h := Option.some.inj h
  unfold rawNum at h
  injection h with h
  have h := congrArg UInt64.toNat (be64_inj h)
  rw [toNat_ofNat64 (by omega), toNat_ofNat64 (by omega)] at h
  exact h.symm

/-- further truth told to a store to which only the truth was told -/
theorem told_more {T : Truth} {g : ProtoBlock} {l : Linkage} (h : Told T g l) {ns : List Node} {hs : List Nat} (R : Rep l.db ns hs) {ops : List Op}
    (hb : ns.length + inserts ops < 2 ^ 32) (ht : ∀ o, o ∈ ops → Truthful T o) {id : BlockID} {r : BlockRec}
    (hr : getBlockByID (exec l ops).db id = .ok r) : Genuine T g id r := by
  obtain ⟨l0, ops0, hf, hb0, ht0, rfl⟩ := h
  obtain ⟨ga, sc, hga, hsc, _, R0⟩ := fresh_rep hf
  have O0 : Origin [genesisNode g ga sc] [] := by
    intro n x hx h1
    have := at1_le hx
    simp at this; omega
  obtain ⟨ns1, hs1, R1, O1, p1, _⟩ := R0.exec_origin O0 ops0 (by simp; omega)
  obtain ⟨ns2, hs2, R2, O2, p2, _⟩ := R1.exec_origin O1 ops (by have := R.length_unique R1; omega)
  have e1 : at1 ns2 1 = some (genesisNode g ga sc) := by
    obtain ⟨t, rfl⟩ := p1.trans p2; rfl
  rw [R2.getBlockByID] at hr
  cases hn : numOf ns2 id with
  | none => rw [hn] at hr; cases hr
  | some n =>
    obtain ⟨x, hx, hid⟩ := numOf_some hn
    rw [hn] at hr
    simp only [Option.bind_some, hx] at hr
    cases hr
    refine R2.genuine O2 e1 hga hsc ?_ n x id hx hid
    intro o ho
    rcases List.mem_append.mp ho with ho | ho
    · exact ht0 o (by simpa using ho)
    · exact ht o ho

theorem stored_of_record {g : ProtoBlock} {l : Linkage} (h : Reachable g l) {id : BlockID} {r : BlockRec}
    (hr : getBlockByID l.db id = .ok r) : Stored l.db id := by
  obtain ⟨ns, hds, R, _⟩ := reachable_rep h
  cases hn : numOf ns id with
  | none => rw [R.getBlockByID, hn] at hr; simp [fail] at hr
  | some n => exact R.stored_iff.mpr ⟨n, hn⟩

/-- the parent in a truthful store is the true one -/
theorem holds_parent {T : Truth} {g : ProtoBlock} {l : Linkage} (h : Holds T g l) {p c : BlockID} (hs : Stored l.db c) :
    IsParent l.db p c ↔ c ≠ g.id ∧ p = (T c).parent := by
  obtain ⟨r, hr⟩ := record_of_stored h.reachable hs
  have G := h.record _ _ hr
  have one : IsParent l.db p c → c ≠ g.id := by
    rintro hp rfl
    obtain ⟨l0, ops, hf, hb, rfl⟩ := h.reachable
    obtain ⟨ga, sc, _, _, _, R0⟩ := fresh_rep hf
    obtain ⟨ns, hds, R, hpre, _⟩ := R0.exec ops (by simp; omega)
    have hn : numOf ns g.id = some 1 := by
      obtain ⟨t, rfl⟩ := hpre
      exact R.tree.numOf_eq (x := genesisNode g ga sc) rfl rfl
    exact ((R.isParent_iff hn).mp hp).1 rfl
  constructor
  · intro hp
    have hne := one hp
    refine ⟨hne, ?_⟩
    obtain ⟨r0, ga, _, _, e⟩ := G.inv hne
    obtain ⟨r', hr', hpar⟩ := hp
    rw [hr] at hr'; cases hr'
    rw [e] at hpar
    exact Subtype.ext hpar.symm
  · rintro ⟨hne, rfl⟩
    obtain ⟨r0, ga, _, _, e⟩ := G.inv hne
    exact ⟨r, hr, by rw [e]⟩

theorem holds_anc {T : Truth} {g : ProtoBlock} {l : Linkage} (h : Holds T g l) {a b : BlockID} (hs : Stored l.db b) :
    Anc l.db a b ↔ Below T g a b := by
  obtain ⟨ns, hds, R, _⟩ := reachable_rep h.reachable
  have up : ∀ {p c}, IsParent l.db p c → Stored l.db p := by
    intro p c hp
    obtain ⟨_, rp, _, hrp, _⟩ := parent_height_score R hp
    exact stored_of_record h.reachable hrp
  constructor
  · intro ha
    induction ha with
    | refl => exact .refl _
    | @step p b _ hp ih =>
      obtain ⟨hne, rfl⟩ := (holds_parent h hs).mp hp
      exact .step hne (ih (up hp))
  · intro hbel
    induction hbel with
    | refl => exact .refl _
    | step hne _ ih =>
      have hp := (holds_parent h hs).mpr ⟨hne, rfl⟩
      exact .step (ih (up hp)) hp

theorem holds_walk {T : Truth} {g : ProtoBlock} {l : Linkage} (h : Holds T g l) : ∀ (ids : List BlockID) (count : Nat) (id : BlockID) (height : Nat),
    HeightOf l.db id height → ids.length = min count height → IsWalk l.db ids → (1 ≤ count → ids.head? = some id) →
    ids = chainDown T g count id := by
  obtain ⟨ns, hds, R, _⟩ := reachable_rep h.reachable
  intro ids
  induction ids with
  | nil =>
    intro count id height hh hlen _ hhead
    cases count with
    | zero => rfl
    | succ k => have := hhead (by omega); cases this
  | cons a ids ih =>
    intro count id height hh hlen hw hhead
    cases count with
    | zero => simp at hlen
    | succ k =>
      have e := hhead (by omega)
      cases e
      obtain ⟨r, hr, hrh⟩ := hh
      have hs := stored_of_record h.reachable hr
      have G := h.record _ _ hr
      rw [chainDown]
      congr 1
      by_cases hg : a = g.id
      · rw [if_pos hg]
        subst hg
        have : height = 1 := by
          generalize hid : g.id = i at G
          cases G with
          | genesis => rw [← hrh]; rfl
          | block _ _ _ hne => exact absurd hid.symm hne
        simp only [List.length_cons, this] at hlen
        exact List.length_eq_zero_iff.mp (by omega)
      · rw [if_neg hg]
        have hp := (holds_parent h hs).mpr ⟨hg, rfl⟩
        obtain ⟨r', rp, hr', hrp, hht, _⟩ := parent_height_score R hp
        rw [hr] at hr'; cases hr'
        refine ih k (T a).parent rp.height.toNat ⟨rp, hrp, rfl⟩ ?_ ?_ ?_
        · simp only [List.length_cons] at hlen; omega
        · cases ids with
          | nil => trivial
          | cons b ids => exact hw.2
        · intro hk
          have : 1 ≤ rp.height.toNat := by
            obtain ⟨n, hn⟩ := R.stored_iff.mp (stored_of_record h.reachable hrp)
            obtain ⟨x, hx, _⟩ := numOf_some hn
            have := R.getBlockByID_some hn hx
            rw [hrp] at this; cases this
            have := R.tree.ht_pos hx
            rw [ht_of_some hx] at this
            exact this
          cases ids with
          | nil => simp only [List.length_cons, List.length_nil] at hlen; omega
          | cons b ids =>
            obtain ⟨_, hb⟩ := (holds_parent h hs).mp hw.1
            rw [hb]; rfl

theorem holds_stored_anc {T : Truth} {g : ProtoBlock} {l : Linkage} (h : Holds T g l) {a b : BlockID} (hs : Stored l.db b)
    (hb : Below T g a b) : Stored l.db a := by
  have ha := (holds_anc h hs).mpr hb
  obtain ⟨ns, hds, R, _⟩ := reachable_rep h.reachable
  obtain ⟨k, hk⟩ := R.stored_iff.mp hs
  obtain ⟨j, _, hj⟩ := (R.anc_iff hk).mp ha
  exact R.stored_iff.mpr ⟨_, hj⟩

theorem holds_isLCA {T : Truth} {g : ProtoBlock} {l : Linkage} (h : Holds T g l) {a b : BlockID} (ha : Stored l.db a) (hb : Stored l.db b)
    (c : BlockID) : IsLCA l.db a b c ↔ LastCommon T g a b c := by
  unfold IsLCA LastCommon
  rw [holds_anc h ha, holds_anc h hb]
  refine and_congr_right (fun hca => and_congr_right (fun _ => ?_))
  have hc := holds_stored_anc h ha hca
  refine forall_congr' (fun d => ?_)
  rw [holds_anc h ha, holds_anc h hb, holds_anc h hc]

theorem holds_steps {T : Truth} {g : ProtoBlock} {l : Linkage} (h : Holds T g l) {b c : BlockID} (hbel : Below T g c b) :
    ∀ {rb rc : BlockRec}, getBlockByID l.db b = .ok rb → getBlockByID l.db c = .ok rc →
    rc.height.toNat ≤ rb.height.toNat ∧ Steps T g (rb.height.toNat - rc.height.toNat) b c := by
  obtain ⟨ns, hds, R, _⟩ := reachable_rep h.reachable
  induction hbel with
  | refl =>
    intro rb rc hb hc
    rw [hb] at hc; cases hc
    rw [Nat.sub_self]
    exact ⟨Nat.le_refl _, .zero _⟩
  | @step b hne hb' ih =>
    intro rb rc hb hc
    have hp := (holds_parent h (stored_of_record h.reachable hb)).mpr ⟨hne, rfl⟩
    obtain ⟨r', rp, hr', hrp, hht, _⟩ := parent_height_score R hp
    rw [hb] at hr'; cases hr'
    obtain ⟨h1, h2⟩ := ih hrp hc
    refine ⟨by omega, ?_⟩
    have : rb.height.toNat - rc.height.toNat = (rp.height.toNat - rc.height.toNat) + 1 := by omega
    rw [this]
    exact .succ hne h2

theorem Spec.Below.trans {T : Truth} {g : ProtoBlock} {a b c : BlockID} (h1 : Below T g a b) (h2 : Below T g b c) : Below T g a c := by
  induction h2 with
  | refl => exact h1
  | step hne _ ih => exact .step hne ih

/-- two blocks below the same block are on one chain -/
theorem Spec.Below.linear {T : Truth} {g : ProtoBlock} {a b c : BlockID} (h1 : Below T g a c) (h2 : Below T g b c) : Below T g a b ∨ Below T g b a := by
  induction h1 with
  | refl => exact Or.inr h2
  | @step c hne h ih =>
    generalize hc : c = c' at h2
    cases h2 with
    | refl => subst hc; exact Or.inl (.step hne h)
    | step hne' h' => subst hc; exact ih h'

theorem nodup_map_inj {α β : Type} {f : α → β} {l : List α} (h : (l.map f).Nodup) {a b : α} (ha : a ∈ l) (hb : b ∈ l) (e : f a = f b) : a = b := by
  induction l with
  | nil => cases ha
  | cons x l ih =>
    rw [List.map_cons, List.nodup_cons] at h
    rcases List.mem_cons.mp ha with rfl | ha'
    · rcases List.mem_cons.mp hb with rfl | hb
      · rfl
      · exact absurd (List.mem_map.mpr ⟨b, hb, e.symm⟩) h.1
    · rcases List.mem_cons.mp hb with rfl | hb
      · exact absurd (List.mem_map.mpr ⟨a, (by assumption), e⟩) h.1
      · exact ih h.2 ha' hb

theorem below_inv {T : Truth} {g : ProtoBlock} {a b : BlockID} (h : Below T g a b) : a = b ∨ (b ≠ g.id ∧ Below T g a (T b).parent) := by
  cases h with
  | refl => exact Or.inl rfl
  | step hne h => exact Or.inr ⟨hne, h⟩

theorem not_below {T : Truth} {g : ProtoBlock} {a b : BlockID} (h1 : a ≠ b) (h2 : b ≠ g.id → ¬ Below T g a (T b).parent) : ¬ Below T g a b := by
  intro h
  rcases below_inv h with h | ⟨hne, h⟩
  · exact h1 h
  · exact h2 hne h

end Verif.Chains
