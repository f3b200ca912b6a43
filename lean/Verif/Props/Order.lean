import Verif.Chains.Order
import Verif.Chains.Examples
/-
Property C26: the tree does not depend on the order of arrival.
-/
set_option autoImplicit false

namespace Verif.Props

open Verif KV Chains Spec

/-- Two stores with the same genesis that hold the same block ids answer all queries about blocks and chains identically and
have the same heads, whatever histories (with failures, crash points, reopenings, micro-blocks) led to them,
provided the deliveries under one id had one content. -/
theorem C26_same_blocks {g : ProtoBlock} {l0 : Linkage} (hf : Fresh g l0) (ops1 ops2 : List Op)
    (hb1 : inserts ops1 + 2 < 2 ^ 32) (hb2 : inserts ops2 + 2 < 2 ^ 32) (ha : Agree (ops1 ++ ops2))
    (hst : ∀ id, Stored (exec l0 ops2).db id ↔ Stored (exec l0 ops1).db id) :
    SameChains (exec l0 ops1).db (exec l0 ops2).db := by
  obtain ⟨ga, sc, _, _, _, R0⟩ := fresh_rep hf
  have O0 : Origin [genesisNode g ga sc] [] := by
    intro n x hx h1
    have := at1_le hx
    simp at this; omega
  obtain ⟨ns1, hs1, R1, O1, p1, _⟩ := R0.exec_origin O0 ops1 (by simp; omega)
  obtain ⟨ns2, hs2, R2, O2, p2, _⟩ := R0.exec_origin O0 ops2 (by simp; omega)
  have e1 : at1 ns1 1 = some (genesisNode g ga sc) := by obtain ⟨t, rfl⟩ := p1; rfl
  have e2 : at1 ns2 1 = some (genesisNode g ga sc) := by obtain ⟨t, rfl⟩ := p2; rfl
  have W : Twin ns1 ns2 := ⟨R1.tree, R2.tree, e1.trans e2.symm, ops1, ops2, by simpa using O1, by simpa using O2, ha⟩
  exact W.sameChains R1 R2 hst

/-- Two orders of delivery of the same blocks, parents before children, from any peers and with any repetitions, lead
to the same tree. -/
theorem C26_order {g : ProtoBlock} {l0 : Linkage} (hf : Fresh g l0) (bs1 bs2 : List (ProtoBlock × Addr))
    (hb1 : bs1.length + 2 < 2 ^ 32) (hb2 : bs2.length + 2 < 2 ^ 32)
    (hsame : ∀ b, b ∈ bs1.map (·.1) ↔ b ∈ bs2.map (·.1))
    (hid : ∀ b b', b ∈ bs1.map (·.1) → b' ∈ bs1.map (·.1) → b.id = b'.id → b = b')
    (hv : ∀ b, b ∈ bs1.map (·.1) → b.generator ≠ none ∧ b.baseTarget.toNat < 2 ^ 63)
    (hp1 : ParentFirst [g.id] bs1) (hp2 : ParentFirst [g.id] bs2) :
    SameChains (exec l0 (deliver bs1)).db (exec l0 (deliver bs2)).db ∧
    ∀ id, Stored (exec l0 (deliver bs1)).db id ↔ id = g.id ∨ ∃ b, b ∈ bs1.map (·.1) ∧ b.id = id := by
  have hins : ∀ bs, inserts (deliver bs) = bs.length := by
    intro bs
    induction bs with
    | nil => rfl
    | cons p bs ih => rw [deliver, List.map_cons, inserts_cons]; rw [deliver] at ih; rw [ih]; simp [inserts]; omega
  obtain ⟨ga, sc, _, _, _, R0⟩ := fresh_rep hf
  have hk : ∀ id, Stored l0.db id ↔ id ∈ [g.id] := by
    intro id
    rw [R0.stored_iff, List.mem_singleton]
    constructor
    · rintro ⟨n, hn⟩
      obtain ⟨x, hx, he⟩ := numOf_some hn
      have h1 := at1_le hx
      have : n = 1 := by simp at h1; omega
      subst this
      cases hx
      exact Subtype.ext he.symm
    · rintro rfl
      exact ⟨1, R0.tree.numOf_eq (x := genesisNode g ga sc) rfl rfl⟩
  have hm : ∀ {bs : List (ProtoBlock × Addr)} {p}, p ∈ bs → p.1 ∈ bs.map (·.1) := fun h => List.mem_map.mpr ⟨_, h, rfl⟩
  have s1 := R0.deliver_stored bs1 [g.id] (by rw [hins]; simp; omega) hk hp1 (fun p hp => hv _ (hm hp))
  have s2 := R0.deliver_stored bs2 [g.id] (by rw [hins]; simp; omega) hk hp2 (fun p hp => hv _ ((hsame _).mpr (hm hp)))
  have hids : ∀ (bs : List (ProtoBlock × Addr)) (id : BlockID), id ∈ bs.map (fun p => p.1.id) ↔ ∃ b, b ∈ bs.map (·.1) ∧ b.id = id := by
    intro bs id
    simp only [List.mem_map]
    constructor
    · rintro ⟨p, hp, rfl⟩; exact ⟨p.1, ⟨p, hp, rfl⟩, rfl⟩
    · rintro ⟨b, ⟨p, hp, rfl⟩, rfl⟩; exact ⟨p, hp, rfl⟩
  refine ⟨C26_same_blocks hf _ _ (by rw [hins]; exact hb1) (by rw [hins]; exact hb2) ?_ ?_, ?_⟩
  · intro o o' i c c' ho ho' hc hc'
    have key : ∀ o, o ∈ deliver bs1 ++ deliver bs2 → ∀ i c, content o = some (i, c) →
        ∃ b, b ∈ bs1.map (·.1) ∧ i = b.id ∧ c = .blk b := by
      intro o ho i c hc
      have : ∃ p, (p ∈ bs1 ∨ p ∈ bs2) ∧ o = .putBlock p.1 p.2 .ok .ok := by
        simp only [deliver, List.mem_append, List.mem_map] at ho
        rcases ho with ⟨p, hp, rfl⟩ | ⟨p, hp, rfl⟩
        · exact ⟨p, Or.inl hp, rfl⟩
        · exact ⟨p, Or.inr hp, rfl⟩
      obtain ⟨p, hp, rfl⟩ := this
      simp only [content, Option.some.injEq, Prod.mk.injEq] at hc
      exact ⟨p.1, hp.elim hm (fun h => (hsame _).mpr (hm h)), hc.1.symm, hc.2.symm⟩
    obtain ⟨b, hb, e1, rfl⟩ := key o ho i c hc
    obtain ⟨b', hb', e2, rfl⟩ := key o' ho' i c' hc'
    rw [hid b b' hb hb' (e1.symm.trans e2)]
  · intro id
    rw [s1, s2, hids, hids]
    simp only [hsame]
  · intro id
    rw [s1, hids, List.mem_singleton]

/-- With the same leashes as well, the two stores also give the same fork reports and answers about single peers. -/
theorem C26_same_reports {db1 db2 : DB} (h : SameChains db1 db2) (hl : Leashes db2 = Leashes db1) (env : Env) :
    (∀ filter, Forks env db2 filter = Forks env db1 filter) ∧ StatsOf env db2 = StatsOf env db1 ∧
    (∀ p, ForkOf env db2 p = ForkOf env db1 p) ∧
    ∀ id count, ForkGenerators env db2 id count = ForkGenerators env db1 id count := by
  have hB : BlockOf db2 = BlockOf db1 := funext h.block
  have hF : finishFork db2 = finishFork db1 := by
    funext hd f; simp only [finishFork, h.common, h.record]
  have hR : rawFork db2 = rawFork db1 := by funext p; simp only [rawFork, h.block]
  have hL : leashes db2 = leashes db1 := hl
  have hforks : ∀ filter, Forks env db2 filter = Forks env db1 filter := by
    intro filter; rw [Forks_unfold, Forks_unfold, hL, hR, hF]
  have hloop : ∀ (p : Addr) (m : List (BlockID × List Addr)) (s : Best) (f : Fork), forkLoop db2 p s f m = forkLoop db1 p s f m := by
    intro p m
    induction m with
    | nil => intro s f; rfl
    | cons kv m ih => intro s f; obtain ⟨k, v⟩ := kv; simp only [forkLoop, h.block, ih]
  refine ⟨hforks, by simp only [StatsOf, hforks], ?_, ?_⟩
  · intro p; simp only [ForkOf, hL, hloop, h.common, h.record]
  · intro id count; simp only [ForkGenerators, h.blocks]

/-- two orders of the same four blocks -/
def order1 : List (ProtoBlock × Addr) := [(Ex.blk 1 0, Ex.ip 1), (Ex.blk 2 1, Ex.ip 1), (Ex.blk 3 1, Ex.ip 2), (Ex.blk 4 3, Ex.ip 2)]
def order2 : List (ProtoBlock × Addr) := [(Ex.blk 1 0, Ex.ip 2), (Ex.blk 3 1, Ex.ip 1), (Ex.blk 4 3, Ex.ip 1), (Ex.blk 3 1, Ex.ip 1), (Ex.blk 2 1, Ex.ip 3)]

example : ParentFirst [Ex.g0.id] order1 ∧ ParentFirst [Ex.g0.id] order2 := by
  unfold order1 order2 ParentFirst ParentFirst ParentFirst ParentFirst ParentFirst ParentFirst
  decide +kernel

example : (∀ b, b ∈ order1.map (·.1) ↔ b ∈ order2.map (·.1)) ∧
    (∀ b, b ∈ order1.map (·.1) → ∀ b', b' ∈ order1.map (·.1) → b.id = b'.id → b = b') ∧
    (∀ b, b ∈ order1.map (·.1) → b.generator ≠ none ∧ b.baseTarget.toNat < 2 ^ 63) := by
  refine ⟨?_, by decide +kernel, by decide +kernel⟩
  intro b
  simp only [order1, order2, List.map_cons, List.map_nil, List.mem_cons, List.not_mem_nil, or_false]
  constructor
  · rintro (h | h | h | h) <;> simp [h]
  · rintro (h | h | h | h | h) <;> simp [h]

/-- The condition on contents is needed.  The same id may arrive as a micro-block (the total block id of a micro-block) or as
a full block; all records come out equal, but the heads differ: in the first order block 2 was extended, in the
second it stays a head. -/
theorem C26_micro_or_block :
    let asMicro := exec Ex.l0 [Ex.pb 1 0 1, Ex.pb 2 1 1, Ex.mb 3 2 1]
    let asBlock := exec Ex.l0 [Ex.pb 1 0 1, Ex.pb 2 1 1, .putBlock { Ex.blk 2 1 with id := Ex.bid 3 } (Ex.ip 1) .ok .ok]
    getBlockByID asMicro.db (Ex.bid 3) = getBlockByID asBlock.db (Ex.bid 3) ∧
    (Heads asMicro.db).map (·.map (·.blockID)) = .ok [Ex.bid 3] ∧
    (Heads asBlock.db).map (·.map (·.blockID)) = .ok [Ex.bid 2, Ex.bid 3] := by decide +kernel

end Verif.Props
