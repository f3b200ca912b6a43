import Verif.Chains.WorkLemmas
import Verif.Chains.Examples
/-
C130  The work for a block or a report grows with the number of peers and the logarithm of the height.

The specification: the number of records read from the database during a call (`Verif/Chains/Work.lean` counts them), and, independently of any
count, the number of records that decide the answer (`DecidedBy`).  A store `2 ^ k` blocks high costs `k`, not `2 ^ k`.
-/

set_option autoImplicit false

namespace Verif.Props

open Verif KV Chains Spec

namespace C130

/-- `f` gives the same answer on every database that agrees with `db` on certain `n` keys, whatever else it holds -/
def DecidedBy {α : Type} (n : Nat) (f : DB → α) (db : DB) : Prop :=
  ∃ keys : List Bytes, keys.length ≤ n ∧ ∀ db', (∀ k, k ∈ keys → get db' k = get db k) → f db' = f db

/-- no block of the store is higher than `2 ^ k` -/
def Within (k : Nat) (db : DB) : Prop := ∀ id h, HeightOf db id h → h ≤ 2 ^ k

theorem of_honest {α : Type} {c : DB → Work.Cnt α} {f : DB → Go α} {db : DB} {n : Nat} (h : Work.Honest c db)
    (hv : ∀ d, (c d).val = f d) (hn : (c db).reads ≤ n) : DecidedBy n f db := by
  obtain ⟨ks, hk, h⟩ := h
  exact ⟨ks, Nat.le_trans hk hn, fun db' hd => by rw [← hv, ← hv]; exact h db' hd⟩

end C130

open C130

/-- the functions that count give the results of the functions that do not -/
theorem C130_same (env : Env) (l : Linkage) (db : DB) (f1 f2 : Fate) (b : ProtoBlock) (inv : MicroInv) (a : Addr) (id id' : BlockID)
    (n : Int) (peers : List Addr) :
    (Work.PutBlock f1 f2 db b a).res = PutBlock f1 f2 db b a ∧ (Work.PutMicroBlock f1 f2 db inv a).res = PutMicroBlock f1 f2 db inv a ∧
    (Work.LastIDs db id n).val = LastIDs db id n ∧ (Work.ForkGenerators env db id n).val = ForkGenerators env db id n ∧
    (Work.lca db id id').val = lca db id id' ∧ (Work.Forks env db peers).val = Forks env db peers ∧
    (Work.ForkOf env db a).val = ForkOf env db a ∧ (Work.LCB env l a).val = LCB env l a :=
  ⟨Work.PutBlock_res .., Work.PutMicroBlock_res .., Work.LastIDs_val .., Work.ForkGenerators_val .., Work.lca_val .., Work.Forks_val ..,
    Work.ForkOf_val .., Work.LCB_val ..⟩

/-- the last common block of two branches: five records and three for every doubling of the height -/
theorem C130_lca {g : ProtoBlock} {l : Linkage} (H : Reachable g l) {k : Nat} (hk : Within k l.db) (id1 id2 : BlockID) :
    (Work.lca l.db id1 id2).reads ≤ 5 + 3 * k ∧ DecidedBy (5 + 3 * k) (fun d => lca d id1 id2) l.db := by
  have h := Work.lca_reads (Work.short_of_heights H hk) id1 id2
  exact ⟨h, of_honest (Work.honest_lca l.db id1 id2) (fun d => Work.lca_val d id1 id2) h⟩

/-- storing a block, in any database whatsoever: eight records and one for every doubling of the height of its parent.  What is written is
decided by six of them and one for every doubling -/
theorem C130_put {db : DB} {b : ProtoBlock} {k : Nat} (hk : ∀ h, HeightOf db b.parent h → h < 2 ^ k) (f1 f2 : Fate) (a : Addr) :
    (Work.PutBlock f1 f2 db b a).reads ≤ 8 + k ∧ DecidedBy (6 + k) (fun d => protoBlockBatch d b) db := by
  have h := Work.protoBlockBatch_reads (db := db) (b := b) (k := k)
    (fun n r hn hr => hk _ ⟨r, by unfold getBlockByID; rw [hn]; exact hr, rfl⟩)
  refine ⟨?_, of_honest (Work.honest_proto db b) (fun d => Work.protoBlockBatch_val d b) h⟩
  have := Work.PutBlock_reads h f1 f2 a
  omega

/-- the same for a micro-block -/
theorem C130_micro {db : DB} {inv : MicroInv} {k : Nat} (hk : ∀ h, HeightOf db inv.reference h → h ≤ 2 ^ k) (f1 f2 : Fate) (a : Addr) :
    (Work.PutMicroBlock f1 f2 db inv a).reads ≤ 8 + k ∧ DecidedBy (6 + k) (fun d => microBlockBatch d inv) db := by
  have h := Work.microBlockBatch_reads (db := db) (inv := inv) (k := k)
    (fun n r hn hr => hk _ ⟨r, by unfold getBlockByID; rw [hn]; exact hr, rfl⟩)
  refine ⟨?_, of_honest (Work.honest_micro db inv) (fun d => Work.microBlockBatch_val d inv) h⟩
  have := Work.PutMicroBlock_reads h f1 f2 a
  omega

/-- the last ids of a chain: one record for each of them and one more, however long the chain and whatever the database -/
theorem C130_ids (db : DB) (id : BlockID) (n : Int) :
    (Work.LastIDs db id n).reads ≤ 1 + n.toNat ∧ DecidedBy (1 + n.toNat) (fun d => LastIDs d id n) db :=
  ⟨Work.LastIDs_reads db id n, of_honest (Work.honest_ids db id n) (fun d => Work.LastIDs_val d id n) (Work.LastIDs_reads db id n)⟩

/-- the generators of the last blocks of a chain: two records for each block and one more -/
theorem C130_generators (env : Env) (db : DB) (id : BlockID) (n : Int) :
    (Work.ForkGenerators env db id n).reads ≤ 1 + 2 * n.toNat ∧
    DecidedBy (1 + 2 * n.toNat) (fun d => ForkGenerators env d id n) db :=
  ⟨Work.ForkGenerators_reads env db id n, of_honest (Work.honest_generators env db id n) (fun d => Work.ForkGenerators_val env d id n)
    (Work.ForkGenerators_reads env db id n)⟩

/-- the list of forks: the leashes of all the peers once, and for every peer asked for nine records and three for every doubling of the
height.  Blocks without a peer cost nothing -/
theorem C130_forks {g : ProtoBlock} {l : Linkage} (H : Reachable g l) {k : Nat} (hk : Within k l.db) (env : Env) (peers : List Addr) :
    ∃ ls, Leashes l.db = .ok ls ∧
      (Work.Forks env l.db peers).reads ≤
        ls.length + (ls.filter (fun x => peers = [] ∨ x.addr ∈ peers)).length * (9 + 3 * k) := by
  obtain ⟨ls, hl⟩ := Work.leashes_ok H
  refine ⟨ls, hl, ?_⟩
  have h := Work.Forks_reads (Work.short_of_heights H hk) hl env peers
  have e : selected peers ls = ls.filter (fun x => peers = [] ∨ x.addr ∈ peers) := by
    unfold selected
    congr 1; funext x
    cases peers <;> simp [Bool.decide_or]
  rwa [e] at h

/-- the fork of one peer: three records for every peer, seven more, and three for every doubling of the height -/
theorem C130_fork {g : ProtoBlock} {l : Linkage} (H : Reachable g l) {k : Nat} (hk : Within k l.db) (env : Env) (a : Addr) :
    ∃ ls, Leashes l.db = .ok ls ∧ (Work.ForkOf env l.db a).reads ≤ 7 + 3 * ls.length + 3 * k := by
  obtain ⟨ls, hl⟩ := Work.leashes_ok H
  exact ⟨ls, hl, Work.ForkOf_reads (Work.short_of_heights H hk) hl env a⟩

/-- the last common block of a peer and the best chain -/
theorem C130_lcb {g : ProtoBlock} {l : Linkage} (H : Reachable g l) {k : Nat} (hk : Within k l.db) (env : Env) (a : Addr) :
    ∃ ls, Leashes l.db = .ok ls ∧ (Work.LCB env l a).reads ≤ 6 + 3 * ls.length + 3 * k := by
  obtain ⟨ls, hl⟩ := Work.leashes_ok H
  exact ⟨ls, hl, Work.LCB_reads (Work.short_of_heights H hk) hl env a⟩

/-- in terms of what the peers have sent: after fewer than `2 ^ k` blocks and micro-blocks, in whatever shape, the store is within `2 ^ k` -/
theorem C130_sent {g : ProtoBlock} {l0 : Linkage} (hf : Fresh g l0) {ops : List Op} (hb : inserts ops + 2 < 2 ^ 32) {k : Nat}
    (hk : inserts ops < 2 ^ k) : Within k (exec l0 ops).db := by
  intro id h H
  have := Work.height_inserts hf hb H
  omega

/-- once and for all, since heights are 32 bit numbers: no store is too high for 101 records, and no block needs more than 40 -/
theorem C130_ever {g : ProtoBlock} {l : Linkage} (H : Reachable g l) (env : Env) (id1 id2 : BlockID) (a : Addr) (peers : List Addr)
    (f1 f2 : Fate) (b : ProtoBlock) (inv : MicroInv) :
    (Work.lca l.db id1 id2).reads ≤ 101 ∧ (Work.PutBlock f1 f2 l.db b a).reads ≤ 40 ∧ (Work.PutMicroBlock f1 f2 l.db inv a).reads ≤ 40 ∧
    ∃ ls, Leashes l.db = .ok ls ∧ (Work.Forks env l.db peers).reads ≤ 106 * ls.length ∧
      (Work.ForkOf env l.db a).reads ≤ 103 + 3 * ls.length ∧ (Work.LCB env l a).reads ≤ 102 + 3 * ls.length := by
  have hw : Within 32 l.db := fun id h hh => Work.height_le hh
  have hs : ∀ h id, HeightOf l.db id h → h < 2 ^ 32 := by
    intro h id hh; obtain ⟨r, -, rfl⟩ := hh; exact r.height.toNat_lt
  refine ⟨(C130_lca H hw id1 id2).1, (C130_put (k := 32) (fun h hh => hs h _ hh) f1 f2 a).1,
    (C130_micro (k := 32) (fun h hh => Nat.le_of_lt (hs h _ hh)) f1 f2 a).1, ?_⟩
  obtain ⟨ls, hl⟩ := Work.leashes_ok H
  have hsh := Work.short_of_heights H hw
  refine ⟨ls, hl, ?_, ?_, ?_⟩
  · have h := Work.Forks_reads hsh hl env peers
    have := Nat.mul_le_mul_right (9 + 3 * 32) (Work.selected_length peers ls)
    omega
  · have := Work.ForkOf_reads hsh hl env a; omega
  · have := Work.LCB_reads hsh hl env a; omega

/-! ### examples -/

-- five blocks were sent to `Ex.l1`, and a sixth that was refused
example : Within 3 Ex.l1.db := C130_sent Ex.fresh (by decide +kernel) (by decide +kernel)
-- the last common block of 2 and 4: two links by id, and the way back
example : (Work.lca Ex.l1.db (Ex.bid 2) (Ex.bid 4)).val = .ok (Ex.bid 1) ∧
    (Work.lca Ex.l1.db (Ex.bid 2) (Ex.bid 4)).reads = 5 ∧
    (Work.lca Ex.l1.db (Ex.bid 5) (Ex.bid 4)).reads = 6 ∧ 5 + 3 * 3 = 14 := by decide +kernel
-- the forks of two peers
example : (Work.Forks Ex.env Ex.l1.db []).reads = 19 ∧ 2 + 2 * (9 + 3 * 3) = 38 := by decide +kernel
-- the fork of peer 2, and where it left the best chain
example : (Work.ForkOf Ex.env Ex.l1.db (Ex.ip 2)).reads = 13 ∧ 7 + 3 * 2 + 3 * 3 = 22 ∧
    (Work.LCB Ex.env Ex.l1 (Ex.ip 2)).reads = 12 ∧ 6 + 3 * 2 + 3 * 3 = 21 := by decide +kernel
-- two ids and two generators
example : (Work.LastIDs Ex.l1.db (Ex.bid 4) 2).reads = 3 ∧ (Work.ForkGenerators Ex.env Ex.l1.db (Ex.bid 4) 2).reads = 5 := by decide +kernel
-- storing a block above block 5
example : (Work.PutBlock .ok .ok Ex.l1.db (Ex.blk 6 5) (Ex.ip 1)).reads = 10 ∧ 8 + 3 = 11 := by decide +kernel
-- a micro-block of block 5
example : (Work.PutMicroBlock .ok .ok Ex.l1.db { totalBlockID := Ex.bid 20, reference := Ex.bid 5 } (Ex.ip 2)).reads = 9 := by
  decide +kernel
-- a year of blocks and micro-blocks, several hundred thousand of them, is within `2 ^ 20`: 65 records, not a million
example {g : ProtoBlock} {l0 : Linkage} (hf : Fresh g l0) {ops : List Op} (h : inserts ops ≤ 1000000) (id1 id2 : BlockID) :
    (Work.lca (exec l0 ops).db id1 id2).reads ≤ 65 :=
  (C130_lca ⟨l0, ops, hf, by omega, rfl⟩ (C130_sent hf (by omega) (k := 20) (by omega)) id1 id2).1

end Verif.Props
