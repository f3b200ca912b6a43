import Verif.Cbor.Chains
import Verif.Cbor.Lemmas
import Verif.Chains.History
import Verif.Chains.Queries
/-
What is read from the bytes of the chains database is what the model of the database says.
-/

set_option autoImplicit false

namespace Verif.Cbor

open Verif Verif.Chains Verif.Chains.Spec
open Verif.KV (Fate Sorted)

/-- the byte strings of a record have lengths that fit into a CBOR head -/
structure BlockFits (b : BlockRec) : Prop where
  score : (natBytes b.score).length < 2 ^ 64
  id : b.id.length < 2 ^ 64
  parent : b.parent.length < 2 ^ 64

theorem decBlock_enc {b : BlockRec} (h : BlockFits b) : decBlock (encBlock b) = some b := by
  have hh := b.height.toNat_lt
  have ht := b.timestamp.toNat_lt
  have hg : b.generator.1.length < 2 ^ 64 := by rw [b.generator.2]; omega
  have e := readStruct_fields [(0, encUint b.height.toNat, .uint b.height.toNat), (1, encUint b.timestamp.toNat, .uint b.timestamp.toNat),
    (2, encBigPtr (some b.score), bigPtrItem (some b.score)), (3, encBytes b.id, bytesItem b.id), (4, encBytes b.parent, bytesItem b.parent),
    (5, encBytes b.generator.1, bytesItem b.generator.1)] (by simp [maxElements]) (by
      intro p hp
      simp only [List.mem_cons, List.not_mem_nil, or_false] at hp
      rcases hp with rfl | rfl | rfl | rfl | rfl | rfl
      · exact ⟨by omega, reads_uint (by omega)⟩
      · exact ⟨by omega, reads_uint (by omega)⟩
      · exact ⟨by omega, reads_bigPtr (fun n hn => by rw [← Option.some.inj hn]; exact h.score)⟩
      · exact ⟨by omega, reads_bytes h.id⟩
      · exact ⟨by omega, reads_bytes h.parent⟩
      · exact ⟨by omega, reads_bytes hg⟩)
  simp only [List.map_cons, List.map_nil] at e
  simp only [decBlock, encBlock, e, lookup]
  simp only [Nat.reduceEqDiff, ↓reduceIte, asUint_uint (show b.height.toNat ≤ 2 ^ 32 - 1 by omega),
    asUint_uint (show b.timestamp.toNat ≤ 2 ^ 64 - 1 by omega), asBig_item, asBytes_item]
  simp [b.generator.2]

structure LinkFits (l : LinkRec) : Prop where
  id : l.blockID.length < 2 ^ 64
  parents : l.parents.length ≤ maxElements

theorem decLink_enc {l : LinkRec} (h : LinkFits l) : decLink (encLink l) = some l := by
  have hh := l.height.toNat_lt
  have hp : ∀ n, n ∈ l.parents.map (·.toNat) → n < 2 ^ 64 := by
    intro n hn
    obtain ⟨u, _, rfl⟩ := List.mem_map.mp hn
    exact u.toNat_lt
  have e := readStruct_fields [(0, encUint l.height.toNat, .uint l.height.toNat), (1, encBytes l.blockID, bytesItem l.blockID),
    (2, encNums (l.parents.map (·.toNat)), numsItem (l.parents.map (·.toNat)))] (by simp [maxElements]) (by
      intro p hp'
      simp only [List.mem_cons, List.not_mem_nil, or_false] at hp'
      rcases hp' with rfl | rfl | rfl
      · exact ⟨by omega, reads_uint (by omega)⟩
      · exact ⟨by omega, reads_bytes h.id⟩
      · exact ⟨by omega, reads_nums (by simpa using h.parents) hp⟩)
  simp only [List.map_cons, List.map_nil] at e
  simp only [decLink, encLink, e, lookup]
  simp only [Nat.reduceEqDiff, ↓reduceIte, asUint_uint (show l.height.toNat ≤ 2 ^ 32 - 1 by omega), asBytes_item,
    asNums_item (l := l.parents.map (·.toNat)) (max := 2 ^ 64 - 1) (fun n hn => by have := hp n hn; omega)]
  have e2 : (l.parents.map (·.toNat)).map UInt64.ofNat = l.parents := by
    rw [List.map_map]
    conv => rhs; rw [← List.map_id l.parents]
    exact List.map_congr_left (fun u _ => UInt64.ofNat_toNat)
  rw [e2]
  simp

/-! ### the databases -/

theorem get_enc (db : DB) (k : Bytes) : KV.get (encDB db) k = (KV.get db k).map encVal := get_mapVals encVal db k

theorem scan_enc (db : DB) (lo hi : Bytes) : KV.scan (encDB db) lo hi = encDB (KV.scan db lo hi) := scan_mapVals encVal db lo hi

theorem write_enc (f : Fate) (db : DB) (b : Batch) :
    KV.write f (encDB db) (encBatch b) = (encDB (KV.write f db b).1, (KV.write f db b).2) := write_mapVals encVal f db b

/-! ### scores stay small -/

/-- no record has a score above `B` -/
def ScoresLe (B : Nat) (db : DB) : Prop := ∀ k b, (k, Val.blk b) ∈ db → b.score ≤ B

theorem mem_del {V : Type} {db : KV.DB V} {k : Bytes} {p : Bytes × V} (h : p ∈ KV.del db k) : p ∈ db := (List.mem_filter.mp h).1

theorem applyBatch_scores {B : Nat} : ∀ (b : Batch) {db : DB}, ScoresLe B db → (∀ k r, KV.BatchOp.put k (.blk r) ∈ b → r.score ≤ B) →
    ScoresLe B (KV.applyBatch db b)
  | [], _, h, _ => h
  | o :: b, db, h, hb => by
    refine applyBatch_scores b (db := KV.applyOp db o) ?_ (fun k r hr => hb k r (List.mem_cons_of_mem _ hr))
    intro k r hr
    cases o with
    | put k' v =>
      rcases KV.mem_put_of_mem hr with e | hm
      · cases e; exact hb k r (by simp)
      · exact h k r hm
    | del k' => exact h k r (mem_del hr)

theorem write_scores {B : Nat} (f : Fate) {db : DB} {b : Batch} (h : ScoresLe B db) (hb : ∀ k r, KV.BatchOp.put k (.blk r) ∈ b → r.score ≤ B) :
    ScoresLe B (KV.write f db b).1 := by
  cases f
  · exact applyBatch_scores b h hb
  · exact h
  · exact applyBatch_scores b h hb

theorem ScoresLe.mono {B B' : Nat} {db : DB} (h : ScoresLe B db) (hB : B ≤ B') : ScoresLe B' db :=
  fun k b hm => Nat.le_trans (h k b hm) hB

theorem leash_scores {B : Nat} (f : Fate) {db : DB} (a : Addr) (id : BlockID) (h : ScoresLe B db) : ScoresLe B (updateLeash f db a id).1 :=
  write_scores f h (fun k r hr => by simp [putLeash] at hr)

theorem getBlock_scores {B : Nat} {db : DB} (h : ScoresLe B db) {n : UInt64} {r : BlockRec} (hr : Chains.getBlock db n = .ok r) : r.score ≤ B := by
  unfold Chains.getBlock at hr
  split at hr
  · cases hr
  · next b hg => cases hr; exact h _ _ (KV.mem_of_get hg)
  · cases hr

theorem score_le {t : UInt64} {s : Nat} (h : calculateScore t = .ok s) : s ≤ 18446744073709551616 := by
  unfold calculateScore at h
  split at h
  · cases h; omega
  · split at h
    · cases h
    · cases h; exact Nat.div_le_self _ _

theorem putHead_noBlk {db : DB} {n p : UInt64} {b : Batch} (h : Chains.putHead db n p = .ok b) (k : Bytes) (r : BlockRec) :
    KV.BatchOp.put k (.blk r) ∉ b := by
  unfold Chains.putHead at h
  split at h
  · unfold putNewHead at h
    obtain ⟨c, _, h⟩ := go_bind_eq_ok.mp h
    cases h; simp [putCounter, putNum]
  · cases h
  · cases h; simp [putNum]

theorem putLink_noBlk {db : DB} {n : UInt64} {id pid : BlockID} {h : UInt32} {b : Batch}
    (e : Chains.putNewLinkForBlock db n id h pid = .ok b) (k : Bytes) (r : BlockRec) : KV.BatchOp.put k (.blk r) ∉ b := by
  unfold Chains.putNewLinkForBlock at e
  obtain ⟨pn, _, e⟩ := go_bind_eq_ok.mp e
  split at e
  · cases e
  · obtain ⟨ps, _, e⟩ := go_bind_eq_ok.mp e
    cases e; simp [putLink]

theorem proto_scores {B : Nat} (f : Fate) {db : DB} (b : ProtoBlock) (h : ScoresLe B db) :
    ScoresLe (B + 18446744073709551616) (putProtoBlock f db b).1 := by
  unfold putProtoBlock
  split
  · next batch hb =>
    refine write_scores f (h.mono (by omega)) (fun k r hr => ?_)
    unfold Chains.protoBlockBatch at hb
    obtain ⟨n, _, hb⟩ := go_bind_eq_ok.mp hb
    obtain ⟨pn, _, hb⟩ := go_bind_eq_ok.mp hb
    obtain ⟨p, hp, hb⟩ := go_bind_eq_ok.mp hb
    obtain ⟨rec_, hrec, hb⟩ := go_bind_eq_ok.mp hb
    obtain ⟨lnk, hl, hb⟩ := go_bind_eq_ok.mp hb
    obtain ⟨hd, hh, hb⟩ := go_bind_eq_ok.mp hb
    cases hb
    simp [putCounter, putID, putBlock, putLink_noBlk hl, putHead_noBlk hh] at hr
    rw [hr.2]
    unfold newBlock at hrec
    split at hrec
    · cases hrec
    · obtain ⟨sc, hsc, hrec⟩ := go_bind_eq_ok.mp hrec
      unfold calculateCumulativeScore at hsc
      obtain ⟨s, hs, hsc⟩ := go_bind_eq_ok.mp hsc
      cases hrec; cases hsc
      have h1 := score_le hs
      have h2 := getBlock_scores h hp
      show s + p.score ≤ _
      omega
  · exact h.mono (by omega)

theorem micro_scores {B : Nat} (f : Fate) {db : DB} (inv : MicroInv) (h : ScoresLe B db) : ScoresLe B (putMicroBlock f db inv).1 := by
  unfold putMicroBlock
  split
  · next batch hb =>
    refine write_scores f h (fun k r hr => ?_)
    unfold Chains.microBlockBatch at hb
    obtain ⟨n, _, hb⟩ := go_bind_eq_ok.mp hb
    obtain ⟨pn, _, hb⟩ := go_bind_eq_ok.mp hb
    obtain ⟨p, hp, hb⟩ := go_bind_eq_ok.mp hb
    obtain ⟨pid, _, hb⟩ := go_bind_eq_ok.mp hb
    obtain ⟨lnk, hl, hb⟩ := go_bind_eq_ok.mp hb
    obtain ⟨hd, hh, hb⟩ := go_bind_eq_ok.mp hb
    cases hb
    simp [putCounter, putID, putBlock, putLink_noBlk hl, putHead_noBlk hh] at hr
    rw [hr.2]
    show p.score ≤ B
    exact getBlock_scores h hp
  · exact h

theorem putBlock_scores {B : Nat} (f1 f2 : Fate) {db : DB} (b : ProtoBlock) (a : Addr) (h : ScoresLe B db) :
    ScoresLe (B + 18446744073709551616) (PutBlock f1 f2 db b a).1 := by
  unfold PutBlock
  split
  · exact h.mono (by omega)
  · exact (leash_scores f1 a b.id h).mono (by omega)
  · split
    · exact h.mono (by omega)
    · exact h.mono (by omega)
    · have hp := proto_scores f1 b h
      split
      · next e => rw [e] at hp; exact hp
      · next e => rw [e] at hp; exact leash_scores f2 a b.id hp

theorem putMicro_scores {B : Nat} (f1 f2 : Fate) {db : DB} (inv : MicroInv) (a : Addr) (h : ScoresLe B db) :
    ScoresLe B (PutMicroBlock f1 f2 db inv a).1 := by
  unfold PutMicroBlock
  split
  · exact h
  · exact leash_scores f1 a _ h
  · split
    · exact h
    · exact h
    · have hp := micro_scores f1 inv h
      split
      · next e => rw [e] at hp; exact hp
      · next e => rw [e] at hp; exact leash_scores f2 a _ hp

theorem genesis_scores (f : Fate) (g : ProtoBlock) : ScoresLe 18446744073709551616 (initStorage f [] g).1 := by
  have h0 : ScoresLe 18446744073709551616 ([] : DB) := fun k b hb => by simp at hb
  unfold initStorage
  split
  · exact h0
  · split
    · split
      · next batch hb =>
        refine write_scores f h0 (fun k r hr => ?_)
        unfold genesisBatch at hb
        split at hb
        · cases hb
        · obtain ⟨sc, hsc, hb⟩ := go_bind_eq_ok.mp hb
          cases hb
          simp [putCounter, putID, putBlock, putLink, putNum] at hr
          rw [hr.2]
          exact score_le hsc
      · exact h0
    · exact h0

theorem fresh_scores {g : ProtoBlock} {l : Linkage} (h : Fresh g l) : ScoresLe 18446744073709551616 l.db := by
  have := genesis_scores .ok g
  unfold Fresh NewLinkage at h
  split at h
  · next db' e =>
    have hd : db' = l.db := congrArg Prod.fst h
    rw [e, hd] at this; exact this
  · cases h

theorem exec_scores : ∀ (ops : List Op) {B : Nat} {l : Linkage} {ns : List Node} {hs : List Nat},
    Rep l.db ns hs → ns.length + inserts ops < 2 ^ 32 → ScoresLe B l.db →
    ScoresLe (B + inserts ops * 18446744073709551616) (exec l ops).db
  | [], B, l, _, _, _, _, h => h.mono (by omega)
  | o :: ops, B, l, ns, hs, R, hb, h => by
    rw [inserts_cons] at hb ⊢
    obtain ⟨ns1, hs1, R1, _, hl1⟩ := R.step o (by omega)
    have key : ScoresLe (B + inserts [o] * 18446744073709551616) (step l o).1.db := by
      cases o with
      | putBlock b a f1 f2 => exact (putBlock_scores f1 f2 b a h).mono (by simp [inserts])
      | putMicro inv a f1 f2 => exact (putMicro_scores f1 f2 inv a h).mono (by omega)
      | moveLeash id a f => exact (leash_scores f a id h).mono (by omega)
      | reopen g f =>
        refine ScoresLe.mono (B := B) ?_ (by omega)
        simp only [Spec.step, NewLinkage, R.reopen f g]
        exact h
    have e := exec_scores ops R1 (by omega) key
    exact e.mono (by omega)

theorem reachable_scores {g : ProtoBlock} {l : Linkage} (h : Reachable g l) : ScoresLe (2 ^ 96) l.db := by
  obtain ⟨l0, ops, hf, hb, rfl⟩ := h
  obtain ⟨ga, sc, _, _, _, R⟩ := fresh_rep hf
  exact (exec_scores ops R (by simp; omega) (fresh_scores hf)).mono (by omega)

theorem natBytes_length {n : Nat} (h : n ≤ 2 ^ 96) : (natBytes n).length < 2 ^ 64 := by
  unfold natBytes
  split
  · simp
  · next h0 =>
    have : Nat.log2 n < 97 := (Nat.log2_lt h0).mpr (by omega)
    rw [be_length]; omega

/-! ### reading -/

variable {db : DB} {ns : List Node} {hs : List Nat}

theorem Rep.blockFits (R : Rep db ns hs) (S : ScoresLe (2 ^ 96) db) {n : UInt64} {x : Node} (h : at1 ns n.toNat = some x) :
    BlockFits x.br := by
  have hid : ∀ n y, at1 ns n = some y → y.br.id.length < 2 ^ 64 := by
    intro n y hy
    rcases R.tree.idlen n y hy with e | e <;> omega
  refine ⟨?_, hid _ _ h, ?_⟩
  · refine natBytes_length (S (numKey blockPrefix n) x.br (KV.mem_of_get ?_))
    rw [R.blocks, h]; rfl
  · by_cases h1 : n.toNat = 1
    · obtain ⟨g, hg, _, _, _, hp⟩ := R.tree.genesis
      rw [h1, hg] at h
      cases h
      rw [hp]; simp
    · obtain ⟨p, hp, _, _, e, _⟩ := R.tree.node _ _ h h1
      rw [e]; exact hid _ _ hp

theorem Rep.linkFits (R : Rep db ns hs) {n : UInt64} {x : Node} (h : at1 ns n.toNat = some x) : LinkFits (linkOf ns n.toNat x) := by
  refine ⟨?_, ?_⟩
  · show x.br.id.length < 2 ^ 64
    rcases R.tree.idlen _ x h with e | e <;> omega
  · simp only [linkOf, List.length_map, List.length_range]
    have hh : ht ns n.toNat < 2 ^ 32 := by rw [ht_of_some h]; exact x.br.height.toNat_lt
    have : ¬ 32 < clog2 (ht ns n.toNat) := by rw [lt_clog2]; omega
    unfold maxElements; omega

theorem Rep.getBlock_enc (R : Rep db ns hs) (S : ScoresLe (2 ^ 96) db) (n : UInt64) : getBlock (encDB db) n = Chains.getBlock db n := by
  simp only [getBlock, Chains.getBlock, get_enc, R.blocks]
  cases h : at1 ns n.toNat with
  | none => rfl
  | some x => simp [encVal, decBlock_enc (Rep.blockFits R S h)]

theorem Rep.getLink_enc (R : Rep db ns hs) (n : UInt64) : getLink (encDB db) n = Chains.getLink db n := by
  simp only [getLink, Chains.getLink, get_enc, R.links]
  cases h : at1 ns n.toNat with
  | none => rfl
  | some x => simp [encVal, decLink_enc (Rep.linkFits R h)]

theorem Rep.getCounter_enc (R : Rep db ns hs) (c : UInt8) (hc : c = blocksCounter ∨ c = headsCounter) :
    getCounter (encDB db) c = Chains.getCounter db c := by
  rcases hc with rfl | rfl
  · simp only [getCounter, Chains.getCounter, get_enc, R.cnt]; rfl
  · simp only [getCounter, Chains.getCounter, get_enc, R.hcnt]; rfl

theorem Rep.getNum_enc (R : Rep db ns hs) (id : BlockID) : getNumOfBlockID (encDB db) id = Chains.getNumOfBlockID db id := by
  simp only [getNumOfBlockID, Chains.getNumOfBlockID, get_enc, R.ids]
  cases numOf ns id <;> rfl

theorem Rep.getHead_enc (R : Rep db ns hs) (n : UInt64) : getHeadByBlockNum (encDB db) n = Chains.getHeadByBlockNum db n := by
  simp only [getHeadByBlockNum, Chains.getHeadByBlockNum, get_enc, R.b2h]
  cases headIdx hs n.toNat <;> rfl

theorem Rep.getLeash_enc (R : Rep db ns hs) (a : Addr) : getLeash (encDB db) a = Chains.getLeash db a := by
  simp only [getLeash, Chains.getLeash, get_enc]
  cases h : KV.get db (addrKey a) with
  | none => rfl
  | some v =>
    obtain ⟨id, rfl⟩ := R.lsh a v h
    rfl

theorem mapGo_enc {β : Type} {f : Bytes × Bytes → Go β} {g : Bytes × Val → Go β} : ∀ (l : DB), (∀ p, p ∈ l → f (p.1, encVal p.2) = g p) →
    mapGo f (encDB l) = mapGo g l
  | [], _ => rfl
  | p :: l, h => by
    have e := mapGo_enc l (fun q hq => h q (List.mem_cons_of_mem _ hq))
    have e1 := h p (by simp)
    show mapGo f ((p.1, encVal p.2) :: encDB l) = _
    rw [mapGo, mapGo, e1, e]

theorem Rep.leashes_enc (R : Rep db ns hs) : leashes (encDB db) = Chains.leashes db := by
  unfold leashes Chains.leashes
  rw [scan_enc]
  refine mapGo_enc _ (fun p hp => ?_)
  obtain ⟨a, id, _, _, _, hv, _⟩ := R.leashOf (k := p.1) (v := p.2) hp
  simp only [leashOf, Chains.leashOf, hv, encVal]

theorem Rep.getHeads_enc (R : Rep db ns hs) : getHeads (encDB db) = Chains.getHeads db := by
  unfold getHeads Chains.getHeads
  rw [scan_enc]
  refine mapGo_enc _ (fun p hp => ?_)
  rw [R.scan_heads] at hp
  obtain ⟨i, _, rfl⟩ := List.mem_map.mp hp
  rfl

end Verif.Cbor
