import Verif.Cbor.ChainsLemmas
/-
How many bytes the records of the database of blocks have.
-/

set_option autoImplicit false

namespace Verif.Cbor

open Verif Verif.Chains Verif.Chains.Spec
open Verif.KV (Fate)

/-! ### lengths of encodings -/

theorem head_length (m n : Nat) : (head m n).length ≤ 9 := by
  unfold head
  repeat' split
  all_goals simp [be_length]

theorem head_length_one {m n : Nat} (h : n < 24) : (head m n).length = 1 := by simp [head, h]

theorem head_length_two {m n : Nat} (h : n < 256) : (head m n).length ≤ 2 := by
  unfold head
  split
  · simp
  · simp [be_length]

theorem head_length_five {m n : Nat} (h : n < 4294967296) : (head m n).length ≤ 5 := by
  unfold head
  repeat' split
  all_goals simp [be_length]

theorem encBytes_length {b : Bytes} (h : b.length < 256) : (encBytes b).length ≤ 2 + b.length := by
  unfold encBytes
  split
  · simp only [null, List.length_cons, List.length_nil]; omega
  · have := head_length_two (m := 2) h
    simp only [List.length_append]; omega

theorem encBig_length {n k : Nat} (h : (natBytes n).length ≤ k) : (encBig n).length ≤ 10 + k := by
  unfold encBig
  split
  · have := head_length 0 n; omega
  · have h1 := head_length 2 (natBytes n).length
    have h2 : (head 6 2).length = 1 := rfl
    simp only [List.length_append]; omega

theorem nums_length : ∀ (l : List Nat), (l.flatMap encUint).length ≤ 9 * l.length
  | [] => by simp
  | n :: l => by
    have h1 := nums_length l
    have h2 : (encUint n).length ≤ 9 := head_length 0 n
    simp only [List.flatMap_cons, List.length_append, List.length_cons]; omega

theorem encNums_length {l : List Nat} (h : l.length < 256) : (encNums l).length ≤ 2 + 9 * l.length := by
  unfold encNums
  split
  · simp only [null, List.length_cons, List.length_nil]; omega
  · have := head_length_two (m := 4) h
    have := nums_length l
    simp only [List.length_append]; omega

theorem fields_length : ∀ (l : List (Nat × Bytes)), (∀ p, p ∈ l → p.1 < 24) →
    (l.flatMap (fun p => field p.1 p.2)).length = (l.map (fun p => 1 + p.2.length)).sum
  | [], _ => rfl
  | p :: l, h => by
    have h1 := fields_length l (fun q hq => h q (List.mem_cons_of_mem _ hq))
    have h2 := head_length_one (m := 0) (h p (by simp))
    have h3 : (field p.1 p.2).length = 1 + p.2.length := by simp only [field, List.length_append, h2]
    simp only [List.flatMap_cons, List.length_append, List.map_cons, List.sum_cons, h1, h3]

theorem encStruct_length {l : List (Nat × Bytes)} (hl : l.length < 24) (h : ∀ p, p ∈ l → p.1 < 24) :
    (encStruct l).length = 1 + (l.map (fun p => 1 + p.2.length)).sum := by
  unfold encStruct
  rw [List.length_append, fields_length l h, head_length_one hl]

theorem encBlock_length {b : BlockRec} (h1 : (natBytes b.score).length ≤ 13) (h2 : b.id.length ≤ 64) (h3 : b.parent.length ≤ 64) :
    (encBlock b).length ≤ 204 := by
  have hh := b.height.toNat_lt
  have a1 : (encUint b.height.toNat).length ≤ 5 := head_length_five (by omega)
  have a2 : (encUint b.timestamp.toNat).length ≤ 9 := head_length _ _
  have a3 : (encBigPtr (some b.score)).length ≤ 23 := encBig_length h1
  have a4 := encBytes_length (b := b.id) (by omega)
  have a5 := encBytes_length (b := b.parent) (by omega)
  have a6 := encBytes_length (b := b.generator.1) (by rw [b.generator.2]; omega)
  rw [b.generator.2] at a6
  unfold encBlock
  rw [encStruct_length (by simp) (by simp)]
  simp only [List.map_cons, List.map_nil, List.sum_cons, List.sum_nil]
  omega

theorem encLink_length {l : LinkRec} (h1 : l.blockID.length ≤ 64) (h2 : l.parents.length ≤ 32) : (encLink l).length ≤ 365 := by
  have hh := l.height.toNat_lt
  have a1 : (encUint l.height.toNat).length ≤ 5 := head_length_five (by omega)
  have a2 := encBytes_length (b := l.blockID) (by omega)
  have a3 := encNums_length (l := l.parents.map (fun x => x.toNat)) (by simp; omega)
  rw [List.length_map] at a3
  unfold encLink
  rw [encStruct_length (by simp) (by simp)]
  simp only [List.map_cons, List.map_nil, List.sum_cons, List.sum_nil]
  omega

/-! ### every record is small -/

/-- what is known of every record -/
def Small (k : Bytes) : Val → Prop
  | .raw b => k.length ≤ 65 ∧ b.length ≤ 64
  | .blk r => k.length = 9 ∧ r.id.length ≤ 64 ∧ r.parent.length ≤ 64
  | .lnk r => k.length = 9 ∧ r.blockID.length ≤ 64 ∧ r.parents.length ≤ 32

def SmallDB (db : DB) : Prop := ∀ k v, (k, v) ∈ db → Small k v

def SmallBatch (b : Batch) : Prop := ∀ k v, KV.BatchOp.put k v ∈ b → Small k v

theorem applyBatch_small : ∀ (b : Batch) {db : DB}, SmallDB db → SmallBatch b → SmallDB (KV.applyBatch db b)
  | [], _, h, _ => h
  | o :: b, db, h, hb => by
    refine applyBatch_small b (db := KV.applyOp db o) ?_ (fun k r hr => hb k r (List.mem_cons_of_mem _ hr))
    intro k r hr
    cases o with
    | put k' v =>
      rcases KV.mem_put_of_mem hr with e | hm
      · cases e; exact hb k r (by simp)
      · exact h k r hm
    | del k' => exact h k r (mem_del hr)

theorem write_small (f : Fate) {db : DB} {b : Batch} (h : SmallDB db) (hb : SmallBatch b) : SmallDB (KV.write f db b).1 := by
  cases f
  · exact applyBatch_small b h hb
  · exact h
  · exact applyBatch_small b h hb

theorem SmallBatch.append {a b : Batch} (ha : SmallBatch a) (hb : SmallBatch b) : SmallBatch (a ++ b) := fun k v h => by
  rcases List.mem_append.mp h with h | h
  · exact ha k v h
  · exact hb k v h

theorem be64_length (n : UInt64) : (be64 n).length = 8 := rfl

theorem id_length (id : BlockID) : id.1.length ≤ 64 := by have := id.2; omega

theorem small_one {k : Bytes} {v : Val} (h : Small k v) : SmallBatch [.put k v] := fun k' v' e => by
  simp only [List.mem_cons, List.not_mem_nil, or_false, KV.BatchOp.put.injEq] at e
  rw [e.1, e.2]; exact h

theorem small_counter (c : UInt8) (v : UInt64) : SmallBatch (putCounter c v) := small_one ⟨by simp [counterKey], by simp [be64_length]⟩
theorem small_num (p : UInt8) (k v : UInt64) : SmallBatch (putNum p k v) := small_one ⟨by simp [numKey, be64_length], by simp [be64_length]⟩
theorem small_id (p : UInt8) (id : BlockID) (n : UInt64) : SmallBatch (putID p id n) :=
  small_one ⟨by have := id_length id; simp [idKey]; omega, by simp [be64_length]⟩
theorem small_leash (a : Addr) (id : BlockID) : SmallBatch (putLeash a id) := by
  refine small_one ⟨?_, id_length id⟩
  cases a with
  | zero => simp [addrKey, Addr.slice]
  | v4 b => have := b.2; simp [addrKey, Addr.slice, this]
  | v6 b z => have := b.2; simp [addrKey, Addr.slice, this]
theorem small_block {n : UInt64} {b : BlockRec} (h1 : b.id.length ≤ 64) (h2 : b.parent.length ≤ 64) : SmallBatch (Chains.putBlock n b) :=
  small_one ⟨by simp [numKey, be64_length], h1, h2⟩
theorem small_link {n : UInt64} {l : LinkRec} (h1 : l.blockID.length ≤ 64) (h2 : l.parents.length ≤ 32) : SmallBatch (Chains.putLink n l) :=
  small_one ⟨by simp [numKey, be64_length], h1, h2⟩

theorem getBlock_small {db : DB} (h : SmallDB db) {n : UInt64} {r : BlockRec} (hr : Chains.getBlock db n = .ok r) :
    r.id.length ≤ 64 ∧ r.parent.length ≤ 64 := by
  unfold Chains.getBlock at hr
  split at hr
  · cases hr
  · next b hg => cases hr; exact (h _ _ (KV.mem_of_get hg)).2
  · cases hr

theorem linkParents_length {db : DB} : ∀ (k l : Nat) (pn : UInt64) {ps : List UInt64}, linkParents db k l pn = .ok ps → ps.length = k
  | 0, _, _, _, h => by cases h; rfl
  | k + 1, l, pn, ps, h => by
    rw [linkParents] at h
    obtain ⟨pl, _, h⟩ := go_bind_eq_ok.mp h
    obtain ⟨rest, hr, h⟩ := go_bind_eq_ok.mp h
    have := linkParents_length k _ _ hr
    cases h
    simp [this]

theorem maxParents_le {h : UInt32} {mp : Nat} (e : maxParents h = some mp) : mp ≤ 32 := by
  unfold maxParents at e
  split at e
  · cases e
  · split at e
    · cases e; omega
    · cases e
      have hh := h.toNat_lt
      by_cases h0 : h.toNat - 1 = 0
      · rw [h0]; simp
      · have := (Nat.log2_lt h0 (k := 32)).mpr (by omega)
        omega

theorem putHead_small {db : DB} {n p : UInt64} {b : Batch} (h : Chains.putHead db n p = .ok b) : SmallBatch b := by
  unfold Chains.putHead at h
  split at h
  · unfold putNewHead at h
    obtain ⟨c, _, h⟩ := go_bind_eq_ok.mp h
    cases h
    exact ((small_counter _ _).append (small_num _ _ _)).append (small_num _ _ _)
  · cases h
  · cases h
    refine SmallBatch.append (SmallBatch.append ?_ (small_num _ _ _)) (small_num _ _ _)
    intro k v hk
    simp at hk

theorem putLink_small {db : DB} {n : UInt64} {id pid : BlockID} {h : UInt32} {b : Batch}
    (e : Chains.putNewLinkForBlock db n id h pid = .ok b) : SmallBatch b := by
  unfold Chains.putNewLinkForBlock at e
  obtain ⟨pn, _, e⟩ := go_bind_eq_ok.mp e
  split at e
  · cases e
  · next mp hm =>
    obtain ⟨ps, hp, e⟩ := go_bind_eq_ok.mp e
    cases e
    refine small_link (id_length id) ?_
    show ps.length ≤ 32
    rw [linkParents_length _ _ _ hp]
    exact maxParents_le hm

theorem proto_small (f : Fate) {db : DB} (b : ProtoBlock) (h : SmallDB db) : SmallDB (putProtoBlock f db b).1 := by
  unfold putProtoBlock
  split
  · next batch hb =>
    refine write_small f h ?_
    unfold Chains.protoBlockBatch at hb
    obtain ⟨n, _, hb⟩ := go_bind_eq_ok.mp hb
    obtain ⟨pn, _, hb⟩ := go_bind_eq_ok.mp hb
    obtain ⟨p, hp, hb⟩ := go_bind_eq_ok.mp hb
    obtain ⟨rec_, hrec, hb⟩ := go_bind_eq_ok.mp hb
    obtain ⟨lnk, hl, hb⟩ := go_bind_eq_ok.mp hb
    obtain ⟨hd, hh, hb⟩ := go_bind_eq_ok.mp hb
    cases hb
    have hr : rec_.id.length ≤ 64 ∧ rec_.parent.length ≤ 64 := by
      unfold newBlock at hrec
      split at hrec
      · cases hrec
      · obtain ⟨sc, hsc, hrec⟩ := go_bind_eq_ok.mp hrec
        cases hrec
        exact ⟨id_length _, id_length _⟩
    exact ((((small_counter _ _).append (small_id _ _ _)).append (small_block hr.1 hr.2)).append (putLink_small hl)).append (putHead_small hh)
  · exact h

theorem micro_small (f : Fate) {db : DB} (inv : MicroInv) (h : SmallDB db) : SmallDB (putMicroBlock f db inv).1 := by
  unfold putMicroBlock
  split
  · next batch hb =>
    refine write_small f h ?_
    unfold Chains.microBlockBatch at hb
    obtain ⟨n, _, hb⟩ := go_bind_eq_ok.mp hb
    obtain ⟨pn, _, hb⟩ := go_bind_eq_ok.mp hb
    obtain ⟨p, hp, hb⟩ := go_bind_eq_ok.mp hb
    obtain ⟨pid, _, hb⟩ := go_bind_eq_ok.mp hb
    obtain ⟨lnk, hl, hb⟩ := go_bind_eq_ok.mp hb
    obtain ⟨hd, hh, hb⟩ := go_bind_eq_ok.mp hb
    cases hb
    refine ((((small_counter _ _).append (small_id _ _ _)).append (small_block (id_length _) ?_)).append (putLink_small hl)).append (putHead_small hh)
    exact (getBlock_small h hp).2
  · exact h

theorem leash_small (f : Fate) {db : DB} (a : Addr) (id : BlockID) (h : SmallDB db) : SmallDB (updateLeash f db a id).1 :=
  write_small f h (small_leash a id)

theorem genesis_small (f : Fate) {db : DB} (g : ProtoBlock) (h : SmallDB db) : SmallDB (initStorage f db g).1 := by
  unfold initStorage
  split
  · exact h
  · split
    · split
      · next batch hb =>
        refine write_small f h ?_
        unfold genesisBatch at hb
        split at hb
        · cases hb
        · obtain ⟨sc, hsc, hb⟩ := go_bind_eq_ok.mp hb
          cases hb
          exact ((((((small_block (id_length _) (by simp)).append (small_counter _ _)).append (small_id _ _ _)).append
            (small_link (id_length _) (by simp))).append (small_counter _ _)).append (small_num _ _ _)).append (small_num _ _ _)
      · exact h
    · exact h

theorem new_small (f : Fate) {db : DB} {g : ProtoBlock} (h : SmallDB db) : SmallDB (NewLinkage f db g).1 := by
  have := genesis_small f g h
  unfold NewLinkage
  split
  · next e => rw [e] at this; exact this
  · next e => rw [e] at this; exact this

theorem step_small {l : Linkage} (o : Op) (h : SmallDB l.db) : SmallDB (step l o).1.db := by
  cases o with
  | putBlock b a f1 f2 =>
    show SmallDB (PutBlock f1 f2 l.db b a).1
    unfold PutBlock
    split
    · exact h
    · exact leash_small f1 a b.id h
    · split
      · exact h
      · exact h
      · have hp := proto_small f1 b h
        split
        · next e => rw [e] at hp; exact hp
        · next e => rw [e] at hp; exact leash_small f2 a b.id hp
  | putMicro inv a f1 f2 =>
    show SmallDB (PutMicroBlock f1 f2 l.db inv a).1
    unfold PutMicroBlock
    split
    · exact h
    · exact leash_small f1 a _ h
    · split
      · exact h
      · exact h
      · have hp := micro_small f1 inv h
        split
        · next e => rw [e] at hp; exact hp
        · next e => rw [e] at hp; exact leash_small f2 a _ hp
  | moveLeash id a f => exact leash_small f a id h
  | reopen g f =>
    have := new_small f (g := g) h
    simp only [Spec.step]
    split
    · next db' l' e =>
      have hd : db' = l'.db := by
        unfold NewLinkage at e
        split at e
        · cases e; rfl
        · cases e
      rw [e, hd] at this; exact this
    · next e => rw [e] at this; exact this

theorem exec_small : ∀ (ops : List Op) {l : Linkage}, SmallDB l.db → SmallDB (exec l ops).db
  | [], _, h => h
  | o :: ops, _, h => exec_small ops (step_small o h)

theorem reachable_small {g : ProtoBlock} {l : Linkage} (h : Reachable g l) : SmallDB l.db := by
  obtain ⟨l0, ops, hf, _, rfl⟩ := h
  refine exec_small ops ?_
  have hn := new_small .ok (db := []) (g := g) (fun k v h => by simp at h)
  have hd : (NewLinkage .ok [] g).1 = l0.db := by
    have hf' : NewLinkage .ok [] g = _ := hf
    exact congrArg Prod.fst hf'
  rw [hd] at hn; exact hn

/-- no record has more than 374 bytes, the key included -/
theorem small_bytes {db : DB} (S : SmallDB db) (B : ScoresLe (2 ^ 96) db) {k : Bytes} {v : Val} (h : (k, v) ∈ db) :
    k.length + (encVal v).length ≤ 374 := by
  have hs := S k v h
  cases v with
  | raw b => simp only [Small] at hs; simp only [encVal]; omega
  | blk r =>
    obtain ⟨h1, h2, h3⟩ := hs
    have hn : (natBytes r.score).length ≤ 13 := by
      have hb := B k r h
      rw [natBytes]
      split
      · simp
      · next h0 =>
        rw [be_length]
        have := (Nat.log2_lt h0 (k := 97)).mpr (by omega)
        omega
    have := encBlock_length hn h2 h3
    simp only [encVal]; omega
  | lnk r =>
    obtain ⟨h1, h2, h3⟩ := hs
    have := encLink_length h2 h3
    simp only [encVal]; omega

end Verif.Cbor
