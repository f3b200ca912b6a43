import Verif.Chains.Rep
/-
The mutating calls under the representation invariant.
-/
set_option autoImplicit false

namespace Verif.Chains

open Verif KV

variable {db : DB} {ns : List Node} {hs : List Nat}

/-! ### leash writes -/

theorem applyBatch_putLeash (a : Addr) (id : BlockID) :
    applyBatch db (putLeash a id) = put db (addrKey a) (.raw id.1) := rfl

theorem Rep.putLeash (R : Rep db ns hs) (a : Addr) (id : BlockID) :
    Rep (applyBatch db (putLeash a id)) ns hs := by
  rw [applyBatch_putLeash]
  refine ⟨sorted_put R.sorted _ _, R.tree, R.hok, R.bound, R.hbound, ?_, ?_, ?_, ?_, ?_, ?_, ?_, ?_, ?_, ?_⟩
  all_goals simp only [get_put]
  · simpa using R.cnt
  · simpa using R.hcnt
  · intro i; simpa using R.ids i
  · intro n; simpa using R.blocks n
  · intro n; simpa using R.links n
  · intro n; simpa using R.h2b n
  · intro n; simpa using R.b2h n
  · intro b v
    split
    · intro h; exact ⟨id, (Option.some.inj h).symm⟩
    · exact R.lsh b v
  · intro r v
    split
    · rename_i h; intro _; exact ⟨a, by simpa [addrKey] using h⟩
    · exact R.k3 r v
  · intro r v
    split
    · rename_i h; simp [addrKey] at h
    · exact R.k4 r v

theorem updateLeash_ok (a : Addr) (id : BlockID) :
    updateLeash .ok db a id = (put db (addrKey a) (.raw id.1), .ok ()) := rfl

/-! ### inserting blocks -/

/-- the node inserted for a block whose parent is node `p` -/
def blockNode (b : ProtoBlock) (ga : WavesAddr) (sc : Nat) (p : Nat) (y : Node) : Node :=
  { br := { height := y.br.height + 1, timestamp := b.timestamp, score := sc + y.br.score, id := b.id.1,
            parent := b.parent.1, generator := ga },
    par := p, ext := p }

/-- the node inserted for a micro-block referencing node `r` -/
def microNode (inv : MicroInv) (r : Nat) (y : Node) : Node :=
  { br := { y.br with id := inv.totalBlockID.1 }, par := y.par, ext := r }

theorem Rep.height_succ (R : Rep db ns hs) (hb : ns.length + 1 < 2 ^ 32) {p : Nat} {y : Node}
    (hy : at1 ns p = some y) : (y.br.height + 1).toNat = y.br.height.toNat + 1 := by
  have h1 := R.tree.ht_le p
  rw [ht_of_some hy] at h1
  have h2 := (at1_le hy).2
  rw [UInt32.toNat_add]
  simp
  omega

theorem Rep.newOK_block (R : Rep db ns hs) (hb : ns.length + 1 < 2 ^ 32) {b : ProtoBlock} {ga : WavesAddr} {sc p : Nat}
    {y : Node} (hid : numOf ns b.id = none) (hp : numOf ns b.parent = some p) (hy : at1 ns p = some y) :
    NewOK ns (blockNode b ga sc p y) where
  par := by
    refine ⟨y, hy, R.height_succ hb hy, ?_, by simp [blockNode]⟩
    obtain ⟨y', hy', he⟩ := numOf_some hp
    rw [hy] at hy'; cases hy'
    exact he.symm
  ext := ⟨y, hy⟩
  idlen := b.id.2
  fresh := fun n z hz => numOf_none hid hz

theorem Rep.newOK_micro (R : Rep db ns hs) {inv : MicroInv} {r : Nat} {y : Node}
    (hid : numOf ns inv.totalBlockID = none) (hy : at1 ns r = some y) (h1 : r ≠ 1) :
    NewOK ns (microNode inv r y) where
  par := by
    obtain ⟨p, hp, _, hh, hpar, hsc, _⟩ := R.tree.node r y hy h1
    exact ⟨p, hp, hh, hpar, hsc⟩
  ext := ⟨y, hy⟩
  idlen := inv.totalBlockID.2
  fresh := fun n z hz => numOf_none hid hz

theorem Rep.protoBlockBatch (R : Rep db ns hs) (hb : ns.length + 1 < 2 ^ 32) {b : ProtoBlock} {p : Nat} {y : Node}
    (hp : numOf ns b.parent = some p) (hy : at1 ns p = some y) :
    protoBlockBatch db b =
      match b.generator with
      | none => fail .badGenerator
      | some ga =>
        match calculateScore b.baseTarget with
        | .error e => .error e
        | .ok sc => .ok (insBatch ns hs b.id (blockNode b ga sc p y)) := by
  unfold Chains.protoBlockBatch
  rw [R.getCounter_blocks, R.getNum, hp]
  simp only [go_bind_ok, R.getBlock_ofNat hy, newBlock]
  cases b.generator with
  | none => rfl
  | some ga =>
    simp only [calculateCumulativeScore]
    cases calculateScore b.baseTarget with
    | error e => rfl
    | ok sc =>
      simp only [go_bind_ok, go_pure, ofNat64_succ]
      rw [R.putNewLink hp hy (R.height_succ hb hy), R.putHead hy]
      rfl

theorem Rep.microBlockBatch (R : Rep db ns hs) {inv : MicroInv} {r : Nat} {y : Node}
    (hr : numOf ns inv.reference = some r) (hy : at1 ns r = some y) :
    microBlockBatch db inv =
      if r = 1 then fail .badID else .ok (insBatch ns hs inv.totalBlockID (microNode inv r y)) := by
  unfold Chains.microBlockBatch
  rw [R.getCounter_blocks, R.getNum, hr]
  simp only [go_bind_ok, R.getBlock_ofNat hy]
  by_cases h1 : r = 1
  · subst h1
    obtain ⟨g, hg, _, _, _, hpar⟩ := R.tree.genesis
    rw [hy] at hg; cases hg
    simp [hpar, newBlockIDFromBytes, fail]
  · obtain ⟨p, hp, _, hh, hpar, hsc, _⟩ := R.tree.node r y hy h1
    have hlen := R.tree.idlen _ _ hp
    have hid : newBlockIDFromBytes y.br.parent = .ok ⟨p.br.id, hlen⟩ := by
      rw [hpar]; simp [newBlockIDFromBytes, hlen]
    have hnum : numOf ns ⟨p.br.id, hlen⟩ = some y.par := R.tree.numOf_eq hp rfl
    simp only [hid, go_bind_ok, ofNat64_succ, h1, if_false]
    rw [R.putNewLink hnum hp hh, R.putHead hy]
    rfl

/-! ### opening -/

/-- the genesis node -/
def genesisNode (g : ProtoBlock) (ga : WavesAddr) (sc : Nat) : Node :=
  { br := { height := 1, timestamp := g.timestamp, score := sc, id := g.id.1, parent := [], generator := ga },
    par := 0, ext := 0 }

theorem genesisBatch_eq {g : ProtoBlock} {ga : WavesAddr} {sc : Nat} (hg : g.generator = some ga)
    (hs : calculateScore g.baseTarget = .ok sc) :
    genesisBatch g = .ok (putBlock 1 (genesisNode g ga sc).br ++ putCounter blocksCounter 1 ++ putID blockPrefix g.id 1
      ++ putLink 1 { height := 1, blockID := g.id.1, parents := [] }
      ++ putCounter headsCounter 1 ++ putNum headToBlockPrefix 1 1 ++ putNum blockToHeadPrefix 1 1) := by
  simp [genesisBatch, hg, hs, genesisNode]

theorem Rep.genesis {g : ProtoBlock} {ga : WavesAddr} {sc : Nat} :
    Rep (applyBatch [] (putBlock 1 (genesisNode g ga sc).br ++ putCounter blocksCounter 1 ++ putID blockPrefix g.id 1
      ++ putLink 1 { height := 1, blockID := g.id.1, parents := [] }
      ++ putCounter headsCounter 1 ++ putNum headToBlockPrefix 1 1 ++ putNum blockToHeadPrefix 1 1))
      [genesisNode g ga sc] [1] := by
  have hat : ∀ n, at1 [genesisNode g ga sc] n = if n = 1 then some (genesisNode g ga sc) else none := by
    intro n
    match n with
    | 0 => rfl
    | 1 => rfl
    | k + 2 => simp
  have hto : ∀ n : UInt64, n.toNat = 1 ↔ n = 1 := fun n => by rw [← UInt64.toNat_inj]; simp
  refine ⟨sorted_applyBatch List.Pairwise.nil _, ?_, ?_, by simp, by simp, ?_, ?_, ?_, ?_, ?_, ?_, ?_, ?_, ?_, ?_⟩
  · constructor
    · exact ⟨_, rfl, rfl, rfl, rfl, rfl⟩
    · intro n x hx h1; rw [hat] at hx; simp [h1] at hx
    · intro n x hx; rw [hat] at hx; split at hx
      · cases hx; exact g.id.2
      · cases hx
    · intro n m x y hx hy _
      rw [hat] at hx hy
      split at hx
      · split at hy
        · omega
        · cases hy
      · cases hx
  · constructor
    · simp
    · intro n
      simp only [List.mem_singleton]
      constructor
      · rintro rfl
        refine ⟨⟨_, rfl⟩, ?_⟩
        intro m y hy; rw [hat] at hy; split at hy
        · cases hy; simp [genesisNode]
        · cases hy
      · rintro ⟨⟨x, hx⟩, _⟩
        rw [hat] at hx; split at hx
        · assumption
        · cases hx
  all_goals simp only [putBlock, putCounter, putID, putLink, putNum]
  · simp [applyBatch, applyOp, get_put, rawNum]
  · simp [applyBatch, applyOp, get_put, rawNum]
  · intro i
    by_cases h : i = g.id
    · subst h; simp [applyBatch, applyOp, get_put, numOf, genesisNode, rawNum]
    · have : ¬ (g.id.1 = i.1) := fun e => h (Subtype.ext e.symm)
      simp [applyBatch, applyOp, get_put, KV.get, numOf, genesisNode, h, this]
  · intro n
    rw [hat]
    simp only [hto]
    by_cases h : n = 1 <;> simp [applyBatch, applyOp, get_put, KV.get, h]
  · intro n
    rw [hat]
    simp only [hto]
    by_cases h : n = 1
    · subst h; simp [applyBatch, applyOp, get_put, linkOf, genesisNode, ht, clog2]
    · simp [applyBatch, applyOp, get_put, KV.get, h]
  · intro n
    by_cases h : n = 1
    · subst h; simp [applyBatch, applyOp, get_put, rawNum]
    · have : at1 [1] n.toNat = none := at1_none (by
        have := mt (hto n).mp h; simp; omega)
      rw [this]; simp [applyBatch, applyOp, get_put, KV.get, h]
  · intro n
    by_cases h : n = 1
    · subst h; simp [applyBatch, applyOp, get_put, rawNum, headIdx]
    · have : headIdx [1] n.toNat = none := headIdx_none.mpr (by simp; exact mt (hto n).mp h)
      rw [this]; simp [applyBatch, applyOp, get_put, KV.get, h]
  · intro a v
    simp [applyBatch, applyOp, get_put, KV.get]
  · intro r v
    simp [applyBatch, applyOp, get_put, KV.get, counterKey, idKey, numKey]
  · intro r v
    simp [applyBatch, applyOp, get_put, KV.get, counterKey, idKey, numKey]
    intro h _; exact ⟨_, h⟩

theorem Rep.reopen (R : Rep db ns hs) (f : Fate) (g : ProtoBlock) : initStorage f db g = (db, .ok ()) := by
  have h0 : UInt64.ofNat ns.length ≠ 0 := by
    intro h
    have := congrArg UInt64.toNat h
    rw [toNat_ofNat64 (by have := R.bound; omega)] at this
    have := R.tree.len_pos
    simp_all
  simp [initStorage, R.getCounter_blocks, h0]

/-! ### outcomes of the API calls -/

theorem Rep.PutBlock_known (R : Rep db ns hs) {b : ProtoBlock} {n : Nat} (h : numOf ns b.id = some n)
    (f1 f2 : Fate) (a : Addr) : PutBlock f1 f2 db b a = updateLeash f1 db a b.id := by
  simp [PutBlock, R.hasBlock, h]

theorem Rep.PutBlock_orphan (R : Rep db ns hs) {b : ProtoBlock} (h : numOf ns b.id = none)
    (hp : numOf ns b.parent = none) (f1 f2 : Fate) (a : Addr) :
    PutBlock f1 f2 db b a = (db, fail .parentNotFound) := by
  simp [PutBlock, R.hasBlock, h, hp]

/-- the two writes of a call that inserts a block -/
def insertThenLeash (f1 f2 : Fate) (db : DB) (batch : Batch) (a : Addr) (id : BlockID) : DB × Go Unit :=
  match write f1 db batch with
  | (db', .error e) => (db', .error e)
  | (db', .ok ()) => updateLeash f2 db' a id

theorem Rep.PutBlock_new (R : Rep db ns hs) (hb : ns.length + 1 < 2 ^ 32) {b : ProtoBlock} {p : Nat} {y : Node}
    (h : numOf ns b.id = none) (hp : numOf ns b.parent = some p) (hy : at1 ns p = some y)
    (f1 f2 : Fate) (a : Addr) :
    PutBlock f1 f2 db b a =
      match b.generator with
      | none => (db, fail .badGenerator)
      | some ga =>
        match calculateScore b.baseTarget with
        | .error e => (db, .error e)
        | .ok sc => insertThenLeash f1 f2 db (insBatch ns hs b.id (blockNode b ga sc p y)) a b.id := by
  simp only [PutBlock, R.hasBlock, h, hp, Option.isSome, putProtoBlock, R.protoBlockBatch hb hp hy]
  cases b.generator with
  | none => rfl
  | some ga =>
    cases calculateScore b.baseTarget with
    | error e => rfl
    | ok sc => rfl

theorem Rep.PutMicro_known (R : Rep db ns hs) {b : MicroInv} {n : Nat} (h : numOf ns b.totalBlockID = some n)
    (f1 f2 : Fate) (a : Addr) : PutMicroBlock f1 f2 db b a = updateLeash f1 db a b.totalBlockID := by
  simp [PutMicroBlock, R.hasBlock, h]

theorem Rep.PutMicro_orphan (R : Rep db ns hs) {b : MicroInv} (h : numOf ns b.totalBlockID = none)
    (hp : numOf ns b.reference = none) (f1 f2 : Fate) (a : Addr) :
    PutMicroBlock f1 f2 db b a = (db, fail .refNotFound) := by
  simp [PutMicroBlock, R.hasBlock, h, hp]

theorem Rep.PutMicro_new (R : Rep db ns hs) {b : MicroInv} {r : Nat} {y : Node}
    (h : numOf ns b.totalBlockID = none) (hr : numOf ns b.reference = some r) (hy : at1 ns r = some y)
    (f1 f2 : Fate) (a : Addr) :
    PutMicroBlock f1 f2 db b a =
      if r = 1 then (db, fail .badID)
      else insertThenLeash f1 f2 db (insBatch ns hs b.totalBlockID (microNode b r y)) a b.totalBlockID := by
  simp only [PutMicroBlock, R.hasBlock, h, hr, Option.isSome, putMicroBlock, R.microBlockBatch hr hy]
  by_cases h1 : r = 1
  · simp [h1, fail]
  · simp only [h1, if_false, insertThenLeash]
    rfl

end Verif.Chains
