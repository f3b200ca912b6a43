import Verif.Chains.LeashSteps
import Verif.Chains.Examples
/-
Properties C01-C05, C22-C25 and C27: storing blocks.

`PutBlock f1 f2 db b a` is the call `PutBlock(b, a)` on the store `db`; `f1`, `f2`
are the fates of its (at most two) database writes.  It returns the store
after the call and the result of the call.
-/
set_option autoImplicit false

namespace Verif.Props

open Verif KV Chains Spec

/-! ## C01: stored blocks are permanent and immutable -/

/-- Whatever calls follow, with whatever write failures, lost acknowledgements (crash points) and
reopenings, a stored block stays stored and reads back the same. -/
theorem C01_blocks_permanent {g : ProtoBlock} {l0 : Linkage} (hf : Fresh g l0) (ops1 ops2 : List Op)
    (hb : inserts (ops1 ++ ops2) + 2 < 2 ^ 32) (id : BlockID) (hs : Stored (exec l0 ops1).db id) :
    Stored (exec l0 (ops1 ++ ops2)).db id ∧
    BlockOf (exec l0 (ops1 ++ ops2)).db id = BlockOf (exec l0 ops1).db id ∧
    getBlockByID (exec l0 (ops1 ++ ops2)).db id = getBlockByID (exec l0 ops1).db id := by
  obtain ⟨ga, sc, _, _, _, R0⟩ := fresh_rep hf
  rw [inserts_append] at hb
  obtain ⟨ns1, hs1, R1, _, hl1⟩ := R0.exec ops1 (by simp; omega)
  obtain ⟨ns2, hs2, R2, hp2, _⟩ := R1.exec ops2 (by simp at hl1; omega)
  obtain ⟨n, hn⟩ := R1.stored_iff.mp hs
  rw [exec_append]
  have he := getBlockByID_ext R1 R2 hp2 hn
  exact ⟨R2.stored_iff.mpr ⟨n, numOf_prefix R2.tree hp2 hn⟩, by simp only [BlockOf, he], he⟩

example : Fresh Ex.g0 Ex.l0 ∧ inserts (Ex.ops1 ++ [Ex.pb 6 5 2, .reopen Ex.g0 .ok]) + 2 < 2 ^ 32 ∧
    Stored (exec Ex.l0 Ex.ops1).db (Ex.bid 4) ∧ Stored (exec Ex.l0 Ex.ops1).db (Ex.bid 5) :=
  ⟨Ex.fresh, by decide +kernel, by unfold Stored; decide +kernel, by unfold Stored; decide +kernel⟩

/-! ## C02: PutBlock accepts exactly the blocks it can attach -/

/-- For a block with a usable generator key and a base target below 2^63 (other blocks: C27), and
writes that succeed, `PutBlock` succeeds iff the block or its parent is stored. -/
theorem C02_accept_iff {g : ProtoBlock} {l : Linkage} (h : Reachable g l) (b : ProtoBlock) (a : Addr)
    (hg : b.generator ≠ none) (hbt : b.baseTarget.toNat < 2 ^ 63) :
    (PutBlock .ok .ok l.db b a).2 = .ok () ↔ Stored l.db b.id ∨ Stored l.db b.parent := by
  obtain ⟨ns, hs, R, hb⟩ := reachable_rep h
  rw [R.stored_iff, R.stored_iff]
  cases hn : numOf ns b.id with
  | some n => rw [R.PutBlock_known hn]; simp [updateLeash, write]
  | none =>
    cases hp : numOf ns b.parent with
    | none => rw [R.PutBlock_orphan hn hp]; simp [fail]
    | some p =>
      obtain ⟨y, hy, _⟩ := numOf_some hp
      rw [R.PutBlock_new hb hn hp hy]
      cases hge : b.generator with
      | none => exact absurd hge hg
      | some ga => rw [calculateScore_eq hbt]; simp [insertThenLeash, write, updateLeash]

/-- A block that is not stored and whose parent is not stored is refused with `ErrParentNotFound`,
whatever the writes would do, and the store is left exactly as it was. -/
theorem C02_orphan_refused {g : ProtoBlock} {l : Linkage} (h : Reachable g l) (b : ProtoBlock) (a : Addr)
    (f1 f2 : Fate) (h1 : ¬ Stored l.db b.id) (h2 : ¬ Stored l.db b.parent) :
    PutBlock f1 f2 l.db b a = (l.db, fail .parentNotFound) := by
  obtain ⟨ns, hs, R, _⟩ := reachable_rep h
  rw [R.stored_iff, not_exists] at h1 h2
  exact R.PutBlock_orphan (Option.eq_none_iff_forall_ne_some.mpr h1) (Option.eq_none_iff_forall_ne_some.mpr h2) f1 f2 a

/-- With writes that succeed, a refused block (error or panic, for whatever reason) leaves the
store exactly as it was. -/
theorem C02_refused_unchanged {g : ProtoBlock} {l : Linkage} (h : Reachable g l) (b : ProtoBlock) (a : Addr)
    (hr : (PutBlock .ok .ok l.db b a).2 ≠ .ok ()) : (PutBlock .ok .ok l.db b a).1 = l.db := by
  obtain ⟨ns, hs, R, hb⟩ := reachable_rep h
  cases hn : numOf ns b.id with
  | some n => rw [R.PutBlock_known hn] at hr; simp [updateLeash, write] at hr
  | none =>
    cases hp : numOf ns b.parent with
    | none => rw [R.PutBlock_orphan hn hp]
    | some p =>
      obtain ⟨y, hy, _⟩ := numOf_some hp
      rw [R.PutBlock_new hb hn hp hy] at hr ⊢
      cases hge : b.generator with
      | none => rfl
      | some ga =>
        rw [hge] at hr
        cases hsc : calculateScore b.baseTarget with
        | error e => rfl
        | ok sc => rw [hsc] at hr; simp [insertThenLeash, write, updateLeash] at hr

/-- An accepted block is stored, and the announcing peer is leashed to it. -/
theorem C02_accepted_stored {g : ProtoBlock} {l : Linkage} (h : Reachable g l) (b : ProtoBlock) (a : Addr)
    (f1 f2 : Fate) (hr : (PutBlock f1 f2 l.db b a).2 = .ok ()) :
    Stored (PutBlock f1 f2 l.db b a).1 b.id ∧ LeashOf { l with db := (PutBlock f1 f2 l.db b a).1 } a = .ok b.id := by
  obtain ⟨ns, hs, R, hb⟩ := reachable_rep h
  cases hn : numOf ns b.id with
  | some n =>
    rw [R.PutBlock_known hn] at hr ⊢
    cases f1 <;> simp only [updateLeash, write, fail, reduceCtorEq] at hr ⊢
    refine ⟨(R.putLeash a b.id).stored_iff.mpr ⟨n, hn⟩, ?_⟩
    rw [applyBatch_putLeash]
    simp [LeashOf, getLeash_put]
  | none =>
    cases hp : numOf ns b.parent with
    | none => rw [R.PutBlock_orphan hn hp] at hr; simp [fail] at hr
    | some p =>
      obtain ⟨y, hy, _⟩ := numOf_some hp
      rw [R.PutBlock_new hb hn hp hy] at hr ⊢
      cases hge : b.generator with
      | none => rw [hge] at hr; simp [fail] at hr
      | some ga =>
        rw [hge] at hr
        cases hsc : calculateScore b.baseTarget with
        | error e => rw [hsc] at hr; simp at hr
        | ok sc =>
          rw [hsc] at hr
          cases f1 <;> cases f2 <;> simp only [insertThenLeash, write, updateLeash, fail, reduceCtorEq] at hr ⊢
          have N := R.newOK_block hb hn hp hy (ga := ga) (sc := sc)
          have R' := R.insert N b.id rfl hb
          refine ⟨(R'.putLeash a b.id).stored_iff.mpr ⟨ns.length + 1, ?_⟩, ?_⟩
          · rw [numOf_append N.fresh]; simp [blockNode]
          · rw [applyBatch_putLeash]; simp [LeashOf, getLeash_put]

-- the example store accepts a child of block 5, refuses a child of an unknown block
example : Reachable Ex.g0 Ex.l1 ∧ ¬ Stored Ex.l1.db (Ex.bid 6) ∧ Stored Ex.l1.db (Ex.bid 5) ∧
    (PutBlock .ok .ok Ex.l1.db (Ex.blk 6 5) (Ex.ip 1)).2 = .ok () ∧
    ¬ Stored Ex.l1.db (Ex.bid 8) ∧ (PutBlock .ok .ok Ex.l1.db (Ex.blk 9 8) (Ex.ip 1)).2 ≠ .ok () :=
  ⟨Ex.reach1, by unfold Stored; decide +kernel, by unfold Stored; decide +kernel, by decide +kernel,
   by unfold Stored; decide +kernel, by decide +kernel⟩

/-! ## C03, C04: height and score of an accepted block -/

/-- A newly accepted block reads back with the parent it named, height one more than the parent's,
score equal to the parent's score plus floor(2^64 / base target), and its own timestamp and
generator.  (`getBlockByID` is the stored record; `Block` shows it, see `C03_block_readback`.) -/
theorem C03_C04_new_block {g : ProtoBlock} {l : Linkage} (h : Reachable g l) (b : ProtoBlock) (a : Addr)
    (f1 f2 : Fate) (hnew : ¬ Stored l.db b.id) (hr : (PutBlock f1 f2 l.db b a).2 = .ok ()) :
    ∃ r rp, getBlockByID (PutBlock f1 f2 l.db b a).1 b.id = .ok r ∧ getBlockByID l.db b.parent = .ok rp ∧
      r.parent = b.parent.1 ∧ r.height.toNat = rp.height.toNat + 1 ∧
      r.score = rp.score + blockScore b.baseTarget.toNat ∧
      r.timestamp = b.timestamp ∧ some r.generator = b.generator ∧ r.id = b.id.1 := by
  obtain ⟨ns, hs, R, hb⟩ := reachable_rep h
  rw [R.stored_iff, not_exists] at hnew
  have hn := Option.eq_none_iff_forall_ne_some.mpr hnew
  cases hp : numOf ns b.parent with
  | none => rw [R.PutBlock_orphan hn hp] at hr; simp [fail] at hr
  | some p =>
    obtain ⟨y, hy, hye⟩ := numOf_some hp
    rw [R.PutBlock_new hb hn hp hy] at hr ⊢
    cases hge : b.generator with
    | none => rw [hge] at hr; simp [fail] at hr
    | some ga =>
      rw [hge] at hr
      cases hsc : calculateScore b.baseTarget with
      | error e => rw [hsc] at hr; simp at hr
      | ok sc =>
        rw [hsc] at hr
        have hsc' : sc = blockScore b.baseTarget.toNat := by
          by_cases hbt : b.baseTarget.toNat < 2 ^ 63
          · rw [calculateScore_eq hbt] at hsc; simpa using hsc.symm
          · rw [calculateScore_panics (by omega)] at hsc; cases hsc
        cases f1 <;> cases f2 <;> simp only [insertThenLeash, write, updateLeash, fail, reduceCtorEq] at hr ⊢
        have N := R.newOK_block hb hn hp hy (ga := ga) (sc := sc)
        have R' := (R.insert N b.id rfl hb).putLeash a b.id
        have hnum : numOf (ns ++ [blockNode b ga sc p y]) b.id = some (ns.length + 1) := by
          rw [numOf_append N.fresh]; simp [blockNode]
        refine ⟨_, _, R'.getBlockByID_some hnum at1_append_new, R.getBlockByID_some hp hy, ?_⟩
        simp only [blockNode, R.height_succ hb hy, hsc', true_and, and_true]
        omega

/-- `Block(id)` shows the stored record: same parent, height, score, generator and timestamp (for
timestamps an int64 can hold, see C27). -/
theorem C03_block_readback {g : ProtoBlock} {l : Linkage} (h : Reachable g l) (id : BlockID) (r : BlockRec)
    (hr : getBlockByID l.db id = .ok r) (hts : r.timestamp.toNat < 2 ^ 63 - 1) :
    ∃ b, BlockOf l.db id = .ok b ∧ b.id = id ∧ b.height = r.height ∧ b.score = r.score ∧
      b.generator = r.generator ∧ b.timestamp = r.timestamp ∧
      b.parent.1 = (if r.parent = [] then zeroID.1 else r.parent) := by
  obtain ⟨ns, hs, R, _⟩ := reachable_rep h
  cases hn : numOf ns id with
  | none => rw [R.getBlockByID, hn] at hr; simp [fail] at hr
  | some n =>
    obtain ⟨x, hx, hxe⟩ := numOf_some hn
    rw [R.getBlockByID_some hn hx] at hr
    cases hr
    obtain ⟨id', par, hid', hpar, hgen, hres⟩ := R.blockOfRec hx
    rw [if_pos hts] at hres
    have : id' = id := Subtype.ext (hid'.symm.trans hxe)
    subst this
    refine ⟨_, (R.BlockOf_eq hn hx).trans hres, rfl, rfl, rfl, rfl, rfl, ?_⟩
    by_cases h1 : n = 1
    · subst h1
      obtain ⟨gn, hgn, _, _, _, hp⟩ := R.tree.genesis
      rw [hx] at hgn; cases hgn
      rw [if_pos hp]; simp [apiBlock, hgen]
    · have hp := hpar h1
      have : x.br.parent ≠ [] := by
        intro e; have := par.2; rw [← hp, e] at this; simp at this
      rw [if_neg this]; simp [apiBlock, hp]

example : ¬ Stored Ex.l1.db (Ex.bid 6) ∧ (PutBlock .ok .ok Ex.l1.db (Ex.blk 6 5) (Ex.ip 1)).2 = .ok () ∧
    (BlockOf (PutBlock .ok .ok Ex.l1.db (Ex.blk 6 5) (Ex.ip 1)).1 (Ex.bid 6)).map (fun b => (b.parent, b.height, b.score))
      = .ok (Ex.bid 5, 5, 5 * (2 ^ 64 / 100)) :=
  ⟨by unfold Stored; decide +kernel, by decide +kernel, by decide +kernel⟩

/-- The genesis block has height 1 and no parent. -/
theorem C03_genesis {g : ProtoBlock} {l : Linkage} (h : Reachable g l) :
    HeightOf l.db g.id 1 ∧ ∀ p, ¬ IsParent l.db p g.id := by
  obtain ⟨l0, ops, hf, hb, rfl⟩ := h
  obtain ⟨ga, sc, _, _, _, R0⟩ := fresh_rep hf
  obtain ⟨ns, hs, R, hp, _⟩ := R0.exec ops (by simp; omega)
  have hn : numOf ns g.id = some 1 := by
    obtain ⟨t, rfl⟩ := hp
    exact R.tree.numOf_eq (x := genesisNode g ga sc) rfl rfl
  refine ⟨(R.heightOf hn).mpr ?_, ?_⟩
  · obtain ⟨t, rfl⟩ := hp; rfl
  · intro p hpar
    exact ((R.isParent_iff hn).mp hpar).1 rfl

/-- Every chain from a stored block down to genesis has as many blocks as the height says. -/
theorem C03_height_is_path_length {g : ProtoBlock} {l : Linkage} (h : Reachable g l) (ids : List BlockID)
    (hw : IsWalk l.db ids) (id : BlockID) (h1 : ids.head? = some id) (h2 : ids.getLast? = some g.id) :
    HeightOf l.db id ids.length := by
  obtain ⟨ns, hs, R, _⟩ := reachable_rep h
  induction ids generalizing id with
  | nil => simp at h1
  | cons a ids ih =>
    simp only [List.head?_cons, Option.some.injEq] at h1
    subst h1
    cases ids with
    | nil =>
      simp only [List.getLast?_singleton, Option.some.injEq] at h2
      subst h2
      exact (C03_genesis h).1
    | cons b rest =>
      obtain ⟨hp, hw'⟩ := hw
      have := ih hw' b rfl (by simpa [List.getLast?_cons_cons] using h2)
      obtain ⟨r, rp, hr, hrp, hh, _⟩ := parent_height_score R hp
      obtain ⟨rp', hrp', hh'⟩ := this
      rw [hrp] at hrp'; cases hrp'
      exact ⟨r, hr, by rw [hh, hh']; rfl⟩

/-- and there is such a chain for every stored block -/
theorem C03_path_exists {g : ProtoBlock} {l : Linkage} (h : Reachable g l) (id : BlockID) (hst : Stored l.db id) :
    ∃ ids, IsWalk l.db ids ∧ ids.head? = some id ∧ ids.getLast? = some g.id := by
  obtain ⟨l0, ops, hf, hb, rfl⟩ := h
  obtain ⟨ga, sc, _, _, _, R0⟩ := fresh_rep hf
  obtain ⟨ns, hs, R, hpre, _⟩ := R0.exec ops (by simp; omega)
  have hone : at1 ns 1 = some (genesisNode g ga sc) := by obtain ⟨t, rfl⟩ := hpre; rfl
  obtain ⟨n, hn⟩ := R.stored_iff.mp hst
  clear hst
  induction n using Nat.strongRecOn generalizing id with
  | ind n ih =>
    by_cases h1 : n = 1
    · subst h1
      obtain ⟨x, hx, hxe⟩ := numOf_some hn
      rw [hone] at hx; cases hx
      have : id = g.id := Subtype.ext hxe.symm
      subst this
      exact ⟨[g.id], R.stored_iff.mpr ⟨1, hn⟩, rfl, rfl⟩
    · obtain ⟨x, hx, _⟩ := numOf_some hn
      obtain ⟨p, hp, _⟩ := R.tree.parN_ge_one hx h1
      obtain ⟨pid, _, _, hpn⟩ := newID_of_node R.tree hp
      have hne : n ≠ 0 := by have := (at1_le hx).1; omega
      obtain ⟨ids, hw, hh, hl⟩ := ih _ (R.tree.parN_lt hne) pid hpn
      cases ids with
      | nil => simp at hh
      | cons b rest =>
        simp only [List.head?_cons, Option.some.injEq] at hh
        subst hh
        refine ⟨id :: b :: rest, ⟨(R.isParent_iff hn).mpr ⟨h1, hpn⟩, hw⟩, rfl, ?_⟩
        rw [List.getLast?_cons_cons]; exact hl

example : IsWalk Ex.l1.db [Ex.bid 5, Ex.bid 2, Ex.bid 1, Ex.bid 0] ∧ HeightOf Ex.l1.db (Ex.bid 5) 4 := by
  refine ⟨⟨⟨_, rfl, ?_⟩, ⟨_, rfl, ?_⟩, ⟨_, rfl, ?_⟩, ?_⟩, ⟨_, rfl, ?_⟩⟩
  · decide +kernel
  · decide +kernel
  · decide +kernel
  · unfold IsWalk Stored; decide +kernel
  · decide +kernel

/-- Score never decreases from ancestor to descendant. -/
theorem C04_score_monotone {g : ProtoBlock} {l : Linkage} (h : Reachable g l) {a b : BlockID}
    (hab : Anc l.db a b) (sa sb : Nat) (ha : ScoreOf l.db a sa) (hb : ScoreOf l.db b sb) : sa ≤ sb := by
  obtain ⟨ns, hs, R, _⟩ := reachable_rep h
  induction hab generalizing sb with
  | refl =>
    obtain ⟨r, hr, rfl⟩ := ha
    obtain ⟨r', hr', rfl⟩ := hb
    rw [hr] at hr'; cases hr'; exact Nat.le_refl _
  | step _ hp ih =>
    obtain ⟨r, rp, hr, hrp, _, hsc⟩ := parent_height_score R hp
    obtain ⟨r', hr', rfl⟩ := hb
    rw [hr] at hr'; cases hr'
    exact Nat.le_trans (ih _ ⟨rp, hrp, rfl⟩) hsc

example : Anc Ex.l1.db (Ex.bid 1) (Ex.bid 5) ∧ ScoreOf Ex.l1.db (Ex.bid 1) (2 * (2 ^ 64 / 100)) ∧
    ScoreOf Ex.l1.db (Ex.bid 5) (4 * (2 ^ 64 / 100)) := by
  refine ⟨.step (p := Ex.bid 2) (.step (p := Ex.bid 1) (.refl _) ⟨_, rfl, ?_⟩) ⟨_, rfl, ?_⟩, ⟨_, rfl, ?_⟩, ⟨_, rfl, ?_⟩⟩
  all_goals decide +kernel

/-! ## C05: re-announcing a known block only moves that peer's leash -/

/-- `PutBlock` of a stored block changes no answer about blocks, chains and heads, leashes the
announcing peer to the block and touches no other leash.  The content of the announced block
(other than its id) is irrelevant. -/
theorem C05_known_block {g : ProtoBlock} {l : Linkage} (h : Reachable g l) (b : ProtoBlock) (a : Addr) (f2 : Fate)
    (hst : Stored l.db b.id) :
    (PutBlock .ok f2 l.db b a).2 = .ok () ∧ SameTree l.db (PutBlock .ok f2 l.db b a).1 ∧
    (∀ a', getLeash (PutBlock .ok f2 l.db b a).1 a' = if a'.plain = a.plain then .ok b.id else getLeash l.db a') ∧
    PutBlock .ok f2 (PutBlock .ok f2 l.db b a).1 b a = PutBlock .ok f2 l.db b a := by
  obtain ⟨ns, hs, R, _⟩ := reachable_rep h
  obtain ⟨n, hn⟩ := R.stored_iff.mp hst
  have R' := R.putLeash a b.id
  have e : PutBlock .ok f2 l.db b a = (put l.db (addrKey a) (.raw b.id.1), .ok ()) := by
    rw [R.PutBlock_known hn]; rfl
  rw [e]
  refine ⟨rfl, sameTree_of_rep R R', fun a' => getLeash_put _ _ _ _, ?_⟩
  rw [Rep.PutBlock_known (db := put l.db (addrKey a) (.raw b.id.1)) R' hn, updateLeash_ok, put_put]

/-- The same for a micro-block whose id is already stored. -/
theorem C05_known_micro {g : ProtoBlock} {l : Linkage} (h : Reachable g l) (inv : MicroInv) (a : Addr) (f2 : Fate)
    (hst : Stored l.db inv.totalBlockID) :
    (PutMicroBlock .ok f2 l.db inv a).2 = .ok () ∧ SameTree l.db (PutMicroBlock .ok f2 l.db inv a).1 ∧
    (∀ a', getLeash (PutMicroBlock .ok f2 l.db inv a).1 a' =
      if a'.plain = a.plain then .ok inv.totalBlockID else getLeash l.db a') ∧
    PutMicroBlock .ok f2 (PutMicroBlock .ok f2 l.db inv a).1 inv a = PutMicroBlock .ok f2 l.db inv a := by
  obtain ⟨ns, hs, R, _⟩ := reachable_rep h
  obtain ⟨n, hn⟩ := R.stored_iff.mp hst
  have R' := R.putLeash a inv.totalBlockID
  have e : PutMicroBlock .ok f2 l.db inv a = (put l.db (addrKey a) (.raw inv.totalBlockID.1), .ok ()) := by
    rw [R.PutMicro_known hn]; rfl
  rw [e]
  refine ⟨rfl, sameTree_of_rep R R', fun a' => getLeash_put _ _ _ _, ?_⟩
  rw [Rep.PutMicro_known (db := put l.db (addrKey a) (.raw inv.totalBlockID.1)) R' hn, updateLeash_ok, put_put]

example : Stored Ex.l1.db (Ex.bid 2) ∧ Stored Ex.l1.db (Ex.bid 4) ∧
    getLeash Ex.l1.db (Ex.ip 2) = .ok (Ex.bid 4) ∧
    getLeash (PutBlock .ok .ok Ex.l1.db (Ex.blk 2 1) (Ex.ip 2)).1 (Ex.ip 2) = .ok (Ex.bid 2) :=
  ⟨by unfold Stored; decide +kernel, by unfold Stored; decide +kernel, by decide +kernel, by decide +kernel⟩

/-! ## C22: micro-blocks -/

/-- An accepted new micro-block has the height, score, timestamp, generator and parent of the
block it references. -/
theorem C22_micro_inherits {g : ProtoBlock} {l : Linkage} (h : Reachable g l) (inv : MicroInv) (a : Addr)
    (f1 f2 : Fate) (hnew : ¬ Stored l.db inv.totalBlockID) (hr : (PutMicroBlock f1 f2 l.db inv a).2 = .ok ()) :
    ∃ r rr, getBlockByID (PutMicroBlock f1 f2 l.db inv a).1 inv.totalBlockID = .ok r ∧
      getBlockByID l.db inv.reference = .ok rr ∧ r = { rr with id := inv.totalBlockID.1 } ∧
      LeashOf { l with db := (PutMicroBlock f1 f2 l.db inv a).1 } a = .ok inv.totalBlockID := by
  obtain ⟨ns, hs, R, hb⟩ := reachable_rep h
  rw [R.stored_iff, not_exists] at hnew
  have hn := Option.eq_none_iff_forall_ne_some.mpr hnew
  cases hp : numOf ns inv.reference with
  | none => rw [R.PutMicro_orphan hn hp] at hr; simp [fail] at hr
  | some p =>
    obtain ⟨y, hy, hye⟩ := numOf_some hp
    rw [R.PutMicro_new hn hp hy] at hr ⊢
    by_cases h1 : p = 1
    · simp [h1, fail] at hr
    · simp only [h1, if_false] at hr ⊢
      cases f1 <;> cases f2 <;> simp only [insertThenLeash, write, updateLeash, fail, reduceCtorEq] at hr ⊢
      have N := R.newOK_micro hn hy h1
      have R' := (R.insert N inv.totalBlockID rfl hb).putLeash a inv.totalBlockID
      have hnum : numOf (ns ++ [microNode inv p y]) inv.totalBlockID = some (ns.length + 1) := by
        rw [numOf_append N.fresh]; simp [microNode]
      refine ⟨_, _, R'.getBlockByID_some hnum at1_append_new, R.getBlockByID_some hp hy, rfl, ?_⟩
      rw [applyBatch_putLeash]
      simp [LeashOf, getLeash_put]

/-- An unknown micro-block is accepted (when writes succeed) exactly if its reference is stored and is
not the genesis block. -/
theorem C22_micro_accept_iff {g : ProtoBlock} {l : Linkage} (h : Reachable g l) (inv : MicroInv) (a : Addr)
    (hnew : ¬ Stored l.db inv.totalBlockID) :
    (PutMicroBlock .ok .ok l.db inv a).2 = .ok () ↔ Stored l.db inv.reference ∧ inv.reference ≠ g.id := by
  obtain ⟨l0, ops, hf, hb, rfl⟩ := h
  obtain ⟨ga, sc, _, _, _, R0⟩ := fresh_rep hf
  obtain ⟨ns, hs, R, hpre, _⟩ := R0.exec ops (by simp; omega)
  have hone : at1 ns 1 = some (genesisNode g ga sc) := by obtain ⟨t, rfl⟩ := hpre; rfl
  rw [R.stored_iff, not_exists] at hnew
  have hn := Option.eq_none_iff_forall_ne_some.mpr hnew
  rw [R.stored_iff]
  cases hp : numOf ns inv.reference with
  | none => rw [R.PutMicro_orphan hn hp]; simp [fail]
  | some p =>
    obtain ⟨y, hy, hye⟩ := numOf_some hp
    rw [R.PutMicro_new hn hp hy]
    have : p = 1 ↔ inv.reference = g.id := by
      constructor
      · rintro rfl
        rw [hone] at hy; cases hy
        exact Subtype.ext hye.symm
      · intro e
        have hg : numOf ns g.id = some 1 := R.tree.numOf_eq hone rfl
        rw [e, hg] at hp; exact (Option.some.inj hp).symm
    by_cases h1 : p = 1
    · simp [h1, fail, this.mp h1]
    · have hne : inv.reference ≠ g.id := fun e => h1 (this.mpr e)
      simp [h1, hne, insertThenLeash, write, updateLeash]

/-- An unknown micro-block with an unknown reference gives `ErrRefNotFound`, one referencing genesis
another error; both leave the store exactly as it was. -/
theorem C22_micro_refused {g : ProtoBlock} {l : Linkage} (h : Reachable g l) (inv : MicroInv) (a : Addr) (f1 f2 : Fate)
    (hnew : ¬ Stored l.db inv.totalBlockID) :
    (¬ Stored l.db inv.reference → PutMicroBlock f1 f2 l.db inv a = (l.db, fail .refNotFound)) ∧
    (inv.reference = g.id → PutMicroBlock f1 f2 l.db inv a = (l.db, fail .badID)) := by
  obtain ⟨l0, ops, hf, hb, rfl⟩ := h
  obtain ⟨ga, sc, _, _, _, R0⟩ := fresh_rep hf
  obtain ⟨ns, hs, R, hpre, _⟩ := R0.exec ops (by simp; omega)
  have hone : at1 ns 1 = some (genesisNode g ga sc) := by obtain ⟨t, rfl⟩ := hpre; rfl
  rw [R.stored_iff, not_exists] at hnew
  have hn := Option.eq_none_iff_forall_ne_some.mpr hnew
  constructor
  · intro h2
    rw [R.stored_iff, not_exists] at h2
    exact R.PutMicro_orphan hn (Option.eq_none_iff_forall_ne_some.mpr h2) f1 f2 a
  · intro e
    have hg : numOf ns g.id = some 1 := R.tree.numOf_eq hone rfl
    rw [R.PutMicro_new hn (e ▸ hg) hone]
    simp

example : ¬ Stored Ex.l1.db (Ex.bid 7) ∧
    (PutMicroBlock .ok .ok Ex.l1.db ⟨Ex.bid 7, Ex.bid 2⟩ (Ex.ip 1)).2 = .ok () ∧
    (PutMicroBlock .ok .ok Ex.l1.db ⟨Ex.bid 7, Ex.bid 9⟩ (Ex.ip 1)).2 = fail .refNotFound ∧
    (PutMicroBlock .ok .ok Ex.l1.db ⟨Ex.bid 7, Ex.bid 0⟩ (Ex.ip 1)).2 = fail .badID ∧
    (BlockOf Ex.l1.db (Ex.bid 4)).map (·.height) = .ok 3 :=
  ⟨by unfold Stored; decide +kernel, by decide +kernel, by decide +kernel, by decide +kernel, by decide +kernel⟩

/-! ## C23: crash atomicity -/

/-- Wherever a write of `PutBlock` fails or the process stops, the store is either unchanged, or
has the block completely (it answers every question about blocks, chains and heads like the
store an undisturbed call produces); leashes of others are untouched and the peer's own leash is
the old one or the new block. -/
theorem C23_putBlock_atomic {g : ProtoBlock} {l : Linkage} (h : Reachable g l) (b : ProtoBlock) (a : Addr)
    (f1 f2 : Fate) :
    ((PutBlock f1 f2 l.db b a).1 = l.db ∨
      SameTree (PutBlock .ok .ok l.db b a).1 (PutBlock f1 f2 l.db b a).1) ∧
    ∀ a', getLeash (PutBlock f1 f2 l.db b a).1 a' = getLeash l.db a' ∨
      (a'.plain = a.plain ∧ getLeash (PutBlock f1 f2 l.db b a).1 a' = .ok b.id) := by
  obtain ⟨ns, hs, R, hb⟩ := reachable_rep h
  have hput : ∀ (d : DB) (a' : Addr), getLeash (put d (addrKey a) (.raw b.id.1)) a' = getLeash d a' ∨
      (a'.plain = a.plain ∧ getLeash (put d (addrKey a) (.raw b.id.1)) a' = .ok b.id) := by
    intro d a'
    rw [getLeash_put]
    by_cases h : a'.plain = a.plain
    · exact Or.inr ⟨h, by simp [h]⟩
    · exact Or.inl (by simp [h])
  cases hn : numOf ns b.id with
  | some n =>
    rw [R.PutBlock_known hn, R.PutBlock_known hn]
    have R' := R.putLeash a b.id
    cases f1
    · exact ⟨Or.inr (sameTree_of_rep R' R'), hput _⟩
    · exact ⟨Or.inl rfl, fun _ => Or.inl rfl⟩
    · exact ⟨Or.inr (sameTree_of_rep R' R'), hput _⟩
  | none =>
    cases hp : numOf ns b.parent with
    | none => rw [R.PutBlock_orphan hn hp]; exact ⟨Or.inl rfl, fun _ => Or.inl rfl⟩
    | some p =>
      obtain ⟨y, hy, _⟩ := numOf_some hp
      rw [R.PutBlock_new hb hn hp hy, R.PutBlock_new hb hn hp hy]
      cases b.generator with
      | none => exact ⟨Or.inl rfl, fun _ => Or.inl rfl⟩
      | some ga =>
        cases calculateScore b.baseTarget with
        | error e => exact ⟨Or.inl rfl, fun _ => Or.inl rfl⟩
        | ok sc =>
          have N := R.newOK_block hb hn hp hy (ga := ga) (sc := sc)
          have R1 := R.insert N b.id rfl hb
          have R2 := R1.putLeash a b.id
          have hg := getLeash_insBatch (ns := ns) (hs := hs) l.db b.id (blockNode b ga sc p y)
          have hboth : ∀ a', getLeash (put (applyBatch l.db (insBatch ns hs b.id (blockNode b ga sc p y))) (addrKey a) (.raw b.id.1)) a'
              = getLeash l.db a' ∨ (a'.plain = a.plain ∧
                getLeash (put (applyBatch l.db (insBatch ns hs b.id (blockNode b ga sc p y))) (addrKey a) (.raw b.id.1)) a' = .ok b.id) := by
            intro a'
            have := hput (applyBatch l.db (insBatch ns hs b.id (blockNode b ga sc p y))) a'
            rw [hg] at this; exact this
          cases f1
          · cases f2
            · exact ⟨Or.inr (sameTree_of_rep R2 R2), hboth⟩
            · exact ⟨Or.inr (sameTree_of_rep R2 R1), fun a' => Or.inl (hg a')⟩
            · exact ⟨Or.inr (sameTree_of_rep R2 R2), hboth⟩
          · exact ⟨Or.inl rfl, fun _ => Or.inl rfl⟩
          · exact ⟨Or.inr (sameTree_of_rep R2 R1), fun a' => Or.inl (hg a')⟩

/-- Re-announcing the block after the disturbance yields exactly the store, and the result, of an
undisturbed call. -/
theorem C23_putBlock_resumable {g : ProtoBlock} {l : Linkage} (h : Reachable g l) (b : ProtoBlock) (a : Addr)
    (f1 f2 : Fate) :
    PutBlock .ok .ok (PutBlock f1 f2 l.db b a).1 b a = PutBlock .ok .ok l.db b a := by
  obtain ⟨ns, hs, R, hb⟩ := reachable_rep h
  cases hn : numOf ns b.id with
  | some n =>
    rw [R.PutBlock_known hn, R.PutBlock_known hn]
    have hk := Rep.PutBlock_known (db := put l.db (addrKey a) (.raw b.id.1)) (R.putLeash a b.id) hn .ok .ok a
    have hfin : PutBlock .ok .ok (put l.db (addrKey a) (.raw b.id.1)) b a = updateLeash .ok l.db a b.id := by
      rw [hk, updateLeash_ok, updateLeash_ok, put_put]
    cases f1
    · exact hfin
    · exact R.PutBlock_known hn .ok .ok a
    · exact hfin
  | none =>
    cases hp : numOf ns b.parent with
    | none => rw [R.PutBlock_orphan hn hp]
    | some p =>
      obtain ⟨y, hy, _⟩ := numOf_some hp
      have e := R.PutBlock_new hb hn hp hy f1 f2 a
      have e2 := R.PutBlock_new hb hn hp hy .ok .ok a
      cases hge : b.generator with
      | none => rw [hge] at e; rw [e]
      | some ga =>
        cases hsc : calculateScore b.baseTarget with
        | error er => rw [hge] at e; simp only [hsc] at e; rw [e]
        | ok sc =>
          rw [hge] at e e2
          simp only [hsc] at e e2
          rw [e, e2]
          have N := R.newOK_block hb hn hp hy (ga := ga) (sc := sc)
          have R1 := R.insert N b.id rfl hb
          have R2 := R1.putLeash a b.id
          have hnum : numOf (ns ++ [blockNode b ga sc p y]) b.id = some (ns.length + 1) := by
            rw [numOf_append N.fresh]; simp [blockNode]
          have hA : PutBlock .ok .ok (applyBatch l.db (insBatch ns hs b.id (blockNode b ga sc p y))) b a =
              insertThenLeash .ok .ok l.db (insBatch ns hs b.id (blockNode b ga sc p y)) a b.id := by
            rw [R1.PutBlock_known hnum]; rfl
          have hB : PutBlock .ok .ok (put (applyBatch l.db (insBatch ns hs b.id (blockNode b ga sc p y))) (addrKey a) (.raw b.id.1)) b a =
              insertThenLeash .ok .ok l.db (insBatch ns hs b.id (blockNode b ga sc p y)) a b.id := by
            rw [Rep.PutBlock_known (db := put (applyBatch l.db (insBatch ns hs b.id (blockNode b ga sc p y))) (addrKey a) (.raw b.id.1)) R2 hnum,
              updateLeash_ok, put_put]; rfl
          cases f1
          · cases f2
            · exact hB
            · exact hA
            · exact hB
          · exact e2
          · exact hA

/-- The same for micro-blocks. -/
theorem C23_putMicro_resumable {g : ProtoBlock} {l : Linkage} (h : Reachable g l) (inv : MicroInv) (a : Addr)
    (f1 f2 : Fate) :
    PutMicroBlock .ok .ok (PutMicroBlock f1 f2 l.db inv a).1 inv a = PutMicroBlock .ok .ok l.db inv a := by
  obtain ⟨ns, hs, R, hb⟩ := reachable_rep h
  cases hn : numOf ns inv.totalBlockID with
  | some n =>
    rw [R.PutMicro_known hn, R.PutMicro_known hn]
    have hk := Rep.PutMicro_known (db := put l.db (addrKey a) (.raw inv.totalBlockID.1))
      (R.putLeash a inv.totalBlockID) hn .ok .ok a
    have hfin : PutMicroBlock .ok .ok (put l.db (addrKey a) (.raw inv.totalBlockID.1)) inv a
        = updateLeash .ok l.db a inv.totalBlockID := by
      rw [hk, updateLeash_ok, updateLeash_ok, put_put]
    cases f1
    · exact hfin
    · exact R.PutMicro_known hn .ok .ok a
    · exact hfin
  | none =>
    cases hp : numOf ns inv.reference with
    | none => rw [R.PutMicro_orphan hn hp]
    | some p =>
      obtain ⟨y, hy, _⟩ := numOf_some hp
      have e := R.PutMicro_new hn hp hy f1 f2 a
      have e2 := R.PutMicro_new hn hp hy .ok .ok a
      by_cases h1 : p = 1
      · simp only [h1, if_true] at e e2; rw [e]
      · simp only [h1, if_false] at e e2
        rw [e, e2]
        have N := R.newOK_micro hn hy h1
        have R1 := R.insert N inv.totalBlockID rfl hb
        have R2 := R1.putLeash a inv.totalBlockID
        have hnum : numOf (ns ++ [microNode inv p y]) inv.totalBlockID = some (ns.length + 1) := by
          rw [numOf_append N.fresh]; simp [microNode]
        have hA : PutMicroBlock .ok .ok (applyBatch l.db (insBatch ns hs inv.totalBlockID (microNode inv p y))) inv a =
            insertThenLeash .ok .ok l.db (insBatch ns hs inv.totalBlockID (microNode inv p y)) a inv.totalBlockID := by
          rw [R1.PutMicro_known hnum]; rfl
        have hB : PutMicroBlock .ok .ok (put (applyBatch l.db (insBatch ns hs inv.totalBlockID (microNode inv p y))) (addrKey a) (.raw inv.totalBlockID.1)) inv a =
            insertThenLeash .ok .ok l.db (insBatch ns hs inv.totalBlockID (microNode inv p y)) a inv.totalBlockID := by
          rw [Rep.PutMicro_known (db := put (applyBatch l.db (insBatch ns hs inv.totalBlockID (microNode inv p y))) (addrKey a) (.raw inv.totalBlockID.1)) R2 hnum,
            updateLeash_ok, put_put]; rfl
        cases f1
        · cases f2
          · exact hB
          · exact hA
          · exact hB
        · exact e2
        · exact hA

/-- Atomicity for micro-blocks. -/
theorem C23_putMicro_atomic {g : ProtoBlock} {l : Linkage} (h : Reachable g l) (inv : MicroInv) (a : Addr)
    (f1 f2 : Fate) :
    ((PutMicroBlock f1 f2 l.db inv a).1 = l.db ∨
      SameTree (PutMicroBlock .ok .ok l.db inv a).1 (PutMicroBlock f1 f2 l.db inv a).1) ∧
    ∀ a', getLeash (PutMicroBlock f1 f2 l.db inv a).1 a' = getLeash l.db a' ∨
      (a'.plain = a.plain ∧ getLeash (PutMicroBlock f1 f2 l.db inv a).1 a' = .ok inv.totalBlockID) := by
  obtain ⟨ns, hs, R, hb⟩ := reachable_rep h
  have hput : ∀ (d : DB) (a' : Addr), getLeash (put d (addrKey a) (.raw inv.totalBlockID.1)) a' = getLeash d a' ∨
      (a'.plain = a.plain ∧ getLeash (put d (addrKey a) (.raw inv.totalBlockID.1)) a' = .ok inv.totalBlockID) := by
    intro d a'
    rw [getLeash_put]
    by_cases h : a'.plain = a.plain
    · exact Or.inr ⟨h, by simp [h]⟩
    · exact Or.inl (by simp [h])
  cases hn : numOf ns inv.totalBlockID with
  | some n =>
    rw [R.PutMicro_known hn, R.PutMicro_known hn]
    have R' := R.putLeash a inv.totalBlockID
    cases f1
    · exact ⟨Or.inr (sameTree_of_rep R' R'), hput _⟩
    · exact ⟨Or.inl rfl, fun _ => Or.inl rfl⟩
    · exact ⟨Or.inr (sameTree_of_rep R' R'), hput _⟩
  | none =>
    cases hp : numOf ns inv.reference with
    | none => rw [R.PutMicro_orphan hn hp]; exact ⟨Or.inl rfl, fun _ => Or.inl rfl⟩
    | some p =>
      obtain ⟨y, hy, _⟩ := numOf_some hp
      rw [R.PutMicro_new hn hp hy, R.PutMicro_new hn hp hy]
      by_cases h1 : p = 1
      · simp only [h1, if_true]; exact ⟨Or.inl trivial, fun _ => Or.inl trivial⟩
      · simp only [h1, if_false]
        have N := R.newOK_micro hn hy h1
        have R1 := R.insert N inv.totalBlockID rfl hb
        have R2 := R1.putLeash a inv.totalBlockID
        have hg := getLeash_insBatch (ns := ns) (hs := hs) l.db inv.totalBlockID (microNode inv p y)
        have hboth : ∀ a', getLeash (put (applyBatch l.db (insBatch ns hs inv.totalBlockID (microNode inv p y))) (addrKey a) (.raw inv.totalBlockID.1)) a'
            = getLeash l.db a' ∨ (a'.plain = a.plain ∧
              getLeash (put (applyBatch l.db (insBatch ns hs inv.totalBlockID (microNode inv p y))) (addrKey a) (.raw inv.totalBlockID.1)) a' = .ok inv.totalBlockID) := by
          intro a'
          have := hput (applyBatch l.db (insBatch ns hs inv.totalBlockID (microNode inv p y))) a'
          rw [hg] at this; exact this
        cases f1
        · cases f2
          · exact ⟨Or.inr (sameTree_of_rep R2 R2), hboth⟩
          · exact ⟨Or.inr (sameTree_of_rep R2 R1), fun a' => Or.inl (hg a')⟩
          · exact ⟨Or.inr (sameTree_of_rep R2 R2), hboth⟩
        · exact ⟨Or.inl rfl, fun _ => Or.inl rfl⟩
        · exact ⟨Or.inr (sameTree_of_rep R2 R1), fun a' => Or.inl (hg a')⟩

-- the second write fails: the block is there, the leash is not
example : (PutBlock .ok .fail Ex.l1.db (Ex.blk 6 5) (Ex.ip 1)).2 ≠ .ok () ∧
    HasBlock (PutBlock .ok .fail Ex.l1.db (Ex.blk 6 5) (Ex.ip 1)).1 (Ex.bid 6) = .ok true ∧
    getLeash (PutBlock .ok .fail Ex.l1.db (Ex.blk 6 5) (Ex.ip 1)).1 (Ex.ip 1) = .ok (Ex.bid 2) ∧
    (PutBlock .fail .ok Ex.l1.db (Ex.blk 6 5) (Ex.ip 1)).1 = Ex.l1.db := by decide +kernel

/-! ## C24: reopening -/

/-- Opening an existing store again, with whatever genesis block and whatever would happen to a
write, succeeds and leaves the database exactly as it was. -/
theorem C24_reopen {g : ProtoBlock} {l : Linkage} (h : Reachable g l) (g' : ProtoBlock) (f : Fate) :
    NewLinkage f l.db g' = (l.db, .ok { genesis := g'.id, db := l.db }) := by
  obtain ⟨ns, hs, R, _⟩ := reachable_rep h
  simp [NewLinkage, R.reopen]

/-- A first open creates exactly the genesis block, with height 1, one head, and no leash. -/
theorem C24_fresh {g : ProtoBlock} {l : Linkage} (h : Fresh g l) :
    l.genesis = g.id ∧ (∀ id, HasBlock l.db id = .ok (decide (id = g.id))) ∧ HeightOf l.db g.id 1 ∧
    ScoreOf l.db g.id (blockScore g.baseTarget.toNat) ∧
    Heads l.db = .ok [{ num := 1, blockID := g.id }] ∧ ∀ a, HasLeash l.db a = .ok false := by
  obtain ⟨ga, sc, hga, hsc, hgen, R⟩ := fresh_rep h
  have hnum : ∀ id, numOf [genesisNode g ga sc] id = if id = g.id then some 1 else none := by
    intro id
    by_cases he : id = g.id
    · subst he; rw [if_pos rfl]; exact R.tree.numOf_eq (x := genesisNode g ga sc) rfl rfl
    · rw [if_neg he]
      cases hc : numOf [genesisNode g ga sc] id with
      | none => rfl
      | some n =>
        obtain ⟨x, hx, hxe⟩ := numOf_some hc
        have := at1_le hx
        have : n = 1 := by simp at this; omega
        subst this
        simp only [at1_succ, List.getElem?_cons_zero, Option.some.injEq] at hx
        subst hx
        exact absurd (Subtype.ext hxe.symm) he
  have h1 : numOf [genesisNode g ga sc] g.id = some 1 := by rw [hnum]; simp
  refine ⟨hgen, ?_, (R.heightOf h1).mpr rfl, ⟨_, R.getBlockByID_some h1 rfl, ?_⟩, ?_, ?_⟩
  · intro id
    rw [HasBlock, R.hasBlock, hnum]
    by_cases he : id = g.id <;> simp [he]
  · by_cases hbt : g.baseTarget.toNat < 2 ^ 63
    · rw [calculateScore_eq hbt] at hsc
      simp only [Except.ok.injEq] at hsc
      rw [hsc]; rfl
    · rw [calculateScore_panics (by omega)] at hsc; cases hsc
  · obtain ⟨hd, hh, hn, hid⟩ := R.heads
    unfold Heads
    rw [hh]
    congr 1
    cases hd with
    | nil => simp at hn
    | cons x rest =>
      cases rest with
      | nil =>
        simp only [List.map_cons, List.map_nil, List.cons.injEq, and_true] at hid
        have hn' : x.num = 1 := by simpa using congrArg List.head? hn
        have : x.blockID = g.id := Subtype.ext hid
        cases x; simp_all
      | cons y r => have := congrArg List.length hn; simp at this
  · intro a
    have hnone := fresh_no_leash h a
    simp [HasLeash, hnone, fail]

/-- If the very first open is cut short by a failed write or a crash, opening again gives exactly
the store an undisturbed first open would have given. -/
theorem C24_first_open_resumable {g : ProtoBlock} {l : Linkage} (h : Fresh g l) (f f' : Fate) :
    NewLinkage f' (NewLinkage .lostAck [] g).1 g = (l.db, .ok l) ∧
    NewLinkage .ok (NewLinkage .fail [] g).1 g = (l.db, .ok l) ∧
    NewLinkage f (NewLinkage .ok [] g).1 g = (l.db, .ok l) := by
  obtain ⟨ga, sc, hga, hsc, hgen, R⟩ := fresh_rep h
  have hl : l = { genesis := g.id, db := l.db } := by rw [← hgen]
  have h0 : getCounter [] blocksCounter = .ok 0 := by simp [getCounter, KV.get]
  have e1 : (NewLinkage .ok [] g).1 = l.db := by rw [h]
  have e2 : (NewLinkage .lostAck [] g).1 = (NewLinkage .ok [] g).1 := by
    simp only [NewLinkage, initStorage, h0, if_true, genesisBatch_eq hga hsc, write, fail]
  have e3 : (NewLinkage .fail [] g).1 = [] := by
    simp only [NewLinkage, initStorage, h0, if_true, genesisBatch_eq hga hsc, write, fail]
  refine ⟨?_, ?_, ?_⟩
  · rw [e2, e1]
    simp only [NewLinkage, R.reopen f' g]
    rw [hgen.symm]
  · rw [e3]; exact h
  · rw [e1]
    simp only [NewLinkage, R.reopen f g]
    rw [hgen.symm]

example : Reachable Ex.g0 Ex.l1 ∧ (NewLinkage .ok Ex.l1.db (Ex.blk 9 9)).1 = Ex.l1.db ∧ Fresh Ex.g0 Ex.l0 :=
  ⟨Ex.reach1, by decide +kernel, Ex.fresh⟩

/-! ## C25: storage keys -/

/-- the kinds of keys the store uses -/
inductive Key where
  | counter (c : UInt8)
  | id (id : BlockID)
  | block (n : UInt64)
  | link (n : UInt64)
  | leash (a : Addr)
  | headToBlock (n : UInt64)
  | blockToHead (n : UInt64)

/-- the bytes of a key -/
def Key.bytes : Key → Bytes
  | .counter c => counterKey c
  | .id i => idKey blockPrefix i
  | .block n => numKey blockPrefix n
  | .link n => numKey chainPrefix n
  | .leash a => addrKey a
  | .headToBlock n => numKey headToBlockPrefix n
  | .blockToHead n => numKey blockToHeadPrefix n

/-- the logical key behind a key: leash keys do not contain the IPv6 zone -/
def Key.logical : Key → Key
  | .leash a => .leash a.plain
  | k => k

/-- Two keys have the same bytes only if they are the same logical key (in particular of the same
kind). -/
theorem C25_keys_injective (k1 k2 : Key) : k1.bytes = k2.bytes ↔ k1.logical = k2.logical := by
  cases k1 <;> cases k2 <;> simp [Key.bytes, Key.logical, slice_eq_iff]

/-- Number keys sort in numeric order and decode to what was encoded. -/
theorem C25_numbers (p : UInt8) (n m : UInt64) :
    (bytesLt (numKey p n) (numKey p m) = true ↔ n < m) ∧ numKeyFrom (numKey p n) = .ok (p, n) :=
  ⟨bytesLt_numKey, numKeyFrom_numKey p n⟩

/-- Leash keys of valid addresses decode to the address without its zone. -/
theorem C25_addresses (a : Addr) (h : a ≠ .zero) : addrKeyFrom (addrKey a) = .ok a.plain := by
  cases a with
  | zero => exact absurd rfl h
  | v4 b => simp [addrKeyFrom, addrKey, Addr.slice, b.2, Addr.plain]
  | v6 b z => simp [addrKeyFrom, addrKey, Addr.slice, b.2, Addr.plain]

example : (Key.id (Ex.bid 1)).bytes ≠ (Key.block 1).bytes ∧ (Key.link 1).bytes ≠ (Key.block 1).bytes := by decide +kernel

/-! ## C27: no block can crash or poison the store -/

/-- a peer's block with a base target above the int64 range -/
def evilTarget : ProtoBlock := Ex.blkT 6 5 (2 ^ 63)
/-- a peer's block with a timestamp at the end of the int64 range -/
def evilTime : ProtoBlock := { Ex.blk 6 5 with timestamp := UInt64.ofNat (2 ^ 63 - 1) }

/-- The claim fails: a base target above the int64 range makes `PutBlock` panic. -/
theorem C27_panics : ∃ (l : Linkage) (b : ProtoBlock) (a : Addr), Reachable Ex.g0 l ∧
    (PutBlock .ok .ok l.db b a).2 = goPanic :=
  ⟨Ex.l1, evilTarget, Ex.ip 1, Ex.reach1, by decide +kernel⟩

/-- The claim fails: a large timestamp is accepted and then makes `Block` panic. -/
theorem C27_poisons : ∃ (l : Linkage) (b : ProtoBlock) (a : Addr), Reachable Ex.g0 l ∧
    (PutBlock .ok .ok l.db b a).2 = .ok () ∧ BlockOf (PutBlock .ok .ok l.db b a).1 b.id = goPanic :=
  ⟨Ex.l1, evilTime, Ex.ip 1, Ex.reach1, by decide +kernel⟩

/-- What holds: with base target below 2^63 `PutBlock` never panics whatever the writes do, and a
new block with a timestamp below 2^63 - 1 can be read back.  Missing for the full claim: exactly
the two witnesses above. -/
theorem C27_partial {g : ProtoBlock} {l : Linkage} (h : Reachable g l) (b : ProtoBlock) (a : Addr) (f1 f2 : Fate) :
    (b.baseTarget.toNat < 2 ^ 63 → (PutBlock f1 f2 l.db b a).2 ≠ goPanic) ∧
    (¬ Stored l.db b.id → (PutBlock f1 f2 l.db b a).2 = .ok () → b.timestamp.toNat < 2 ^ 63 - 1 →
      ∃ x, BlockOf (PutBlock f1 f2 l.db b a).1 b.id = .ok x ∧ x.id = b.id ∧ x.parent = b.parent ∧
        x.timestamp = b.timestamp) := by
  obtain ⟨ns, hs, R, hb⟩ := reachable_rep h
  constructor
  · intro hbt
    cases hn : numOf ns b.id with
    | some n => rw [R.PutBlock_known hn]; cases f1 <;> simp [updateLeash, write, fail, goPanic]
    | none =>
      cases hp : numOf ns b.parent with
      | none => rw [R.PutBlock_orphan hn hp]; simp [fail, goPanic]
      | some p =>
        obtain ⟨y, hy, _⟩ := numOf_some hp
        rw [R.PutBlock_new hb hn hp hy]
        cases hge : b.generator with
        | none => simp [fail, goPanic]
        | some ga =>
          rw [calculateScore_eq hbt]
          cases f1 <;> cases f2 <;> simp [insertThenLeash, write, updateLeash, fail, goPanic]
  · intro hnew hr hts
    obtain ⟨r, rp, hrec, _, hpar, _, _, hrts, _, hid⟩ := C03_C04_new_block h b a f1 f2 hnew hr
    refine ⟨apiBlock { br := r, par := 0, ext := 0 } b.id b.parent, ?_, rfl, rfl, hrts⟩
    simp only [BlockOf, hrec, go_bind_ok]
    have := blockOfRec_par (x := { br := r, par := 0, ext := 0 }) hid hpar
    rw [this, if_pos (by simp only [hrts]; exact hts)]

-- a block with the greatest base target that does not panic, and a new block that can be read back
example : (PutBlock .ok .fail Ex.l1.db { Ex.blk 6 5 with baseTarget := 0x7fffffffffffffff } (Ex.ip 1)).2 ≠ goPanic :=
  (C27_partial Ex.reach1 _ _ _ _).1 (by decide)
example : ¬ Stored Ex.l1.db (Ex.bid 6) ∧ (PutBlock .ok .ok Ex.l1.db (Ex.blk 6 5) (Ex.ip 1)).2 = .ok () ∧
    (Ex.blk 6 5).timestamp.toNat < 2 ^ 63 - 1 :=
  ⟨by unfold Stored; decide +kernel, by decide +kernel, by decide +kernel⟩

end Verif.Props
