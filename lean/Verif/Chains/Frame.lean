import Verif.Chains.Queries
/-
Writing a leash changes no query about blocks.
-/
set_option autoImplicit false

namespace Verif.Chains

open Verif KV Spec

variable {db : DB} {ns : List Node} {hs : List Nat}

theorem sameTree_of_get {db' : DB} (h1 : getNumOfBlockID db' = getNumOfBlockID db) (h2 : getBlock db' = getBlock db)
    (h3 : getLink db' = getLink db) (h4 : heads db' = heads db) : SameTree db db' := by
  have hrec : ∀ id, getBlockByID db' id = getBlockByID db id := by
    intro id; simp [getBlockByID, h1, h2]
  have hanc : ∀ k n, ancestorsLoop db' k n = ancestorsLoop db k n := by
    intro k
    induction k with
    | zero => intro n; rfl
    | succ k ih => intro n; simp only [ancestorsLoop, h3, ih]
  have hbl : ∀ k n, blocksLoop db' k n = blocksLoop db k n := by
    intro k
    induction k with
    | zero => intro n; rfl
    | succ k ih => intro n; simp only [blocksLoop, h2, h3, ih]
  have hfb : ∀ o fuel k l, fbLoop db' o fuel k l = fbLoop db o fuel k l := by
    intro o fuel
    induction fuel with
    | zero => intro k l; rfl
    | succ fuel ih =>
      intro k l
      cases k with
      | zero => rfl
      | succ k => simp only [fbLoop, h3, ih]
  have hll : ∀ k l m, lcaLoop db' k l m = lcaLoop db k l m := by
    intro k
    induction k with
    | zero => intro l m; rfl
    | succ k ih => intro l m; simp only [lcaLoop, h3, ih]
  exact {
    has := fun id => by simp only [HasBlock, hasBlock, h1]
    record := hrec
    block := fun id => by simp only [BlockOf, hrec]
    last := fun id c => by simp only [LastIDs, getAncestors, h1, hanc]
    blocks := fun id c => by simp only [getBlocks, h1, hbl]
    common := fun a b => by simp only [lca, getLinkByID, h1, h3, fastBackwardFarthest, hfb, hll]
    heads := h4 }

/-- two databases representing the same tree answer alike -/
theorem sameTree_of_rep {db' : DB} (R : Rep db ns hs) (R' : Rep db' ns hs) : SameTree db db' := by
  apply sameTree_of_get
  · funext id; rw [R.getNum, R'.getNum]
  · funext n; simp only [getBlock, R.blocks, R'.blocks]
  · funext n; simp only [getLink, R.links, R'.links]
  · have hg : getHeads db' = getHeads db := by
      simp only [getHeads]; rw [R.scan_heads, R'.scan_heads]
    have hb : getBlock db' = getBlock db := by
      funext n; simp only [getBlock, R.blocks, R'.blocks]
    simp only [heads, hg, hb]

theorem getLeash_put (db : DB) (a a' : Addr) (id : BlockID) :
    getLeash (put db (addrKey a) (.raw id.1)) a' = if a'.plain = a.plain then .ok id else getLeash db a' := by
  unfold getLeash
  rw [get_put]
  by_cases h : a'.plain = a.plain
  · have hk : addrKey a' = addrKey a := by rw [addrKey_inj]; exact slice_eq_iff.mpr h
    rw [if_pos h, if_pos hk]
    have := id.2
    simp only
    rw [if_neg (by omega), newBlockIDFromBytes_val]
  · have hk : addrKey a' ≠ addrKey a := by
      rw [Ne, addrKey_inj]; exact fun e => h (slice_eq_iff.mp e)
    rw [if_neg h, if_neg hk]

theorem get_insBatch_addr (db : DB) (id : BlockID) (x : Node) (a : Addr) :
    get (applyBatch db (insBatch ns hs id x)) (addrKey a) = get db (addrKey a) := by
  unfold insBatch headOps
  cases headIdx hs x.ext <;>
    simp [applyBatch, applyOp, putCounter, putID, putBlock, putLink, putNum, get_put, get_del]

theorem getLeash_insBatch (db : DB) (id : BlockID) (x : Node) (a : Addr) :
    getLeash (applyBatch db (insBatch ns hs id x)) a = getLeash db a := by
  unfold getLeash
  rw [get_insBatch_addr]

/-- writing the same pair twice -/
theorem put_put {V : Type} (db : KV.DB V) (k : Bytes) (v w : V) : put (put db k v) k w = put db k w := by
  induction db with
  | nil => simp [put]
  | cons p db ih =>
    obtain ⟨k', v'⟩ := p
    by_cases h1 : k = k'
    · simp [put, h1]
    · by_cases h2 : bytesLt k k' = true
      · simp [put, h1, h2]
      · simp [put, h1, h2, ih]

theorem calculateScore_eq {bt : UInt64} (h : bt.toNat < 2 ^ 63) : calculateScore bt = .ok (blockScore bt.toNat) := by
  unfold calculateScore blockScore
  by_cases h0 : bt = 0
  · subst h0; rfl
  · have : bt.toNat ≠ 0 := fun e => h0 (UInt64.toNat_inj.mp (by simpa using e))
    rw [if_neg h0, if_neg (by omega), if_neg this]

theorem calculateScore_panics {bt : UInt64} (h : 2 ^ 63 ≤ bt.toNat) : calculateScore bt = goPanic := by
  unfold calculateScore
  have h0 : bt ≠ 0 := by rintro rfl; simp at h
  rw [if_neg h0, if_pos (by omega)]

/-- the records of a stored child and its parent -/
theorem parent_height_score {db : DB} {ns : List Node} {hs : List Nat} (R : Rep db ns hs) {p c : BlockID}
    (h : IsParent db p c) : ∃ r rp, getBlockByID db c = .ok r ∧ getBlockByID db p = .ok rp ∧
      r.height.toNat = rp.height.toNat + 1 ∧ rp.score ≤ r.score := by
  have hc : ∃ n, numOf ns c = some n := by
    obtain ⟨r, hr, _⟩ := h
    cases hn : numOf ns c with
    | none => rw [R.getBlockByID, hn] at hr; simp [fail] at hr
    | some n => exact ⟨n, rfl⟩
  obtain ⟨n, hn⟩ := hc
  obtain ⟨h1, hpn⟩ := (R.isParent_iff hn).mp h
  obtain ⟨x, hx, _⟩ := numOf_some hn
  obtain ⟨y, hy, _⟩ := numOf_some hpn
  obtain ⟨q, hq, _, hh, _, hsc, _⟩ := R.tree.node n x hx h1
  rw [parN_of_some hx] at hy
  rw [hq] at hy; cases hy
  exact ⟨_, _, R.getBlockByID_some hn hx, R.getBlockByID_some hpn (by rw [parN_of_some hx]; exact hq), hh, hsc⟩

end Verif.Chains
