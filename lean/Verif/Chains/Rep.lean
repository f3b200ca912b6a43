import Verif.Chains.Linkage
import Verif.Chains.Tree
import Verif.Chains.Keys
/-
The representation invariant between the database and the ghost tree, what the
storage getters return under it, and its preservation by the writes.
-/
set_option autoImplicit false

namespace Verif.Chains

open Verif KV

/-- head number of a block number -/
def headIdx (hs : List Nat) (n : Nat) : Option Nat := (hs.findIdx? (fun m => decide (m = n))).map (· + 1)

/-- the link record of node `n` -/
def linkOf (ns : List Node) (n : Nat) (x : Node) : LinkRec :=
  { height := x.br.height, blockID := x.br.id,
    parents := (List.range (clog2 (ht ns n))).map (fun i => UInt64.ofNat (up ns n (2 ^ i))) }

/-- a number stored as raw bytes -/
def rawNum (n : Nat) : Val := .raw (be64 (UInt64.ofNat n))

/-- what the list of heads has to satisfy -/
structure HeadsOK (ns : List Node) (hs : List Nat) : Prop where
  nodup : hs.Nodup
  mem : ∀ n, n ∈ hs ↔ (∃ x, at1 ns n = some x) ∧ ∀ m y, at1 ns m = some y → y.ext ≠ n

structure Rep (db : DB) (ns : List Node) (hs : List Nat) : Prop where
  sorted : Sorted db
  tree : TreeOK ns
  hok : HeadsOK ns hs
  bound : ns.length < 2 ^ 32
  hbound : hs.length ≤ ns.length
  cnt : get db (counterKey blocksCounter) = some (rawNum ns.length)
  hcnt : get db (counterKey headsCounter) = some (rawNum hs.length)
  ids : ∀ id, get db (idKey blockPrefix id) = (numOf ns id).map rawNum
  blocks : ∀ n, get db (numKey blockPrefix n) = (at1 ns n.toNat).map (fun x => .blk x.br)
  links : ∀ n, get db (numKey chainPrefix n) = (at1 ns n.toNat).map (fun x => .lnk (linkOf ns n.toNat x))
  h2b : ∀ k, get db (numKey headToBlockPrefix k) = (at1 hs k.toNat).map rawNum
  b2h : ∀ n, get db (numKey blockToHeadPrefix n) = (headIdx hs n.toNat).map rawNum
  lsh : ∀ a v, get db (addrKey a) = some v → ∃ id : BlockID, v = .raw id.1
  k3 : ∀ r v, get db (leashPrefix :: r) = some v → ∃ a : Addr, r = a.slice
  k4 : ∀ r v, get db (headToBlockPrefix :: r) = some v → ∃ n, r = be64 n

variable {db : DB} {ns : List Node} {hs : List Nat}

theorem toNat_ofNat64 {n : Nat} (h : n < 2 ^ 64) : (UInt64.ofNat n).toNat = n := by
  simp [Nat.mod_eq_of_lt h]

theorem Rep.lt64 (R : Rep db ns hs) {n : Nat} {x : Node} (h : at1 ns n = some x) : n < 2 ^ 64 := by
  have := (at1_le h).2; have := R.bound; omega

theorem Rep.up_lt64 (R : Rep db ns hs) {n : Nat} {x : Node} (h : at1 ns n = some x) (k : Nat) :
    up ns n k < 2 ^ 64 := Nat.lt_of_le_of_lt (R.tree.up_le n k) (R.lt64 h)

/-! ### getters -/

theorem Rep.getCounter_blocks (R : Rep db ns hs) : getCounter db blocksCounter = .ok (UInt64.ofNat ns.length) := by
  simp [getCounter, R.cnt, rawNum, be64Dec_be64]

theorem Rep.getCounter_heads (R : Rep db ns hs) : getCounter db headsCounter = .ok (UInt64.ofNat hs.length) := by
  simp [getCounter, R.hcnt, rawNum, be64Dec_be64]

theorem Rep.getNum (R : Rep db ns hs) (id : BlockID) : getNumOfBlockID db id =
    match numOf ns id with
    | some n => .ok (UInt64.ofNat n)
    | none => fail .notFound := by
  unfold getNumOfBlockID
  rw [R.ids]
  cases numOf ns id <;> simp [rawNum, be64Dec_be64]

theorem Rep.getBlock_ofNat (R : Rep db ns hs) {n : Nat} {x : Node} (h : at1 ns n = some x) :
    getBlock db (UInt64.ofNat n) = .ok x.br := by
  simp [getBlock, R.blocks, toNat_ofNat64 (R.lt64 h), h]

theorem Rep.getLink_ofNat (R : Rep db ns hs) {n : Nat} {x : Node} (h : at1 ns n = some x) :
    getLink db (UInt64.ofNat n) = .ok (linkOf ns n x) := by
  simp [getLink, R.links, toNat_ofNat64 (R.lt64 h), h]

theorem Rep.hasBlock (R : Rep db ns hs) (id : BlockID) : hasBlock db id = .ok (numOf ns id).isSome := by
  unfold Chains.hasBlock
  rw [R.getNum]
  cases numOf ns id <;> simp [fail]

theorem Rep.getBlockByID (R : Rep db ns hs) (id : BlockID) : getBlockByID db id =
    match (numOf ns id).bind (at1 ns) with
    | some x => .ok x.br
    | none => fail .notFound := by
  unfold Chains.getBlockByID
  rw [R.getNum]
  cases h : numOf ns id with
  | none => simp [fail]
  | some n =>
    obtain ⟨x, hx, _⟩ := numOf_some h
    simp [R.getBlock_ofNat hx, hx]

theorem Rep.getBlockByID_some (R : Rep db ns hs) {id : BlockID} {n : Nat} {x : Node} (h : numOf ns id = some n)
    (hx : at1 ns n = some x) : Chains.getBlockByID db id = .ok x.br := by
  rw [R.getBlockByID, h]; simp [hx]

theorem Rep.getLinkByID (R : Rep db ns hs) {id : BlockID} {n : Nat} {x : Node} (h : numOf ns id = some n)
    (hx : at1 ns n = some x) : getLinkByID db id = .ok (linkOf ns n x) := by
  unfold Chains.getLinkByID
  rw [R.getNum, h]
  simp [R.getLink_ofNat hx]

theorem Rep.getLinkByID_none (R : Rep db ns hs) {id : BlockID} (h : numOf ns id = none) :
    Chains.getLinkByID db id = fail .notFound := by
  unfold Chains.getLinkByID
  rw [R.getNum, h]
  simp [fail]

theorem Rep.getHead (R : Rep db ns hs) {n : Nat} {x : Node} (h : at1 ns n = some x) :
    getHeadByBlockNum db (UInt64.ofNat n) =
      match headIdx hs n with
      | some k => .ok (UInt64.ofNat k)
      | none => fail .notFound := by
  unfold getHeadByBlockNum
  rw [R.b2h, toNat_ofNat64 (R.lt64 h)]
  cases headIdx hs n <;> simp [rawNum, be64Dec_be64]

theorem newBlockIDFromBytes_val (id : BlockID) : newBlockIDFromBytes id.1 = .ok id := by
  simp [newBlockIDFromBytes, id.2]

theorem Rep.getLeash (R : Rep db ns hs) (a : Addr) : getLeash db a =
    match get db (addrKey a) with
    | some (.raw v) => newBlockIDFromBytes v
    | _ => fail .notFound := by
  unfold Chains.getLeash
  cases h : get db (addrKey a) with
  | none => rfl
  | some v =>
    obtain ⟨id, rfl⟩ := R.lsh a v h
    have := id.2
    simp only
    rw [if_neg (by omega)]

theorem linkOf_parents_length (n : Nat) (x : Node) : (linkOf ns n x).parents.length = clog2 (ht ns n) := by
  simp [linkOf]

theorem linkOf_parents_get (n : Nat) (x : Node) {i : Nat} (h : 2 ^ i < ht ns n) :
    (linkOf ns n x).parents[i]? = some (UInt64.ofNat (up ns n (2 ^ i))) := by
  have := lt_clog2.mpr h
  simp [linkOf, List.getElem?_range this]

theorem linkOf_parents_get_none (n : Nat) (x : Node) {i : Nat} (h : ht ns n ≤ 2 ^ i) :
    (linkOf ns n x).parents[i]? = none := by
  rw [List.getElem?_eq_none]
  rw [linkOf_parents_length]
  have := lt_clog2 (i := i) (h := ht ns n)
  omega

/-! ### the parents of a new link -/

theorem Rep.linkParents_eq (R : Rep db ns hs) {p : Nat} {k l : Nat}
    (hk : ∀ i, i < l + k → 2 ^ i ≤ ht ns p) :
    linkParents db k l (UInt64.ofNat (up ns p (2 ^ l - 1))) =
      .ok ((List.range' l k).map (fun i => UInt64.ofNat (up ns p (2 ^ i - 1)))) := by
  induction k generalizing l with
  | zero => simp [linkParents]
  | succ k ih =>
    have hl := hk l (by omega)
    have hpos := Nat.two_pow_pos l
    have hhq : ht ns (up ns p (2 ^ l - 1)) = ht ns p - (2 ^ l - 1) := R.tree.ht_up _ _
    obtain ⟨x, hx⟩ := ht_pos_some (ns := ns) (n := up ns p (2 ^ l - 1)) (by omega)
    rw [linkParents, R.getLink_ofNat hx]
    simp only [go_bind_ok]
    have ih := ih (l := l + 1) (fun i hi => hk i (by omega))
    cases k with
    | zero => simp [linkParents]
    | succ k =>
      have hl' := hk (l + 1) (by omega)
      rw [Nat.pow_succ] at hl'
      have hg := linkOf_parents_get (ns := ns) (up ns p (2 ^ l - 1)) x (i := l) (by omega)
      rw [hg]
      have he : up ns (up ns p (2 ^ l - 1)) (2 ^ l) = up ns p (2 ^ (l + 1) - 1) := by
        rw [← up_add]; congr 1; rw [Nat.pow_succ]; omega
      simp only [he, ih, go_bind_ok, go_pure]
      simp [List.range'_succ]

theorem Rep.putNewLink (R : Rep db ns hs) {n : UInt64} {id parentID : BlockID} {h : UInt32} {p : Nat} {x : Node}
    (hp : numOf ns parentID = some p) (hx : at1 ns p = some x) (hh : h.toNat = x.br.height.toNat + 1) :
    putNewLinkForBlock db n id h parentID = .ok (putLink n
      { height := h, blockID := id.1,
        parents := (List.range (clog2 h.toNat)).map (fun i => UInt64.ofNat (up ns p (2 ^ i - 1))) }) := by
  have h0 : h ≠ 0 := by rintro rfl; simp at hh
  have hhp : ht ns p = x.br.height.toNat := ht_of_some hx
  have key := R.linkParents_eq (p := p) (k := clog2 h.toNat) (l := 0) (by
    intro i hi
    have := lt_clog2.mp (show i < clog2 h.toNat by omega)
    omega)
  simp only [Nat.pow_zero, Nat.sub_self, up] at key
  rw [putNewLinkForBlock, R.getNum, hp]
  simp only [go_bind_ok, maxParents_eq h0, key]
  simp [List.range_eq_range']

/-! ### inserting a node -/

/-- the head operations of the batch -/
def headOps (hs : List Nat) (n e : Nat) : Batch :=
  match headIdx hs e with
  | none => putCounter headsCounter (UInt64.ofNat (hs.length + 1))
      ++ putNum headToBlockPrefix (UInt64.ofNat (hs.length + 1)) (UInt64.ofNat n)
      ++ putNum blockToHeadPrefix (UInt64.ofNat n) (UInt64.ofNat (hs.length + 1))
  | some k => [.del (numKey blockToHeadPrefix (UInt64.ofNat e))]
      ++ putNum headToBlockPrefix (UInt64.ofNat k) (UInt64.ofNat n)
      ++ putNum blockToHeadPrefix (UInt64.ofNat n) (UInt64.ofNat k)

/-- the heads after inserting node `n` extending node `e` -/
def newHeads (hs : List Nat) (n e : Nat) : List Nat :=
  match headIdx hs e with
  | none => hs ++ [n]
  | some k => hs.set (k - 1) n

theorem ofNat64_succ (n : Nat) : UInt64.ofNat n + 1 = UInt64.ofNat (n + 1) := by
  simp

theorem Rep.putHead (R : Rep db ns hs) {e : Nat} {y : Node} (hy : at1 ns e = some y) (n : Nat) :
    putHead db (UInt64.ofNat n) (UInt64.ofNat e) = .ok (headOps hs n e) := by
  unfold Chains.putHead headOps
  rw [R.getHead hy]
  cases headIdx hs e with
  | some k => rfl
  | none => simp [fail, putNewHead, R.getCounter_heads]

theorem headIdx_some {hs : List Nat} {n k : Nat} (h : headIdx hs n = some k) : at1 hs k = some n := by
  simp only [headIdx, Option.map_eq_some_iff] at h
  obtain ⟨i, hi, rfl⟩ := h
  obtain ⟨hlt, hp, _⟩ := List.findIdx?_eq_some_iff_getElem.mp hi
  have : hs[i] = n := by simpa using hp
  simp [List.getElem?_eq_getElem hlt, this]

theorem headIdx_none {hs : List Nat} {n : Nat} : headIdx hs n = none ↔ n ∉ hs := by
  simp only [headIdx, Option.map_eq_none_iff, List.findIdx?_eq_none_iff, decide_eq_false_iff_not]
  constructor
  · intro h hn; exact h n hn rfl
  · rintro h x hx rfl; exact h hx

theorem headIdx_eq {hs : List Nat} (hn : hs.Nodup) {n k : Nat} (h : at1 hs k = some n) : headIdx hs n = some k := by
  cases he : headIdx hs n with
  | none => exact absurd (at1_mem h) (headIdx_none.mp he)
  | some j =>
    have hj := headIdx_some he
    rw [at1_some_iff] at h hj
    have := (List.getElem?_inj (i := j - 1) (j := k - 1) (by
      have := (List.getElem?_eq_some_iff.mp hj.2).1; exact this) hn).mp (hj.2.trans h.2.symm)
    congr 1; omega

theorem headIdx_iff {hs : List Nat} (hn : hs.Nodup) {n k : Nat} : headIdx hs n = some k ↔ at1 hs k = some n :=
  ⟨headIdx_some, headIdx_eq hn⟩

theorem newHeads_at1 {hs : List Nat} {n e k : Nat} : at1 (newHeads hs n e) k =
    match headIdx hs e with
    | none => if k = hs.length + 1 then some n else at1 hs k
    | some j => if k = j then some n else at1 hs k := by
  unfold newHeads
  cases h : headIdx hs e with
  | none => exact at1_append
  | some j =>
    have hj := at1_le (headIdx_some h)
    cases k with
    | zero => simp; omega
    | succ k =>
      simp only [at1_succ, List.getElem?_set]
      by_cases hkj : k + 1 = j
      · subst hkj; simp; omega
      · have : ¬ (j - 1 = k) := by omega
        simp [hkj, this]

theorem HeadsOK.newHeads {x : Node} (H : HeadsOK ns hs) (T : TreeOK ns) (N : NewOK ns x) :
    HeadsOK (ns ++ [x]) (newHeads hs (ns.length + 1) x.ext) := by
  obtain ⟨e, he⟩ := N.ext
  have hel := at1_le he
  have hnew : ns.length + 1 ∉ hs := by
    intro hm
    obtain ⟨⟨y, hy⟩, _⟩ := (H.mem _).mp hm
    have := at1_le hy; omega
  have hextle : ∀ m y, at1 ns m = some y → y.ext < ns.length + 1 := by
    intro m y hy
    by_cases h1 : m = 1
    · subst h1
      obtain ⟨g, hg, _, h, _⟩ := T.genesis
      rw [hy] at hg; cases hg; omega
    · obtain ⟨_, _, _, _, _, _, _, h⟩ := T.node m y hy h1
      have := at1_le hy; omega
  have hmem : ∀ n, n ∈ Chains.newHeads hs (ns.length + 1) x.ext ↔ (n = ns.length + 1 ∨ (n ∈ hs ∧ n ≠ x.ext)) := by
    intro n
    unfold Chains.newHeads
    cases h : headIdx hs x.ext with
    | none =>
      have := headIdx_none.mp h
      simp only [List.mem_append, List.mem_singleton]
      constructor
      · rintro (h | h)
        · exact Or.inr ⟨h, fun e => this (e ▸ h)⟩
        · exact Or.inl h
      · rintro (h | h)
        · exact Or.inr h
        · exact Or.inl h.1
    | some k =>
      have hk := headIdx_some h
      have hkl := at1_le hk
      rw [at1_some_iff] at hk
      have hlt : k - 1 < hs.length := by omega
      have hke : hs[k-1] = x.ext := (List.getElem?_eq_some_iff.mp hk.2).2
      simp only [List.mem_iff_getElem?, List.getElem?_set]
      constructor
      · rintro ⟨i, hi⟩
        by_cases hik : k - 1 = i
        · subst hik
          simp [hlt] at hi; exact Or.inl hi.symm
        · simp [hik] at hi
          refine Or.inr ⟨⟨i, hi⟩, ?_⟩
          rintro rfl
          have := (List.getElem?_inj (i := i) (j := k - 1) (List.getElem?_eq_some_iff.mp hi).1 H.nodup).mp
            (by rw [hi, List.getElem?_eq_getElem hlt, hke])
          exact hik this.symm
      · rintro (rfl | ⟨⟨i, hi⟩, hne⟩)
        · exact ⟨k - 1, by simp [hlt]⟩
        · refine ⟨i, ?_⟩
          have : k - 1 ≠ i := by
            rintro rfl
            rw [List.getElem?_eq_getElem hlt, hke] at hi
            exact hne (Option.some.inj hi).symm
          simp [this, hi]
  constructor
  · unfold Chains.newHeads
    cases h : headIdx hs x.ext with
    | none =>
      rw [List.nodup_append]
      refine ⟨H.nodup, by simp, ?_⟩
      intro a ha b hb
      simp at hb; subst hb
      rintro rfl; exact hnew ha
    | some k =>
      have hkl := at1_le (headIdx_some h)
      rw [List.Nodup, List.pairwise_iff_getElem]
      intro i j hi hj hij
      simp only [List.length_set] at hi hj
      rw [List.getElem_set, List.getElem_set]
      split <;> split
      · omega
      · intro e; exact hnew (e ▸ List.getElem_mem _)
      · intro e; exact hnew (e ▸ List.getElem_mem _)
      · exact (List.pairwise_iff_getElem.mp H.nodup) i j hi hj hij
  · intro n
    rw [hmem]
    constructor
    · rintro (rfl | ⟨hm, hne⟩)
      · refine ⟨⟨x, at1_append_new⟩, ?_⟩
        intro m y hy
        rcases at1_append_cases hy with hy | ⟨_, rfl⟩
        · have := hextle m y hy; omega
        · omega
      · obtain ⟨⟨y, hy⟩, h⟩ := (H.mem n).mp hm
        refine ⟨⟨y, at1_append_of_some hy⟩, ?_⟩
        intro m z hz
        rcases at1_append_cases hz with hz | ⟨_, rfl⟩
        · exact h m z hz
        · exact fun e => hne e.symm
    · rintro ⟨⟨y, hy⟩, h⟩
      rcases at1_append_cases hy with hy | ⟨rfl, rfl⟩
      · right
        refine ⟨(H.mem n).mpr ⟨⟨y, hy⟩, fun m z hz => h m z (at1_append_of_some hz)⟩, ?_⟩
        exact fun e => h _ x at1_append_new e.symm
      · exact Or.inl rfl

theorem newHeads_length {hs : List Nat} {n e : Nat} : (newHeads hs n e).length ≤ hs.length + 1 := by
  unfold newHeads; split <;> simp

/-- The batch that inserts node `x`. -/
def insBatch (ns : List Node) (hs : List Nat) (id : BlockID) (x : Node) : Batch :=
  putCounter blocksCounter (UInt64.ofNat (ns.length + 1))
  ++ putID blockPrefix id (UInt64.ofNat (ns.length + 1))
  ++ putBlock (UInt64.ofNat (ns.length + 1)) x.br
  ++ putLink (UInt64.ofNat (ns.length + 1))
      { height := x.br.height, blockID := id.1,
        parents := (List.range (clog2 x.br.height.toNat)).map (fun i => UInt64.ofNat (up ns x.par (2 ^ i - 1))) }
  ++ headOps hs (ns.length + 1) x.ext

theorem ofNat64_eq_iff {n : UInt64} {k : Nat} (h : k < 2 ^ 64) : n = UInt64.ofNat k ↔ n.toNat = k := by
  rw [← UInt64.toNat_inj, toNat_ofNat64 h]

theorem TreeOK.up_new (T : TreeOK ns) {x : Node} (N : NewOK ns x) (k : Nat) (hk : 1 ≤ k) :
    up (ns ++ [x]) (ns.length + 1) k = up ns x.par (k - 1) := by
  obtain ⟨d, rfl⟩ := Nat.exists_eq_add_of_le hk
  obtain ⟨p, hp, _⟩ := N.par
  have h1 : up (ns ++ [x]) (ns.length + 1) 1 = x.par := by
    simp only [up]; exact parN_of_some at1_append_new
  rw [up_add, h1, T.up_append (at1_le hp).2]
  congr 1; omega

theorem headIdx_newHeads (H : HeadsOK ns hs) {x : Node} (T : TreeOK ns) (N : NewOK ns x) (m : Nat) :
    headIdx (newHeads hs (ns.length + 1) x.ext) m =
      if m = ns.length + 1 then (match headIdx hs x.ext with | none => some (hs.length + 1) | some k => some k)
      else if m = x.ext then none else headIdx hs m := by
  have H' := H.newHeads T N
  obtain ⟨e, he⟩ := N.ext
  have hel := at1_le he
  apply Option.ext
  intro k
  rw [headIdx_iff H'.nodup, newHeads_at1]
  have hnew : ∀ j, at1 hs j ≠ some (ns.length + 1) := by
    intro j hj
    obtain ⟨⟨y, hy⟩, _⟩ := (H.mem _).mp (at1_mem hj)
    have := at1_le hy; omega
  cases hh : headIdx hs x.ext with
  | none =>
    have hnm := headIdx_none.mp hh
    by_cases hm : m = ns.length + 1
    · subst hm
      by_cases hk : k = hs.length + 1
      · simp [hk]
      · simp [hk, hnew k]; omega
    · simp only [hm, if_false]
      by_cases hk : k = hs.length + 1
      · subst hk
        simp only [if_true, Option.some.injEq]
        constructor
        · intro h; exact absurd h.symm hm
        · split
          · simp
          · intro h
            have := at1_le (headIdx_some h); omega
      · simp only [hk, if_false]
        by_cases hme : m = x.ext
        · subst hme
          simp
          intro h; exact hnm (at1_mem h)
        · simp only [hme, if_false]; rw [headIdx_iff H.nodup]
  | some j =>
    have hj := headIdx_some hh
    by_cases hm : m = ns.length + 1
    · subst hm
      by_cases hk : k = j
      · simp [hk]
      · simp [hk, hnew k]; exact fun h => hk h.symm
    · simp only [hm, if_false]
      by_cases hk : k = j
      · subst hk
        simp only [if_true, Option.some.injEq]
        constructor
        · intro h; exact absurd h.symm hm
        · split
          · simp
          · intro h
            have := headIdx_some h
            rw [hj] at this
            exact absurd (Option.some.inj this).symm (by assumption)
      · simp only [hk, if_false]
        by_cases hme : m = x.ext
        · subst hme
          simp
          intro h
          have := headIdx_eq H.nodup h
          rw [hh] at this; exact hk (Option.some.inj this).symm
        · simp only [hme, if_false]; rw [headIdx_iff H.nodup]

theorem Rep.insert (R : Rep db ns hs) {x : Node} (N : NewOK ns x) (id : BlockID) (hid : x.br.id = id.1)
    (hb : ns.length + 1 < 2 ^ 32) :
    Rep (applyBatch db (insBatch ns hs id x)) (ns ++ [x]) (newHeads hs (ns.length + 1) x.ext) := by
  have T' := R.tree.append N
  have H' := R.hok.newHeads R.tree N
  have hn64 : ns.length + 1 < 2 ^ 64 := by omega
  obtain ⟨e, he⟩ := N.ext
  have hel := at1_le he
  have hhl := newHeads_length (hs := hs) (n := ns.length + 1) (e := x.ext)
  have hhb := R.hbound
  obtain ⟨N', hN⟩ : ∃ N', N' = UInt64.ofNat (ns.length + 1) := ⟨_, rfl⟩
  obtain ⟨K', hK⟩ : ∃ K', K' = UInt64.ofNat (hs.length + 1) := ⟨_, rfl⟩
  have hNt : ∀ n : UInt64, n = N' ↔ n.toNat = ns.length + 1 := fun n => by rw [hN]; exact ofNat64_eq_iff hn64
  have hKt : ∀ n : UInt64, n = K' ↔ n.toNat = hs.length + 1 := fun n => by
    rw [hK]; exact ofNat64_eq_iff (by omega)
  refine ⟨sorted_applyBatch R.sorted _, T', H', by simpa using hb, by simp; omega, ?_, ?_, ?_, ?_, ?_, ?_, ?_, ?_, ?_, ?_⟩
  all_goals
    simp only [insBatch, headOps, putCounter, putID, putBlock, putLink, putNum, ← hN, ← hK]
  · -- cnt
    cases headIdx hs x.ext <;>
      simp [applyBatch, applyOp, get_put, get_del, rawNum, hN]
  · -- hcnt
    unfold newHeads
    cases headIdx hs x.ext with
    | none => simp [applyBatch, applyOp, get_put, rawNum, hK]
    | some k => simpa [applyBatch, applyOp, get_put, get_del] using R.hcnt
  · -- ids
    intro i
    rw [numOf_append N.fresh]
    have hi : (i = id) ↔ (i.1 = x.br.id) := by rw [hid, Subtype.ext_iff]
    cases headIdx hs x.ext <;>
      simp [applyBatch, applyOp, get_put, get_del, R.ids, hi] <;> split <;> simp [rawNum, hN]
  · -- blocks
    intro n
    rw [at1_append]; simp only [← hNt n]
    cases headIdx hs x.ext <;>
      simp [applyBatch, applyOp, get_put, get_del, R.blocks] <;> split <;> simp
  · -- links
    intro n
    have hl : ∀ (hn : n.toNat = ns.length + 1), linkOf (ns ++ [x]) n.toNat x =
        { height := x.br.height, blockID := id.1, parents :=
          (List.range (clog2 x.br.height.toNat)).map (fun i => UInt64.ofNat (up ns x.par (2 ^ i - 1))) } := by
      intro hn
      rw [hn]
      unfold linkOf
      rw [ht_of_some at1_append_new, hid]
      congr 1
      apply List.map_congr_left
      intro i _
      rw [R.tree.up_new N _ (Nat.two_pow_pos i)]
    have hl2 : ∀ y, n.toNat ≤ ns.length → linkOf (ns ++ [x]) n.toNat y = linkOf ns n.toNat y := by
      intro y hn
      unfold linkOf
      rw [ht_append hn]
      congr 1
      apply List.map_congr_left
      intro i _
      rw [R.tree.up_append hn]
    rw [at1_append]
    by_cases hn : n.toNat = ns.length + 1
    · have := (hNt n).mpr hn
      cases headIdx hs x.ext <;>
        simp [applyBatch, applyOp, get_put, get_del, this]
      all_goals rw [← this, if_pos hn]; simp [hl hn]
    · have hne : ¬ n = N' := fun e => hn ((hNt n).mp e)
      have : (at1 ns n.toNat).map (fun y => Val.lnk (linkOf (ns ++ [x]) n.toNat y)) =
          (at1 ns n.toNat).map (fun y => Val.lnk (linkOf ns n.toNat y)) := by
        cases h : at1 ns n.toNat with
        | none => rfl
        | some y => simp [hl2 y (at1_le h).2]
      cases headIdx hs x.ext <;>
        simp [applyBatch, applyOp, get_put, get_del, hn, hne, this, R.links]
  · -- h2b
    intro k
    rw [newHeads_at1]
    cases hh : headIdx hs x.ext with
    | none =>
      simp only [← hKt k]
      simp [applyBatch, applyOp, get_put, R.h2b]
      split <;> simp [rawNum, hN]
    | some j =>
      have hj := at1_le (headIdx_some hh)
      have hjt := ofNat64_eq_iff (n := k) (k := j) (by omega)
      simp only [← hjt]
      simp [applyBatch, applyOp, get_put, get_del, R.h2b]
      split <;> simp [rawNum, hN]
  · -- b2h
    intro n
    rw [headIdx_newHeads R.hok R.tree N]; simp only [← hNt n]
    have het := ofNat64_eq_iff (n := n) (k := x.ext) (by omega)
    cases hh : headIdx hs x.ext with
    | none =>
      have hnm := headIdx_none.mp hh
      simp [applyBatch, applyOp, get_put, R.b2h]
      split
      · simp [rawNum, hK]
      · split
        · rename_i h; simp [h, hh]
        · rfl
    | some j =>
      simp only [← het]
      simp [applyBatch, applyOp, get_put, get_del, R.b2h]
      split
      · simp [rawNum]
      · split <;> simp
  · -- leashes
    intro a v
    have := R.lsh a v
    cases headIdx hs x.ext <;>
      simp only [applyBatch, applyOp, get_put, get_del, List.foldl_cons, List.foldl_nil, List.cons_append, List.nil_append,
        addrKey_ne_counterKey, addrKey_ne_idKey, addrKey_ne_numKey, if_false] <;> exact this
  · -- k3
    intro r v
    have := R.k3 r v
    cases headIdx hs x.ext <;>
      simp [applyBatch, applyOp, get_put, get_del, counterKey, idKey, numKey] <;> exact this
  · -- k4
    intro r v
    have := R.k4 r v
    cases headIdx hs x.ext with
    | none =>
      simp [applyBatch, applyOp, get_put, counterKey, idKey, numKey]
      split
      · rename_i h; intro _; exact ⟨_, h⟩
      · exact this
    | some j =>
      simp [applyBatch, applyOp, get_put, get_del, counterKey, idKey, numKey]
      split
      · rename_i h; intro _; exact ⟨_, h⟩
      · exact this

end Verif.Chains
