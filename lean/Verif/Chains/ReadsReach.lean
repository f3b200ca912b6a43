import Verif.Chains.ReadsLemmas
import Verif.Chains.History
/-
A store without some of its leashes is the store of another history: the one
in which the writes of those leashes failed.
-/

set_option autoImplicit false

namespace Verif.Chains.Rd

open Verif KV Spec

theorem get_filter_not {V : Type} (q : Bytes → Bool) (db : KV.DB V) (k : Bytes) (hk : q k = false) :
    KV.get (db.filter (fun p => q p.1)) k = none := by
  induction db with
  | nil => rfl
  | cons p db ih =>
    obtain ⟨a, b⟩ := p
    by_cases e : k = a
    · subst e; simp [hk, ih]
    · by_cases ha : q a = true
      · simp [ha, KV.get, e, ih]
      · simp [ha, ih]

theorem put_of_lt {V : Type} {db : KV.DB V} {k : Bytes} {v : V} (h : ∀ p ∈ db, bytesLt k p.1 = true) :
    put db k v = (k, v) :: db := by
  cases db with
  | nil => rfl
  | cons p db =>
    obtain ⟨a, b⟩ := p
    have hl := h (a, b) (by simp)
    have hne : k ≠ a := by
      rintro rfl
      rw [bytesLt_irrefl] at hl
      cases hl
    simp [put, hne, hl]

theorem filter_put {V : Type} (q : Bytes → Bool) {db : KV.DB V} (hs : Sorted db) {k : Bytes} (v : V) (hk : q k = true) :
    (put db k v).filter (fun p => q p.1) = put (db.filter (fun p => q p.1)) k v := by
  induction db with
  | nil => simp [put, hk]
  | cons p db ih =>
    obtain ⟨a, b⟩ := p
    have hs' := List.pairwise_cons.mp hs
    by_cases e : k = a
    · subst e; simp [put, hk]
    · by_cases hl : bytesLt k a = true
      · by_cases ha : q a = true
        · simp [put, e, hl, hk, ha]
        · simp only [put, e, if_false, hl, if_true]
          rw [List.filter_cons_of_pos (by simpa using hk)]
          symm
          rw [put_of_lt]
          intro p hp
          have hp' := (List.mem_filter.mp hp).1
          rcases List.mem_cons.mp hp' with rfl | hp'
          · exact hl
          · exact bytesLt_trans hl (hs'.1 p hp')
      · by_cases ha : q a = true
        · simp [put, e, hl, ha, ih hs'.2]
        · simp [put, e, hl, ha, ih hs'.2]

theorem filter_put_not {V : Type} (q : Bytes → Bool) (db : KV.DB V) {k : Bytes} (v : V) (hk : q k = false) :
    (put db k v).filter (fun p => q p.1) = db.filter (fun p => q p.1) := by
  induction db with
  | nil => simp [put, hk]
  | cons p db ih =>
    obtain ⟨a, b⟩ := p
    by_cases e : k = a
    · subst e; simp [put, hk]
    · by_cases hl : bytesLt k a = true
      · simp [put, e, hl, hk]
      · by_cases ha : q a = true <;> simp [put, e, hl, ha, ih]

theorem filter_del {V : Type} (q : Bytes → Bool) (db : KV.DB V) (k : Bytes) :
    (del db k).filter (fun p => q p.1) = del (db.filter (fun p => q p.1)) k := by
  unfold del
  rw [List.filter_filter, List.filter_filter]
  congr 1
  funext p
  rw [Bool.and_comm]

/-- the key of an entry of a batch -/
def opKey : BatchOp Val → Bytes
  | .put k _ => k
  | .del k => k

theorem unseen_batch (F : Faults) : ∀ (b : Batch) {db : DB}, Sorted db → (∀ o ∈ b, (opKey o).head? ≠ some leashPrefix) →
    unseen F (applyBatch db b) = applyBatch (unseen F db) b
  | [], _, _, _ => rfl
  | o :: b, db, hs, h => by
    have ho : unseen F (applyOp db o) = applyOp (unseen F db) o := by
      cases o with
      | put k v => exact filter_put (keep F) hs v (keep_other F (h (.put k v) (by simp)))
      | del k => exact filter_del (keep F) db k
    have hs' : Sorted (applyOp db o) := by
      cases o with
      | put k v => exact sorted_put hs k v
      | del k => exact sorted_del hs k
    have := unseen_batch F b hs' (fun o' ho' => h o' (by simp [ho']))
    simp only [applyBatch, List.foldl_cons] at this ⊢
    rw [this, ho]

theorem insBatch_keys (ns : List Node) (hs : List Nat) (id : BlockID) (x : Node) :
    ∀ o ∈ insBatch ns hs id x, (opKey o).head? ≠ some leashPrefix := by
  intro o ho
  have hp : ∀ p n, (numKey p n).head? = some p := fun _ _ => rfl
  have hi : ∀ p i, (idKey p i).head? = some p := fun _ _ => rfl
  have hc : ∀ c, (counterKey c).head? = some counterPrefix := fun _ => rfl
  simp only [insBatch, putCounter, putID, putBlock, putLink, List.mem_append, List.mem_singleton] at ho
  rcases ho with (((rfl | rfl) | rfl) | rfl) | ho
  · simp [opKey, hc]
  · simp [opKey, hi]
  · simp [opKey, hp]
  · simp [opKey, hp]
  · unfold headOps at ho
    split at ho
    all_goals
      simp only [putCounter, putNum, List.mem_append, List.mem_singleton] at ho
      rcases ho with (rfl | rfl) | rfl <;> simp [opKey, hp, hc]

variable {db : DB} {ns : List Node} {hs : List Nat}

/-- the tree of blocks does not depend on the leashes -/
theorem rep_unseen (F : Faults) (R : Rep db ns hs) : Rep (unseen F db) ns hs where
  sorted := R.sorted.filter _
  tree := R.tree
  hok := R.hok
  bound := R.bound
  hbound := R.hbound
  cnt := by rw [get_unseen F db _ (by simp [counterKey])]; exact R.cnt
  hcnt := by rw [get_unseen F db _ (by simp [counterKey])]; exact R.hcnt
  ids id := by rw [get_unseen F db _ (by simp [idKey])]; exact R.ids id
  blocks n := by rw [get_unseen F db _ (by simp [numKey])]; exact R.blocks n
  links n := by rw [get_unseen F db _ (by simp [numKey])]; exact R.links n
  h2b n := by rw [get_unseen F db _ (by simp [numKey])]; exact R.h2b n
  b2h n := by rw [get_unseen F db _ (by simp [numKey])]; exact R.b2h n
  lsh a v h := by
    cases hk : keep F (addrKey a) with
    | true => rw [unseen, get_filter (keep F) db _ hk] at h; exact R.lsh a v h
    | false => rw [unseen, get_filter_not (keep F) db _ hk] at h; cases h
  k3 r v h := by
    cases hk : keep F (leashPrefix :: r) with
    | true => rw [unseen, get_filter (keep F) db _ hk] at h; exact R.k3 r v h
    | false => rw [unseen, get_filter_not (keep F) db _ hk] at h; cases h
  k4 r v h := by rw [get_unseen F db _ (by simp)] at h; exact R.k4 r v h

/-- the leash of a peer in the store without the missed leashes -/
theorem getLeash_unseen (F : Faults) (db : DB) (a : Addr) :
    Chains.getLeash (unseen F db) a = if keep F (addrKey a) then Chains.getLeash db a else fail .notFound := by
  unfold Chains.getLeash unseen
  cases hk : keep F (addrKey a) with
  | true => rw [get_filter (keep F) db _ hk]; rfl
  | false => rw [get_filter_not (keep F) db _ hk]; rfl

/-- a leash write in the store without the missed leashes -/
theorem unseen_leash (F : Faults) (hs : Sorted db) (f : Fate) (a : Addr) (id : BlockID) :
    (updateLeash (if keep F (addrKey a) then f else .fail) (unseen F db) a id).1 = unseen F (updateLeash f db a id).1 := by
  cases hk : keep F (addrKey a) with
  | true =>
    simp only [if_true]
    cases f with
    | ok => exact (filter_put (keep F) hs _ hk).symm
    | fail => rfl
    | lostAck => exact (filter_put (keep F) hs _ hk).symm
  | false =>
    simp only [Bool.false_eq_true, if_false]
    cases f with
    | ok => exact (filter_put_not (keep F) db _ hk).symm
    | fail => rfl
    | lostAck => exact (filter_put_not (keep F) db _ hk).symm

/-- an insertion in the store without the missed leashes -/
theorem unseen_insert (F : Faults) (R : Rep db ns hs) (f1 f2 : Fate) (x : Node) (id : BlockID) (a : Addr) :
    (insertThenLeash f1 (if keep F (addrKey a) then f2 else .fail) (unseen F db) (insBatch ns hs id x) a id).1 =
      unseen F (insertThenLeash f1 f2 db (insBatch ns hs id x) a id).1 := by
  have hb := unseen_batch F _ R.sorted (insBatch_keys ns hs id x)
  cases f1 with
  | ok =>
    simp only [insertThenLeash, write]
    rw [← hb]
    exact unseen_leash F (sorted_applyBatch R.sorted _) f2 a id
  | fail => rfl
  | lostAck =>
    simp only [insertThenLeash, write, fail]
    exact hb.symm

/-- one call in the store without the missed leashes -/
theorem unseen_step (F : Faults) {l : Linkage} (R : Rep l.db ns hs) (hb : ns.length + 1 < 2 ^ 32) (o : Op) :
    ∃ o', inserts [o'] = inserts [o] ∧
      (Spec.step { l with db := unseen F l.db } o').1 =
        { (Spec.step l o).1 with db := unseen F (Spec.step l o).1.db } := by
  have R' := rep_unseen F R
  cases o with
  | moveLeash id a f =>
    refine ⟨.moveLeash id a (if keep F (addrKey a) then f else .fail), rfl, ?_⟩
    simp only [Spec.step, MoveLeash, unseen_leash F R.sorted]
  | reopen g f =>
    refine ⟨.reopen g f, rfl, ?_⟩
    simp only [Spec.step, Chains.NewLinkage, R.reopen f g, R'.reopen f g]
  | putBlock b a f1 f2 =>
    cases h : numOf ns b.id with
    | some n =>
      refine ⟨.putBlock b a (if keep F (addrKey a) then f1 else .fail) f2, rfl, ?_⟩
      simp only [Spec.step, R.PutBlock_known h, R'.PutBlock_known h, unseen_leash F R.sorted]
    | none =>
      refine ⟨.putBlock b a f1 (if keep F (addrKey a) then f2 else .fail), rfl, ?_⟩
      cases hp : numOf ns b.parent with
      | none => simp only [Spec.step, R.PutBlock_orphan h hp, R'.PutBlock_orphan h hp]
      | some p =>
        obtain ⟨y, hy, _⟩ := numOf_some hp
        simp only [Spec.step, R.PutBlock_new hb h hp hy, R'.PutBlock_new hb h hp hy]
        cases b.generator with
        | none => rfl
        | some ga =>
          cases calculateScore b.baseTarget with
          | error e => rfl
          | ok sc => simp only [unseen_insert F R]
  | putMicro b a f1 f2 =>
    cases h : numOf ns b.totalBlockID with
    | some n =>
      refine ⟨.putMicro b a (if keep F (addrKey a) then f1 else .fail) f2, rfl, ?_⟩
      simp only [Spec.step, R.PutMicro_known h, R'.PutMicro_known h, unseen_leash F R.sorted]
    | none =>
      refine ⟨.putMicro b a f1 (if keep F (addrKey a) then f2 else .fail), rfl, ?_⟩
      cases hp : numOf ns b.reference with
      | none => simp only [Spec.step, R.PutMicro_orphan h hp, R'.PutMicro_orphan h hp]
      | some p =>
        obtain ⟨y, hy, _⟩ := numOf_some hp
        simp only [Spec.step, R.PutMicro_new h hp hy, R'.PutMicro_new h hp hy]
        by_cases h1 : p = 1
        · simp only [h1, if_true]
        · simp only [h1, if_false, unseen_insert F R]

theorem unseen_exec (F : Faults) : ∀ (ops : List Op) {l : Linkage} {ns : List Node} {hs : List Nat}, Rep l.db ns hs →
    ns.length + inserts ops + 1 < 2 ^ 32 →
    ∃ ops', inserts ops' = inserts ops ∧
      Spec.exec { l with db := unseen F l.db } ops' = { Spec.exec l ops with db := unseen F (Spec.exec l ops).db }
  | [], l, _, _, _, _ => ⟨[], rfl, rfl⟩
  | o :: ops, l, ns, hs, R, hb => by
    rw [inserts_cons] at hb
    obtain ⟨o', ho, e⟩ := unseen_step F R (by omega) o
    obtain ⟨ns', hs', R', _, hl⟩ := R.step o (by omega)
    obtain ⟨ops', hops, e'⟩ := unseen_exec F ops R' (by omega)
    refine ⟨o' :: ops', by rw [inserts_cons, inserts_cons o, ho, hops], ?_⟩
    simp only [Spec.exec, List.foldl_cons] at e' ⊢
    rw [e]
    exact e'

/-- a store just created has no leashes -/
theorem unseen_fresh (F : Faults) {g : ProtoBlock} {l : Linkage} (h : Fresh g l) : unseen F l.db = l.db := by
  unfold Fresh Chains.NewLinkage Chains.initStorage at h
  have h0 : Chains.getCounter [] blocksCounter = .ok 0 := by simp [Chains.getCounter, KV.get]
  rw [h0] at h
  simp only [if_true] at h
  cases hg : g.generator with
  | none => simp [genesisBatch, hg, fail] at h
  | some ga =>
    cases hsc : calculateScore g.baseTarget with
    | error e => simp [genesisBatch, hg, hsc] at h
    | ok sc =>
      rw [genesisBatch_eq hg hsc] at h
      simp only [write] at h
      have h2 := congrArg Prod.fst h
      simp only at h2
      rw [← h2, unseen_batch F _ List.Pairwise.nil]
      · rfl
      · intro o ho
        simp only [putCounter, putID, putBlock, putLink, putNum, List.mem_append, List.mem_singleton] at ho
        rcases ho with (((((rfl | rfl) | rfl) | rfl) | rfl) | rfl) | rfl <;> simp [opKey, numKey, idKey, counterKey]

/-- The store without the missed leashes is the store of another history. -/
theorem unseen_reachable (F : Faults) {g : ProtoBlock} {l : Linkage} (h : Reachable g l) :
    Reachable g { l with db := unseen F l.db } := by
  obtain ⟨l0, ops, hf, hb, rfl⟩ := h
  obtain ⟨ga, sc, _, _, _, R⟩ := fresh_rep hf
  obtain ⟨ops', hi, e⟩ := unseen_exec F ops R (by simp; omega)
  refine ⟨l0, ops', hf, by omega, ?_⟩
  rw [← e, unseen_fresh F hf]

/-! ### lists that an iterator delivers -/

theorem mapGo_filter {α β : Type} {f : α → Go β} {q : α → Bool} {q' : β → Bool} : ∀ {l : List α} {r : List β},
    mapGo f l = .ok r → (∀ a ∈ l, ∀ b, f a = .ok b → q' b = q a) → mapGo f (l.filter q) = .ok (r.filter q')
  | [], r, h, _ => by simp only [mapGo, Except.ok.injEq] at h; subst h; rfl
  | a :: l, r, h, hq => by
    obtain ⟨b, r', hb, hr, rfl⟩ := mapGo_cons_ok h
    have ih := mapGo_filter hr (fun a' ha => hq a' (by simp [ha]))
    have hqb := hq a (by simp) b hb
    cases hqa : q a with
    | true => rw [List.filter_cons_of_pos hqa, List.filter_cons_of_pos (by rw [hqb, hqa])]; simp [mapGo, hb, ih]
    | false =>
      rw [List.filter_cons_of_neg (by simp [hqa]), List.filter_cons_of_neg (by simp [hqb, hqa])]
      exact ih

/-- the leashes that are seen are those that are not missed -/
theorem leashes_filter (F : Faults) (R : Rep db ns hs) {ls : List Leash} (h : Chains.leashes db = .ok ls) :
    leashes F db = .ok (ls.filter (fun x => !F.missed (addrKey x.addr))) := by
  refine mapGo_filter h ?_
  intro p hp b hb
  obtain ⟨a, id, _, _, hk, _, _, hres⟩ := R.leashOf (k := p.1) (v := p.2) hp
  have e : b = ⟨a, id⟩ := by have := hb.symm.trans hres; simpa using this
  rw [e, hk]

/-- the heads that are seen are those that are not missed -/
theorem heads_filter (F : Faults) (R : Rep db ns hs) {hd : List Head} (h : Chains.heads db = .ok hd) :
    Safe F (heads F db) (.ok (hd.filter (fun x => !F.missed (numKey headToBlockPrefix x.num)))) := by
  unfold Chains.heads at h
  obtain ⟨ps, h1, h2⟩ := go_bind_eq_ok.mp h
  have e1 : getHeads F db = .ok (ps.filter (fun x => !F.missed (numKey headToBlockPrefix x.1))) := by
    refine mapGo_filter h1 ?_
    intro p hp b hb
    obtain ⟨k, v⟩ := p
    obtain ⟨hg, h1, h2⟩ := (mem_scan R.sorted).mp hp
    obtain ⟨r, rfl⟩ := head_prefix_in_range h1 h2
    obtain ⟨n, rfl⟩ := R.k4 r v hg
    have hk : b.1 = n := by
      have hkey : headToBlockPrefix :: be64 n = numKey headToBlockPrefix n := rfl
      simp only [headOf, hkey, numKeyFrom_numKey, go_bind_ok, ne_eq, not_true_eq_false, if_false] at hb
      split at hb
      · obtain ⟨m, _, hm⟩ := go_bind_eq_ok.mp hb
        cases hm; rfl
      · cases hb
    subst hk
    rfl
  unfold heads
  rw [e1]
  simp only [go_bind_ok]
  have hsafe := Safe.mapGo (F := F) (f := fun (p : UInt64 × UInt64) => do
      let bl ← getBlock F db p.2
      let id ← newBlockIDFromBytes bl.id
      pure ({ num := p.1, blockID := id } : Head)) (g := fun p => do
      let bl ← Chains.getBlock db p.2
      let id ← newBlockIDFromBytes bl.id
      pure { num := p.1, blockID := id }) (fun p => (safe_getBlock F db _).bind fun _ => .refl _)
      (ps.filter (fun x => !F.missed (numKey headToBlockPrefix x.1)))
  refine Or.imp ?_ id hsafe
  intro e
  rw [e]
  refine mapGo_filter h2 ?_
  intro p _ b hb
  obtain ⟨bl, _, hb⟩ := go_bind_eq_ok.mp hb
  obtain ⟨id, _, hb⟩ := go_bind_eq_ok.mp hb
  cases hb
  rfl

end Verif.Chains.Rd
