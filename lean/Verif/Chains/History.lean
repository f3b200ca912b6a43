import Verif.Chains.Ops
import Verif.Chains.Spec
/-
The representation invariant along histories.
-/
set_option autoImplicit false

namespace Verif.Chains

open Verif KV Spec

variable {db : DB} {ns : List Node} {hs : List Nat}

/-- the shape of every database transition: nothing, a leash, a node, or a node and a leash -/
inductive Trans (db : DB) (ns : List Node) (hs : List Nat) : DB → List Node → List Nat → Prop where
  | none : Trans db ns hs db ns hs
  | leash (a : Addr) (id : BlockID) : Trans db ns hs (put db (addrKey a) (.raw id.1)) ns hs
  | node (x : Node) (id : BlockID) (N : NewOK ns x) (hid : x.br.id = id.1) :
      Trans db ns hs (applyBatch db (insBatch ns hs id x)) (ns ++ [x]) (newHeads hs (ns.length + 1) x.ext)
  | both (x : Node) (id : BlockID) (N : NewOK ns x) (hid : x.br.id = id.1) (a : Addr) :
      Trans db ns hs (put (applyBatch db (insBatch ns hs id x)) (addrKey a) (.raw id.1)) (ns ++ [x])
        (newHeads hs (ns.length + 1) x.ext)

theorem Trans.rep (R : Rep db ns hs) (hb : ns.length + 1 < 2 ^ 32) {db' : DB} {ns' : List Node} {hs' : List Nat}
    (t : Trans db ns hs db' ns' hs') : Rep db' ns' hs' := by
  cases t with
  | none => exact R
  | leash a id => exact R.putLeash a id
  | node x id N hid => exact R.insert N id hid hb
  | both x id N hid a => exact (R.insert N id hid hb).putLeash a id

theorem Trans.ext {db' : DB} {ns' : List Node} {hs' : List Nat}
    (t : Trans db ns hs db' ns' hs') : ns' = ns ∨ ∃ x, NewOK ns x ∧ ns' = ns ++ [x] := by
  cases t with
  | none => exact Or.inl rfl
  | leash a id => exact Or.inl rfl
  | node x id N hid => exact Or.inr ⟨x, N, rfl⟩
  | both x id N hid a => exact Or.inr ⟨x, N, rfl⟩

theorem updateLeash_trans (f : Fate) (a : Addr) (id : BlockID) :
    Trans db ns hs (updateLeash f db a id).1 ns hs := by
  cases f with
  | ok => exact .leash a id
  | fail => exact .none
  | lostAck => exact .leash a id

theorem insertThenLeash_trans (f1 f2 : Fate) {x : Node} {id : BlockID} (N : NewOK ns x) (hid : x.br.id = id.1) (a : Addr) :
    ∃ ns' hs', Trans db ns hs (insertThenLeash f1 f2 db (insBatch ns hs id x) a id).1 ns' hs' := by
  cases f1 with
  | ok =>
    cases f2 with
    | ok => exact ⟨_, _, .both x id N hid a⟩
    | fail => exact ⟨_, _, .node x id N hid⟩
    | lostAck => exact ⟨_, _, .both x id N hid a⟩
  | fail => exact ⟨_, _, .none⟩
  | lostAck => exact ⟨_, _, .node x id N hid⟩

theorem Rep.PutBlock_trans (R : Rep db ns hs) (hb : ns.length + 1 < 2 ^ 32) (f1 f2 : Fate) (b : ProtoBlock) (a : Addr) :
    ∃ ns' hs', Trans db ns hs (PutBlock f1 f2 db b a).1 ns' hs' := by
  cases h : numOf ns b.id with
  | some n => rw [R.PutBlock_known h]; exact ⟨_, _, updateLeash_trans _ _ _⟩
  | none =>
    cases hp : numOf ns b.parent with
    | none => rw [R.PutBlock_orphan h hp]; exact ⟨_, _, .none⟩
    | some p =>
      obtain ⟨y, hy, _⟩ := numOf_some hp
      rw [R.PutBlock_new hb h hp hy]
      cases b.generator with
      | none => exact ⟨_, _, .none⟩
      | some ga =>
        cases calculateScore b.baseTarget with
        | error e => exact ⟨_, _, .none⟩
        | ok sc => exact insertThenLeash_trans f1 f2 (R.newOK_block hb h hp hy) rfl a

theorem Rep.PutMicro_trans (R : Rep db ns hs) (f1 f2 : Fate) (b : MicroInv) (a : Addr) :
    ∃ ns' hs', Trans db ns hs (PutMicroBlock f1 f2 db b a).1 ns' hs' := by
  cases h : numOf ns b.totalBlockID with
  | some n => rw [R.PutMicro_known h]; exact ⟨_, _, updateLeash_trans _ _ _⟩
  | none =>
    cases hp : numOf ns b.reference with
    | none => rw [R.PutMicro_orphan h hp]; exact ⟨_, _, .none⟩
    | some r =>
      obtain ⟨y, hy, _⟩ := numOf_some hp
      rw [R.PutMicro_new h hp hy]
      by_cases h1 : r = 1
      · simp only [h1, if_true]; exact ⟨_, _, .none⟩
      · simp only [h1, if_false]
        exact insertThenLeash_trans f1 f2 (R.newOK_micro h hy h1) rfl a

theorem Rep.step_trans {l : Linkage} (R : Rep l.db ns hs) (hb : ns.length + 1 < 2 ^ 32) (o : Op) :
    ∃ ns' hs', Trans l.db ns hs (step l o).1.db ns' hs' := by
  cases o with
  | putBlock b a f1 f2 => exact R.PutBlock_trans hb f1 f2 b a
  | putMicro b a f1 f2 => exact R.PutMicro_trans f1 f2 b a
  | moveLeash id a f => exact ⟨_, _, updateLeash_trans f a id⟩
  | reopen g f =>
    simp only [Spec.step, NewLinkage, R.reopen f g]
    exact ⟨_, _, .none⟩

theorem step_nonInsert_len {l : Linkage} (R : Rep l.db ns hs) (o : Op)
    (ho : inserts [o] = 0) : Rep (step l o).1.db ns hs := by
  cases o with
  | putBlock b a f1 f2 => simp [inserts] at ho
  | putMicro b a f1 f2 => simp [inserts] at ho
  | moveLeash id a f =>
    cases f with
    | ok => exact R.putLeash a id
    | fail => exact R
    | lostAck => exact R.putLeash a id
  | reopen g f => simpa only [Spec.step, NewLinkage, R.reopen f g] using R

theorem inserts_cons (o : Op) (ops : List Op) : inserts (o :: ops) = inserts [o] + inserts ops := by
  simp only [inserts]
  rw [← List.singleton_append, List.filter_append, List.length_append]

theorem inserts_append (o1 o2 : List Op) : inserts (o1 ++ o2) = inserts o1 + inserts o2 := by
  simp [inserts]

theorem inserts_le_one (o : Op) : inserts [o] ≤ 1 := by
  simp only [inserts]
  exact Nat.le_trans (List.length_filter_le _ _) (by simp)

theorem exec_append (l : Linkage) (o1 o2 : List Op) : exec l (o1 ++ o2) = exec (exec l o1) o2 := by
  simp [exec]

/-- one step keeps the invariant and extends the tree -/
theorem Rep.step {l : Linkage} (R : Rep l.db ns hs) (o : Op) (hb : ns.length + inserts [o] < 2 ^ 32) :
    ∃ ns' hs', Rep (step l o).1.db ns' hs' ∧ ns <+: ns' ∧ ns'.length ≤ ns.length + inserts [o] := by
  by_cases ho : inserts [o] = 0
  · exact ⟨ns, hs, step_nonInsert_len R o ho, List.prefix_refl _, by omega⟩
  · have := inserts_le_one o
    obtain ⟨ns', hs', t⟩ := R.step_trans (by omega) o
    refine ⟨ns', hs', t.rep R (by omega), ?_⟩
    rcases t.ext with rfl | ⟨x, _, rfl⟩
    · exact ⟨List.prefix_refl _, by omega⟩
    · exact ⟨List.prefix_append _ _, by simp; omega⟩

theorem Rep.exec {l : Linkage} (R : Rep l.db ns hs) (ops : List Op) (hb : ns.length + inserts ops < 2 ^ 32) :
    ∃ ns' hs', Rep (exec l ops).db ns' hs' ∧ ns <+: ns' ∧ ns'.length ≤ ns.length + inserts ops := by
  induction ops generalizing l ns hs with
  | nil => exact ⟨ns, hs, R, List.prefix_refl _, by simp⟩
  | cons o ops ih =>
    rw [inserts_cons] at hb ⊢
    obtain ⟨ns1, hs1, R1, hp1, hl1⟩ := R.step o (by omega)
    obtain ⟨ns2, hs2, R2, hp2, hl2⟩ := ih R1 (by omega)
    exact ⟨ns2, hs2, R2, hp1.trans hp2, by omega⟩

theorem fresh_rep {g : ProtoBlock} {l : Linkage} (h : Fresh g l) :
    ∃ ga sc, g.generator = some ga ∧ calculateScore g.baseTarget = .ok sc ∧ l.genesis = g.id ∧
      Rep l.db [genesisNode g ga sc] [1] := by
  unfold Fresh NewLinkage initStorage at h
  have h0 : getCounter [] blocksCounter = .ok 0 := by simp [getCounter, KV.get]
  rw [h0] at h
  simp only [if_true] at h
  cases hg : g.generator with
  | none => simp [genesisBatch, hg, fail] at h
  | some ga =>
    cases hsc : calculateScore g.baseTarget with
    | error e => simp [genesisBatch, hg, hsc] at h
    | ok sc =>
      rw [genesisBatch_eq hg hsc] at h
      simp only [write] at h
      have h2 := congrArg Prod.snd h
      simp at h2
      refine ⟨ga, sc, rfl, rfl, by rw [← h2], ?_⟩
      rw [← h2]
      exact Rep.genesis

/-- every reachable store is represented by a tree with room for one more block -/
theorem reachable_rep {g : ProtoBlock} {l : Linkage} (h : Reachable g l) :
    ∃ ns hs, Rep l.db ns hs ∧ ns.length + 1 < 2 ^ 32 := by
  obtain ⟨l0, ops, hf, hb, rfl⟩ := h
  obtain ⟨ga, sc, _, _, _, R⟩ := fresh_rep hf
  obtain ⟨ns, hs, R', _, hl⟩ := R.exec ops (by simp; omega)
  exact ⟨ns, hs, R', by simp at hl; omega⟩

end Verif.Chains
