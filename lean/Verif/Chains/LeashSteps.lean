import Verif.Chains.Frame
/-
What one call does to the leashes.
-/
set_option autoImplicit false

namespace Verif.Chains

open Verif KV Spec

variable {db : DB} {ns : List Node} {hs : List Nat}

/-- exactly the leash of `a0` moved, to `id` -/
def Moved (db db' : DB) (a0 : Addr) (id : BlockID) : Prop :=
  ∀ a, getLeash db' a = if a.plain = a0.plain then .ok id else getLeash db a

/-- no leash moved -/
def Still (db db' : DB) : Prop := ∀ a, getLeash db' a = getLeash db a

/-- outcome of one call: (result ok, moved), (not ok, nothing), (not ok, but a lost acknowledgement) -/
def LeashOutcome (db db' : DB) (a0 : Addr) (id : BlockID) (res : Go Unit) (lost : Bool) (St : Prop) : Prop :=
  (res = .ok () ∧ Moved db db' a0 id ∧ St) ∨ (res ≠ .ok () ∧ Still db db') ∨
    (res ≠ .ok () ∧ lost = true ∧ Moved db db' a0 id ∧ St)

theorem LeashOutcome.mono {db db' : DB} {a0 : Addr} {id : BlockID} {res : Go Unit} {lost : Bool} {St St' : Prop}
    (h : LeashOutcome db db' a0 id res lost St) (hs : St → St') : LeashOutcome db db' a0 id res lost St' := by
  rcases h with ⟨a, b, c⟩ | h | ⟨a, b, c, d⟩
  · exact Or.inl ⟨a, b, hs c⟩
  · exact Or.inr (Or.inl h)
  · exact Or.inr (Or.inr ⟨a, b, c, hs d⟩)

/-- `MoveLeash` calls -/
def isMove : Op → Bool
  | .moveLeash .. => true
  | _ => false

theorem moved_put (db : DB) (a : Addr) (id : BlockID) : Moved db (put db (addrKey a) (.raw id.1)) a id :=
  fun _ => getLeash_put _ _ _ _

theorem updateLeash_outcome (f : Fate) (a : Addr) (id : BlockID) (lost : Bool) (hl : f = .lostAck → lost = true)
    (St : Prop) (hst : f ≠ .fail → St) :
    LeashOutcome db (updateLeash f db a id).1 a id (updateLeash f db a id).2 lost St := by
  cases f with
  | ok => exact Or.inl ⟨rfl, moved_put db a id, hst (by simp)⟩
  | fail => exact Or.inr (Or.inl ⟨by simp [updateLeash, write, fail], fun _ => rfl⟩)
  | lostAck => exact Or.inr (Or.inr ⟨by simp [updateLeash, write, fail], hl rfl, moved_put db a id, hst (by simp)⟩)

theorem moved_insBatch (db : DB) (a : Addr) (id : BlockID) (x : Node) :
    Moved db (put (applyBatch db (insBatch ns hs id x)) (addrKey a) (.raw id.1)) a id := by
  intro a'
  rw [getLeash_put, getLeash_insBatch]

theorem Rep.insertThenLeash_outcome (R : Rep db ns hs) (hb : ns.length + 1 < 2 ^ 32) (f1 f2 : Fate) {x : Node} {id : BlockID}
    (N : NewOK ns x) (hid : x.br.id = id.1) (a : Addr) :
    LeashOutcome db (insertThenLeash f1 f2 db (insBatch ns hs id x) a id).1 a id
      (insertThenLeash f1 f2 db (insBatch ns hs id x) a id).2 (f1 == .lostAck || f2 == .lostAck)
      (Stored (insertThenLeash f1 f2 db (insBatch ns hs id x) a id).1 id) := by
  have R1 := R.insert N id hid hb
  have R2 := R1.putLeash a id
  have hnum : numOf (ns ++ [x]) id = some (ns.length + 1) := by
    rw [numOf_append N.fresh]; simp [hid]
  have st : Stored (put (applyBatch db (insBatch ns hs id x)) (addrKey a) (.raw id.1)) id :=
    Rep.stored_iff (db := put (applyBatch db (insBatch ns hs id x)) (addrKey a) (.raw id.1)) R2 |>.mpr ⟨_, hnum⟩
  have mv := moved_insBatch (ns := ns) (hs := hs) db a id x
  have sl : Still db (applyBatch db (insBatch ns hs id x)) := fun a' => getLeash_insBatch _ _ _ _
  cases f1 with
  | ok =>
    cases f2 with
    | ok => exact Or.inl ⟨rfl, mv, st⟩
    | fail => exact Or.inr (Or.inl ⟨by simp [insertThenLeash, updateLeash, write, fail], sl⟩)
    | lostAck => exact Or.inr (Or.inr ⟨by simp [insertThenLeash, updateLeash, write, fail], rfl, mv, st⟩)
  | fail => exact Or.inr (Or.inl ⟨by simp [insertThenLeash, write, fail], fun _ => rfl⟩)
  | lostAck => exact Or.inr (Or.inl ⟨by simp [insertThenLeash, write, fail], sl⟩)

theorem still_outcome {a : Addr} {id : BlockID} {e : Fault} {lost : Bool} {St : Prop} :
    LeashOutcome db db a id (.error e) lost St := Or.inr (Or.inl ⟨by simp, fun _ => rfl⟩)

/-- `PutBlock` and leashes -/
theorem Rep.PutBlock_outcome (R : Rep db ns hs) (hb : ns.length + 1 < 2 ^ 32) (b : ProtoBlock) (a : Addr) (f1 f2 : Fate) :
    LeashOutcome db (PutBlock f1 f2 db b a).1 a b.id (PutBlock f1 f2 db b a).2 (f1 == .lostAck || f2 == .lostAck)
      (Stored (PutBlock f1 f2 db b a).1 b.id) := by
  cases h : numOf ns b.id with
  | some n =>
    rw [R.PutBlock_known h]
    refine updateLeash_outcome f1 a b.id _ (by rintro rfl; rfl) _ (fun hf => ?_)
    have st := Rep.stored_iff (db := put db (addrKey a) (.raw b.id.1)) (R.putLeash a b.id) |>.mpr ⟨n, h⟩
    cases f1 with
    | ok => exact st
    | fail => exact absurd rfl hf
    | lostAck => exact st
  | none =>
    cases hp : numOf ns b.parent with
    | none => rw [R.PutBlock_orphan h hp]; exact still_outcome
    | some p =>
      obtain ⟨y, hy, _⟩ := numOf_some hp
      rw [R.PutBlock_new hb h hp hy]
      cases b.generator with
      | none => exact still_outcome
      | some ga =>
        cases calculateScore b.baseTarget with
        | error e => exact still_outcome
        | ok sc => exact R.insertThenLeash_outcome hb f1 f2 (R.newOK_block hb h hp hy) rfl a

theorem Rep.PutMicro_outcome (R : Rep db ns hs) (hb : ns.length + 1 < 2 ^ 32) (b : MicroInv) (a : Addr) (f1 f2 : Fate) :
    LeashOutcome db (PutMicroBlock f1 f2 db b a).1 a b.totalBlockID (PutMicroBlock f1 f2 db b a).2
      (f1 == .lostAck || f2 == .lostAck) (Stored (PutMicroBlock f1 f2 db b a).1 b.totalBlockID) := by
  cases h : numOf ns b.totalBlockID with
  | some n =>
    rw [R.PutMicro_known h]
    refine updateLeash_outcome f1 a b.totalBlockID _ (by rintro rfl; rfl) _ (fun hf => ?_)
    have st := Rep.stored_iff (db := put db (addrKey a) (.raw b.totalBlockID.1)) (R.putLeash a b.totalBlockID) |>.mpr ⟨n, h⟩
    cases f1 with
    | ok => exact st
    | fail => exact absurd rfl hf
    | lostAck => exact st
  | none =>
    cases hp : numOf ns b.reference with
    | none => rw [R.PutMicro_orphan h hp]; exact still_outcome
    | some r =>
      obtain ⟨y, hy, _⟩ := numOf_some hp
      rw [R.PutMicro_new h hp hy]
      by_cases h1 : r = 1
      · simp only [h1, if_true]; exact still_outcome
      · simp only [h1, if_false]
        exact R.insertThenLeash_outcome hb f1 f2 (R.newOK_micro h hy h1) rfl a

/-- any call and the leashes -/
theorem Rep.step_outcome {l : Linkage} (R : Rep l.db ns hs) (hb : ns.length + 1 < 2 ^ 32) (o : Op) :
    match target o with
    | none => (Spec.step l o).1.db = l.db
    | some (a0, id) => LeashOutcome l.db (Spec.step l o).1.db a0 id (Spec.step l o).2 (lossy o)
        (isMove o = false → Stored (Spec.step l o).1.db id) := by
  cases o with
  | putBlock b a f1 f2 => exact (R.PutBlock_outcome hb b a f1 f2).mono (fun h _ => h)
  | putMicro b a f1 f2 => exact (R.PutMicro_outcome hb b a f1 f2).mono (fun h _ => h)
  | moveLeash id a f =>
    exact updateLeash_outcome f a id _ (by rintro rfl; rfl) _ (fun _ h => by simp [isMove] at h)
  | reopen g f => simp only [target, Spec.step, NewLinkage, R.reopen f g]

theorem step_genesis_of_target {l : Linkage} {o : Op} (h : target o ≠ none) : (Spec.step l o).1.genesis = l.genesis := by
  cases o <;> first | rfl | exact absurd rfl h

/-- the outcome of a call, with room for the induction along histories -/
theorem Rep.step_next {l : Linkage} (R : Rep l.db ns hs) (o : Op) (ops : List Op)
    (hb : ns.length + 1 + inserts (o :: ops) < 2 ^ 32) :
    ∃ ns' hs', Rep (Spec.step l o).1.db ns' hs' ∧ ns <+: ns' ∧ ns'.length + 1 + inserts ops < 2 ^ 32 := by
  rw [inserts_cons] at hb
  obtain ⟨ns', hs', R', hp, hl⟩ := R.step o (by omega)
  exact ⟨ns', hs', R', hp, by omega⟩

/-- a store just created has no leash -/
theorem fresh_no_leash {g : ProtoBlock} {l : Linkage} (h : Fresh g l) (a : Addr) : getLeash l.db a = fail .notFound := by
  obtain ⟨ga, sc, hga, hsc, hgen, R⟩ := fresh_rep h
  rcases R.getLeash_cases a with ⟨id, hid⟩ | hid
  · exfalso
    have := (R.getLeash_ok a id).mp hid
    have hdb : l.db = applyBatch [] (putBlock 1 (genesisNode g ga sc).br ++ putCounter blocksCounter 1 ++ putID blockPrefix g.id 1
        ++ putLink 1 { height := 1, blockID := g.id.1, parents := [] }
        ++ putCounter headsCounter 1 ++ putNum headToBlockPrefix 1 1 ++ putNum blockToHeadPrefix 1 1) := by
      unfold Fresh NewLinkage initStorage at h
      have h0 : getCounter [] blocksCounter = .ok 0 := by simp [getCounter, KV.get]
      rw [h0] at h
      simp only [if_true] at h
      rw [genesisBatch_eq hga hsc] at h
      simp only [write] at h
      exact (congrArg Prod.fst h).symm
    rw [hdb] at this
    simp [applyBatch, applyOp, putCounter, putID, putBlock, putLink, putNum, get_put, KV.get] at this
  · exact hid

end Verif.Chains
