import Verif.Chains.LeashSteps
/-
Where leashes and block records come from: every leash and every record after
some calls was there before or is due to one of the calls.
-/
set_option autoImplicit false

namespace Verif.Chains

open Verif KV Spec

variable {ns : List Node} {hs : List Nat}

/-- a leash after one call -/
theorem Rep.step_leash {l : Linkage} (R : Rep l.db ns hs) (hb : ns.length + 1 < 2 ^ 32) (o : Op) {a : Addr} {id : BlockID}
    (h : Chains.getLeash (Spec.step l o).1.db a = .ok id) :
    Chains.getLeash l.db a = .ok id ∨ ∃ a0, target o = some (a0, id) ∧ a0.plain = a.plain := by
  have ho := R.step_outcome hb o
  cases ht : target o with
  | none => rw [ht] at ho; rw [ho] at h; exact Or.inl h
  | some t =>
    obtain ⟨a0, id0⟩ := t
    rw [ht] at ho
    have moved : Moved l.db (Spec.step l o).1.db a0 id0 →
        Chains.getLeash l.db a = .ok id ∨ ∃ a1, some (a0, id0) = some (a1, id) ∧ a1.plain = a.plain := by
      intro hm
      rw [hm a] at h
      by_cases hp : a.plain = a0.plain
      · rw [if_pos hp] at h; cases h; exact Or.inr ⟨a0, rfl, hp.symm⟩
      · rw [if_neg hp] at h; exact Or.inl h
    rcases ho with ⟨_, hm, _⟩ | ⟨_, hm⟩ | ⟨_, _, hm, _⟩
    · exact moved hm
    · rw [hm a] at h; exact Or.inl h
    · exact moved hm

/-- a leash after some calls -/
theorem Rep.exec_leash {l : Linkage} (R : Rep l.db ns hs) (ops : List Op) (hb : ns.length + 1 + inserts ops < 2 ^ 32)
    {a : Addr} {id : BlockID} (h : Chains.getLeash (Spec.exec l ops).db a = .ok id) :
    Chains.getLeash l.db a = .ok id ∨ ∃ o, o ∈ ops ∧ ∃ a0, target o = some (a0, id) ∧ a0.plain = a.plain := by
  induction ops generalizing l ns hs with
  | nil => exact Or.inl h
  | cons o ops ih =>
    obtain ⟨ns', hs', R', _, hb'⟩ := R.step_next o ops hb
    rcases ih R' hb' h with h | ⟨o', ho', h⟩
    · rcases R.step_leash (by omega) o h with h | h
      · exact Or.inl h
      · exact Or.inr ⟨o, List.mem_cons_self, h⟩
    · exact Or.inr ⟨o', List.mem_cons_of_mem _ ho', h⟩

/-- a leash is never taken away -/
theorem Rep.exec_leashed {l : Linkage} (R : Rep l.db ns hs) (ops : List Op) (hb : ns.length + 1 + inserts ops < 2 ^ 32)
    {a : Addr} (h : ∃ id, Chains.getLeash l.db a = .ok id) : ∃ id, Chains.getLeash (Spec.exec l ops).db a = .ok id := by
  induction ops generalizing l ns hs with
  | nil => exact h
  | cons o ops ih =>
    obtain ⟨ns', hs', R', _, hb'⟩ := R.step_next o ops hb
    refine ih R' hb' ?_
    obtain ⟨id, h⟩ := h
    have ho := R.step_outcome (by omega) o
    cases ht : target o with
    | none => rw [ht] at ho; rw [ho]; exact ⟨id, h⟩
    | some t =>
      obtain ⟨a0, id0⟩ := t
      rw [ht] at ho
      have moved : Moved l.db (Spec.step l o).1.db a0 id0 → ∃ id, Chains.getLeash (Spec.step l o).1.db a = .ok id := by
        intro hm
        rw [hm a]
        split
        · exact ⟨id0, rfl⟩
        · exact ⟨id, h⟩
      rcases ho with ⟨_, hm, _⟩ | ⟨_, hm⟩ | ⟨_, _, hm, _⟩
      · exact moved hm
      · rw [hm a]; exact ⟨id, h⟩
      · exact moved hm

/-- the record `r` of the block `id` is due to the call -/
inductive Due (db : DB) (id : BlockID) (r : BlockRec) : Op → Prop where
  | block (b : ProtoBlock) (a : Addr) (f1 f2 : Fate) (hid : b.id = id) (hp : r.parent = b.parent.1) (ht : r.timestamp = b.timestamp)
      (hg : some r.generator = b.generator) : Due db id r (.putBlock b a f1 f2)
  | micro (inv : MicroInv) (a : Addr) (f1 f2 : Fate) (hid : inv.totalBlockID = id) (r0 : BlockRec)
      (h0 : Chains.getBlockByID db inv.reference = .ok r0) (hr : r = { r0 with id := inv.totalBlockID.1 }) : Due db id r (.putMicro inv a f1 f2)

theorem Rep.record_insert (f1 f2 : Fate) {db : DB} (R : Rep db ns hs) (hb : ns.length + 1 < 2 ^ 32) {x : Node} {id0 : BlockID}
    (N : NewOK ns x) (hid : x.br.id = id0.1) (a : Addr) {id : BlockID} {r : BlockRec}
    (h : Chains.getBlockByID (insertThenLeash f1 f2 db (insBatch ns hs id0 x) a id0).1 id = .ok r) :
    Chains.getBlockByID db id = .ok r ∨ id = id0 ∧ r = x.br := by
  have R1 := R.insert N id0 hid hb
  have R2 := R1.putLeash a id0
  have key : ∀ {db' : DB} {hs' : List Nat}, Rep db' (ns ++ [x]) hs' → Chains.getBlockByID db' id = .ok r →
      Chains.getBlockByID db id = .ok r ∨ id = id0 ∧ r = x.br := by
    intro db' hs' R' h
    rw [R'.getBlockByID, numOf_append N.fresh] at h
    by_cases he : id.1 = x.br.id
    · right
      rw [if_pos he] at h
      simp at h
      exact ⟨Subtype.ext (he.trans hid), h.symm⟩
    · left
      rw [if_neg he] at h
      rw [R.getBlockByID]
      cases hn : numOf ns id with
      | none => rw [hn] at h; cases h
      | some k =>
        obtain ⟨y, hy, _⟩ := numOf_some hn
        rw [hn] at h
        simp only [Option.bind_some] at h ⊢
        rw [at1_append_of_some hy] at h
        rw [hy]; exact h
  cases f1 with
  | ok =>
    cases f2 with
    | ok => exact key R2 h
    | fail => exact key R1 h
    | lostAck => exact key R2 h
  | fail => exact Or.inl h
  | lostAck => exact key R1 h

theorem Rep.record_leash (f : Fate) {db : DB} (R : Rep db ns hs) (a : Addr) (id0 : BlockID) {id : BlockID} {r : BlockRec}
    (h : Chains.getBlockByID (updateLeash f db a id0).1 id = .ok r) : Chains.getBlockByID db id = .ok r := by
  have key : Chains.getBlockByID (put db (addrKey a) (.raw id0.1)) id = .ok r → Chains.getBlockByID db id = .ok r := by
    intro h
    rw [Rep.getBlockByID (db := put db (addrKey a) (.raw id0.1)) (R.putLeash a id0)] at h
    rw [R.getBlockByID]; exact h
  cases f with
  | ok => exact key h
  | fail => exact h
  | lostAck => exact key h

/-- a record after one call -/
theorem Rep.step_record {l : Linkage} (R : Rep l.db ns hs) (hb : ns.length + 1 < 2 ^ 32) (o : Op) {id : BlockID} {r : BlockRec}
    (h : Chains.getBlockByID (Spec.step l o).1.db id = .ok r) : Chains.getBlockByID l.db id = .ok r ∨ Due l.db id r o := by
  cases o with
  | putBlock b a f1 f2 =>
    simp only [Spec.step] at h
    cases hn : numOf ns b.id with
    | some n => rw [R.PutBlock_known hn] at h; exact Or.inl (R.record_leash f1 a b.id h)
    | none =>
      cases hp : numOf ns b.parent with
      | none => rw [R.PutBlock_orphan hn hp] at h; exact Or.inl h
      | some p =>
        obtain ⟨y, hy, _⟩ := numOf_some hp
        rw [R.PutBlock_new hb hn hp hy] at h
        cases hg : b.generator with
        | none => rw [hg] at h; exact Or.inl h
        | some ga =>
          rw [hg] at h
          simp only at h
          cases hc : calculateScore b.baseTarget with
          | error e => rw [hc] at h; exact Or.inl h
          | ok sc =>
            rw [hc] at h
            rcases R.record_insert f1 f2 hb (R.newOK_block hb hn hp hy) rfl a h with h | ⟨rfl, rfl⟩
            · exact Or.inl h
            · exact Or.inr (.block b a f1 f2 rfl rfl rfl hg.symm)
  | putMicro b a f1 f2 =>
    simp only [Spec.step] at h
    cases hn : numOf ns b.totalBlockID with
    | some n => rw [R.PutMicro_known hn] at h; exact Or.inl (R.record_leash f1 a b.totalBlockID h)
    | none =>
      cases hp : numOf ns b.reference with
      | none => rw [R.PutMicro_orphan hn hp] at h; exact Or.inl h
      | some p =>
        obtain ⟨y, hy, _⟩ := numOf_some hp
        rw [R.PutMicro_new hn hp hy] at h
        by_cases h1 : p = 1
        · rw [if_pos h1] at h; exact Or.inl h
        · rw [if_neg h1] at h
          rcases R.record_insert f1 f2 hb (R.newOK_micro hn hy h1) rfl a h with h | ⟨rfl, rfl⟩
          · exact Or.inl h
          · exact Or.inr (.micro b a f1 f2 rfl y.br (R.getBlockByID_some hp hy) rfl)
  | moveLeash id0 a f => exact Or.inl (R.record_leash f a id0 h)
  | reopen g f =>
    left
    simpa only [Spec.step, NewLinkage, R.reopen f g] using h

/-- records are permanent -/
theorem Rep.record_kept {db db' : DB} {ns' : List Node} {hs' : List Nat} (R : Rep db ns hs) (R' : Rep db' ns' hs') (hp : ns <+: ns')
    {id : BlockID} {r : BlockRec} (h : Chains.getBlockByID db id = .ok r) : Chains.getBlockByID db' id = .ok r := by
  rw [R.getBlockByID] at h
  cases hn : numOf ns id with
  | none => rw [hn] at h; cases h
  | some k =>
    obtain ⟨y, hy, hye⟩ := numOf_some hn
    rw [hn] at h
    simp only [Option.bind_some, hy] at h
    obtain ⟨t, rfl⟩ := hp
    cases h
    exact R'.getBlockByID_some (R'.tree.numOf_eq (at1_append_of_some hy) hye) (at1_append_of_some hy)

/-- a record after some calls -/
theorem Rep.exec_record {l : Linkage} (R : Rep l.db ns hs) (ops : List Op) (hb : ns.length + 1 + inserts ops < 2 ^ 32)
    {id : BlockID} {r : BlockRec} (h : Chains.getBlockByID (Spec.exec l ops).db id = .ok r) :
    Chains.getBlockByID l.db id = .ok r ∨ ∃ o, o ∈ ops ∧ Due (Spec.exec l ops).db id r o := by
  induction ops generalizing l ns hs with
  | nil => exact Or.inl h
  | cons o ops ih =>
    obtain ⟨ns', hs', R', hp, hb'⟩ := R.step_next o ops hb
    rcases ih R' hb' h with h | ⟨o', ho', h⟩
    · rcases R.step_record (by omega) o h with h | h
      · exact Or.inl h
      · refine Or.inr ⟨o, List.mem_cons_self, ?_⟩
        obtain ⟨ns1, hs1, R1, hp1, _⟩ := R.exec (o :: ops) (by omega)
        cases h with
        | block b a f1 f2 hid h1 h2 h3 => exact .block b a f1 f2 hid h1 h2 h3
        | micro inv a f1 f2 hid r0 h0 hr => exact .micro inv a f1 f2 hid r0 (R.record_kept R1 hp1 h0) hr
    · exact Or.inr ⟨o', List.mem_cons_of_mem _ ho', h⟩

end Verif.Chains
