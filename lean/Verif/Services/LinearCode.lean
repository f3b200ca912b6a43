import Verif.Services.LinearLemmas
import Verif.Chains.History
import Verif.Peers.History
/-
The methods of `Linkage` that write, with their accesses to the database spelled out.
-/

set_option autoImplicit false

namespace Verif.Services

open Verif
open Verif.Chains (Linkage Addr BlockID ProtoBlock MicroInv hasBlock updateLeash protoBlockBatch microBlockBatch PutBlock PutMicroBlock MoveLeash)
open Verif.KV (Fate write)
open Verif.Chains (Batch)

variable {ρ : Type}

/-- a batch is written; the result is passed on -/
def writeCode (f : Fate) (b : Batch) (k : Go Unit → Code Linkage ρ) : Code Linkage ρ :=
  .act (fun l => { l with db := (write f l.db b).1 }) (fun l => k (write f l.db b).2)

/-- the result, after `Unlock` -/
def unlockRet (r : ρ) : Code Linkage ρ := .op .unlock (.ret r)

/-- `PutBlock`, chains/linkage.go:72-100, access by access: is the block there, is the parent there, what the batch is made from
(one access for all the reads of chains/storage.go:130-175), the write, and the write of the leash.  `out` makes the result. -/
def putBlockCode (f1 f2 : Fate) (b : ProtoBlock) (a : Addr) (out : Go Unit → ρ) : Code Linkage ρ :=
  .op .lock (.act id (fun l =>
    match hasBlock l.db b.id with
    | .error e => unlockRet (out (.error e))
    | .ok true => writeCode f1 (Chains.putLeash a b.id) (fun r => unlockRet (out r))
    | .ok false => .act id (fun l =>
      match hasBlock l.db b.parent with
      | .error e => unlockRet (out (.error e))
      | .ok false => unlockRet (out (fail .parentNotFound))
      | .ok true => .act id (fun l =>
        match protoBlockBatch l.db b with
        | .error e => unlockRet (out (.error e))
        | .ok batch => writeCode f1 batch (fun r =>
          match r with
          | .error e => unlockRet (out (.error e))
          | .ok () => writeCode f2 (Chains.putLeash a b.id) (fun r => unlockRet (out r)))))))

/-- `PutMicroBlock`, chains/linkage.go:102-130, access by access -/
def putMicroCode (f1 f2 : Fate) (inv : MicroInv) (a : Addr) (out : Go Unit → ρ) : Code Linkage ρ :=
  .op .lock (.act id (fun l =>
    match hasBlock l.db inv.totalBlockID with
    | .error e => unlockRet (out (.error e))
    | .ok true => writeCode f1 (Chains.putLeash a inv.totalBlockID) (fun r => unlockRet (out r))
    | .ok false => .act id (fun l =>
      match hasBlock l.db inv.reference with
      | .error e => unlockRet (out (.error e))
      | .ok false => unlockRet (out (fail .refNotFound))
      | .ok true => .act id (fun l =>
        match microBlockBatch l.db inv with
        | .error e => unlockRet (out (.error e))
        | .ok batch => writeCode f1 batch (fun r =>
          match r with
          | .error e => unlockRet (out (.error e))
          | .ok () => writeCode f2 (Chains.putLeash a inv.totalBlockID) (fun r => unlockRet (out r)))))))

/-- `MoveLeash`, chains/linkage.go:217-222 -/
def moveLeashCode (f : Fate) (id : BlockID) (a : Addr) (out : Go Unit → ρ) : Code Linkage ρ :=
  .op .lock (writeCode f (Chains.putLeash a id) (fun r => unlockRet (out r)))

/-- a query with one access -/
def queryCode (q : Linkage → ρ) : Code Linkage ρ := .op .rlock (.act id (fun l => .op .runlock (.ret (q l))))

theorem unlockRet_keeps (r : ρ) : Keeps true [.unlock] (unlockRet r) := .op _ _ _ (.ret r)

theorem writeCode_keeps (f : Fate) (b : Batch) (k : Go Unit → Code Linkage ρ) (h : ∀ r, Keeps true [.unlock] (k r)) :
    Keeps true [.unlock] (writeCode f b k) := .act _ _ _ _ (by simp) (fun _ => h _)

theorem putBlockCode_keeps (f1 f2 : Fate) (b : ProtoBlock) (a : Addr) (out : Go Unit → ρ) :
    CodeOf .putBlock (putBlockCode f1 f2 b a out) := by
  refine ⟨_, _, _, rfl, rfl, .act _ _ _ _ (by simp) (fun l => ?_)⟩
  split
  · exact unlockRet_keeps _
  · exact writeCode_keeps _ _ _ (fun _ => unlockRet_keeps _)
  · refine .act _ _ _ _ (by simp) (fun l => ?_)
    split
    · exact unlockRet_keeps _
    · exact unlockRet_keeps _
    · refine .act _ _ _ _ (by simp) (fun l => ?_)
      split
      · exact unlockRet_keeps _
      · refine writeCode_keeps _ _ _ (fun r => ?_)
        cases r with
        | error e => exact unlockRet_keeps _
        | ok u => exact writeCode_keeps _ _ _ (fun _ => unlockRet_keeps _)

theorem putMicroCode_keeps (f1 f2 : Fate) (inv : MicroInv) (a : Addr) (out : Go Unit → ρ) :
    CodeOf .putMicroBlock (putMicroCode f1 f2 inv a out) := by
  refine ⟨_, _, _, rfl, rfl, .act _ _ _ _ (by simp) (fun l => ?_)⟩
  split
  · exact unlockRet_keeps _
  · exact writeCode_keeps _ _ _ (fun _ => unlockRet_keeps _)
  · refine .act _ _ _ _ (by simp) (fun l => ?_)
    split
    · exact unlockRet_keeps _
    · exact unlockRet_keeps _
    · refine .act _ _ _ _ (by simp) (fun l => ?_)
      split
      · exact unlockRet_keeps _
      · refine writeCode_keeps _ _ _ (fun r => ?_)
        cases r with
        | error e => exact unlockRet_keeps _
        | ok u => exact writeCode_keeps _ _ _ (fun _ => unlockRet_keeps _)

theorem moveLeashCode_keeps (f : Fate) (id : BlockID) (a : Addr) (out : Go Unit → ρ) :
    CodeOf .moveLeash (moveLeashCode f id a out) :=
  ⟨_, _, _, rfl, rfl, writeCode_keeps _ _ _ (fun _ => unlockRet_keeps _)⟩

theorem queryCode_keeps (m : Method) (hm : m.ops = [.rlock, .runlock]) (q : Linkage → ρ) : CodeOf m (queryCode q) := by
  refine ⟨_, _, _, hm, rfl, .act _ _ _ _ (fun _ s => rfl) (fun s => .op _ _ _ (.ret _))⟩

theorem putBlockCode_run (f1 f2 : Fate) (b : ProtoBlock) (a : Addr) (out : Go Unit → ρ) (l : Linkage) :
    (putBlockCode f1 f2 b a out).run l =
      ((Chains.Spec.step l (.putBlock b a f1 f2)).1, out (Chains.Spec.step l (.putBlock b a f1 f2)).2) := by
  simp only [putBlockCode, Code.run, id, Chains.Spec.step, PutBlock]
  cases h1 : hasBlock l.db b.id with
  | error e => simp [unlockRet, Code.run]
  | ok t =>
    cases t with
    | true => simp [writeCode, unlockRet, Code.run, updateLeash]
    | false =>
      simp only [Code.run, id]
      cases h2 : hasBlock l.db b.parent with
      | error e => simp [unlockRet, Code.run]
      | ok t =>
        cases t with
        | false => simp [unlockRet, Code.run]
        | true =>
          simp only [Code.run, id, Chains.putProtoBlock]
          cases h3 : protoBlockBatch l.db b with
          | error e => simp [unlockRet, Code.run]
          | ok batch =>
            simp only [writeCode, Code.run]
            cases h4 : write f1 l.db batch with
            | mk db' r =>
              cases r with
              | error e => simp [unlockRet, Code.run]
              | ok u => simp [unlockRet, Code.run, updateLeash]

theorem putMicroCode_run (f1 f2 : Fate) (inv : MicroInv) (a : Addr) (out : Go Unit → ρ) (l : Linkage) :
    (putMicroCode f1 f2 inv a out).run l =
      ((Chains.Spec.step l (.putMicro inv a f1 f2)).1, out (Chains.Spec.step l (.putMicro inv a f1 f2)).2) := by
  simp only [putMicroCode, Code.run, id, Chains.Spec.step, PutMicroBlock]
  cases h1 : hasBlock l.db inv.totalBlockID with
  | error e => simp [unlockRet, Code.run]
  | ok t =>
    cases t with
    | true => simp [writeCode, unlockRet, Code.run, updateLeash]
    | false =>
      simp only [Code.run, id]
      cases h2 : hasBlock l.db inv.reference with
      | error e => simp [unlockRet, Code.run]
      | ok t =>
        cases t with
        | false => simp [unlockRet, Code.run]
        | true =>
          simp only [Code.run, id, Chains.putMicroBlock]
          cases h3 : microBlockBatch l.db inv with
          | error e => simp [unlockRet, Code.run]
          | ok batch =>
            simp only [writeCode, Code.run]
            cases h4 : write f1 l.db batch with
            | mk db' r =>
              cases r with
              | error e => simp [unlockRet, Code.run]
              | ok u => simp [unlockRet, Code.run, updateLeash]

theorem moveLeashCode_run (f : Fate) (id : BlockID) (a : Addr) (out : Go Unit → ρ) (l : Linkage) :
    (moveLeashCode f id a out).run l = ((Chains.Spec.step l (.moveLeash id a f)).1, out (Chains.Spec.step l (.moveLeash id a f)).2) := by
  simp [moveLeashCode, writeCode, unlockRet, Code.run, Chains.Spec.step, MoveLeash, updateLeash]

/-- what follows the calls follows the model -/
theorem serial_exec {l0 l : Linkage} {log : List (Returned Linkage ρ)} (h : Serial l0 log l)
    (hd : ∀ x, x ∈ log → (∃ op, (∀ g f, op ≠ .reopen g f) ∧ ∀ l, (x.code.run l).1 = (Chains.Spec.step l op).1) ∨ ∀ l, (x.code.run l).1 = l) :
    ∃ ops : List Chains.Spec.Op, ops.length ≤ log.length ∧ (∀ g f, Chains.Spec.Op.reopen g f ∉ ops) ∧ l = Chains.Spec.exec l0 ops := by
  induction h with
  | nil => exact ⟨[], by simp, by simp, rfl⟩
  | snoc log a a' x h hx ih =>
    obtain ⟨ops, hn, hr, rfl⟩ := ih (fun y hy => hd y (by simp [hy]))
    rcases hd x (by simp) with ⟨op, hop, hs⟩ | hs
    · refine ⟨ops ++ [op], by simp; omega, fun g f hm => ?_, ?_⟩
      · rcases List.mem_append.mp hm with hm | hm
        · exact hr g f hm
        · exact hop g f (List.mem_singleton.mp hm).symm
      · rw [Chains.exec_append]
        have := hs (Chains.Spec.exec l0 ops)
        rw [hx] at this
        exact this
    · refine ⟨ops, by simp; omega, hr, ?_⟩
      have := hs (Chains.Spec.exec l0 ops)
      rw [hx] at this
      exact this

theorem inserts_le (ops : List Chains.Spec.Op) : Chains.Spec.inserts ops ≤ ops.length := List.length_filter_le _ _

theorem serial_registry {lib : Peers.Lib} {r0 r : Peers.Registry} {log : List (Returned Peers.Registry ρ)} (h : Serial r0 log r)
    (hd : ∀ x, x ∈ log → (∃ e, ∀ r, (x.code.run r).1 = Peers.step lib r e) ∨ ∀ r, (x.code.run r).1 = r) :
    ∃ es, r = Peers.exec lib r0 es := by
  induction h with
  | nil => exact ⟨[], rfl⟩
  | snoc log a a' x h hx ih =>
    obtain ⟨es, rfl⟩ := ih (fun y hy => hd y (by simp [hy]))
    rcases hd x (by simp) with ⟨e, hs⟩ | hs
    · refine ⟨es ++ [e], ?_⟩
      have := hs (Peers.exec lib r0 es)
      rw [hx] at this
      simp only [Peers.exec, List.foldl_append, List.foldl_cons, List.foldl_nil] at this ⊢
      exact this
    · refine ⟨es, ?_⟩
      have := hs (Peers.exec lib r0 es)
      rw [hx] at this
      exact this

end Verif.Services
