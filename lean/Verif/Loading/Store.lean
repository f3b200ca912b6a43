import Verif.Loading.Lemmas
import Verif.Props.Leashes
import Verif.Props.Heads
import Verif.Props.Blocks
/-
The calls of the loader on the store.
-/

set_option autoImplicit false

namespace Verif.Loading

open Verif
open Verif.Chains (Addr BlockID ProtoBlock MicroInv Linkage Env PutBlock MoveLeash HasBlock LeashOf LeashScore LastIDs LCB getLeash
  getBlockByID Rep)
open Verif.Chains.Spec (Stored SameTree Fresh Disciplined inserts)
open Verif.KV (Fate)

variable {g : ProtoBlock} {n : Nat} {lk : Linkage}

/-! ### stores that are served from -/

theorem disciplined_append (l0 : Linkage) (ops : List Chains.Spec.Op) (o : Chains.Spec.Op) :
    Disciplined l0 (ops ++ [o]) ↔ Disciplined l0 ops ∧
      (match o with | .moveLeash id _ _ => Stored (Chains.Spec.exec l0 ops).db id | _ => True) := by
  induction ops generalizing l0 with
  | nil => cases o <;> simp [Disciplined, Chains.Spec.exec]
  | cons p ops ih =>
    simp only [List.cons_append, Disciplined, ih]
    constructor
    · rintro ⟨a, b, c⟩; exact ⟨⟨a, b⟩, c⟩
    · rintro ⟨⟨a, b⟩, c⟩; exact ⟨a, b, c⟩

theorem Serving.mono {m : Nat} (S : Serving g m lk) (h : n ≤ m) : Serving g n lk := by
  obtain ⟨l0, ops, a, b, c, d, e⟩ := S
  exact ⟨l0, ops, a, b, c, by omega, e⟩

theorem Serving.reachable (S : Serving g n lk) : Chains.Spec.Reachable g lk := by
  obtain ⟨l0, ops, a, _, _, d, e⟩ := S
  exact ⟨l0, ops, a, by omega, e⟩

/-- one more call -/
theorem Serving.step (S : Serving g n lk) (o : Chains.Spec.Op) (m : Nat) (hm : m + inserts [o] ≤ n)
    (hr : ∀ g' f, o = .reopen g' f → g'.id = g.id)
    (hd : ∀ id a f, o = .moveLeash id a f → Stored lk.db id) : Serving g m (Chains.Spec.step lk o).1 := by
  obtain ⟨l0, ops, a, b, c, d, rfl⟩ := S
  refine ⟨l0, ops ++ [o], a, ?_, ?_, ?_, ?_⟩
  · rw [disciplined_append]
    refine ⟨b, ?_⟩
    cases o with
    | moveLeash id a f => exact hd id a f rfl
    | _ => trivial
  · intro g' f hmem
    rcases List.mem_append.mp hmem with h | h
    · exact c g' f h
    · exact hr g' f (List.mem_singleton.mp h).symm
  · rw [Chains.inserts_append]; omega
  · rw [Chains.exec_append]; rfl

theorem Serving.move (S : Serving g n lk) (id : BlockID) (a : Addr) (f : Fate) (h : Stored lk.db id) :
    Serving g n { lk with db := (MoveLeash f lk.db id a).1 } :=
  S.step (.moveLeash id a f) n (by simp [inserts]) (fun _ _ h => by simp at h) (fun id' a' f' h' => by cases h'; exact h)

theorem Serving.put (S : Serving g (n + 1) lk) (b : ProtoBlock) (a : Addr) (f1 f2 : Fate) :
    Serving g n { lk with db := (PutBlock f1 f2 lk.db b a).1 } :=
  S.step (.putBlock b a f1 f2) n (by simp [inserts]) (fun _ _ h => by simp at h) (fun _ _ _ h => by simp at h)

theorem Serving.micro (S : Serving g (n + 1) lk) (b : MicroInv) (a : Addr) (f1 f2 : Fate) :
    Serving g n { lk with db := (Chains.PutMicroBlock f1 f2 lk.db b a).1 } :=
  S.step (.putMicro b a f1 f2) n (by simp [inserts]) (fun _ _ h => by simp at h) (fun _ _ _ h => by simp at h)

theorem exec_genesis (g : ProtoBlock) (l0 : Linkage) (h0 : l0.genesis = g.id) (ops : List Chains.Spec.Op)
    (hr : ∀ g' f, Chains.Spec.Op.reopen g' f ∈ ops → g'.id = g.id) : (Chains.Spec.exec l0 ops).genesis = g.id := by
  induction ops generalizing l0 with
  | nil => exact h0
  | cons o ops ih =>
    refine ih (Chains.Spec.step l0 o).1 ?_ (fun g' f h => hr g' f (List.mem_cons_of_mem _ h))
    cases o with
    | putBlock b a f1 f2 => exact h0
    | putMicro b a f1 f2 => exact h0
    | moveLeash id a f => exact h0
    | reopen g' f =>
      have := hr g' f List.mem_cons_self
      simp only [Chains.Spec.step, Chains.NewLinkage]
      rcases Chains.initStorage f l0.db g' with ⟨d, (e | u)⟩
      · exact h0
      · exact this

theorem Serving.genesis_eq (S : Serving g n lk) : lk.genesis = g.id := by
  obtain ⟨l0, ops, hf, _, hr, _, rfl⟩ := S
  obtain ⟨_, _, _, _, hg, _⟩ := Chains.fresh_rep hf
  exact exec_genesis g l0 hg ops hr

theorem Serving.genesis_stored (S : Serving g n lk) : Stored lk.db g.id := by
  obtain ⟨l0, ops, hf, _, hr, hb, rfl⟩ := S
  have h0 : Stored (Chains.Spec.exec l0 []).db g.id := by
    obtain ⟨ga, sc, _, _, _, R⟩ := Chains.fresh_rep hf
    exact R.stored_iff.mpr ⟨1, by simp [Chains.numOf, Chains.genesisNode]⟩
  have := Props.C01_blocks_permanent hf [] ops (by simpa using by omega) g.id h0
  exact this.1

theorem Serving.leash (S : Serving g n lk) (a : Addr) : ∃ id, LeashOf lk a = .ok id ∧ Stored lk.db id := by
  obtain ⟨ns, hs, R, _⟩ := Chains.reachable_rep S.reachable
  rcases R.getLeash_cases a with ⟨id, h⟩ | h
  · refine ⟨id, by simp [LeashOf, h], ?_⟩
    obtain ⟨l0, ops, hf, hd, hr, hb, rfl⟩ := S
    exact (Props.C09_no_dangling hf ops (by omega) hd a id h).1
  · refine ⟨g.id, by simp [LeashOf, h, fail, S.genesis_eq], S.genesis_stored⟩

theorem Serving.record (S : Serving g n lk) (id : BlockID) (h : Stored lk.db id) : ∃ r, getBlockByID lk.db id = .ok r := by
  obtain ⟨ns, hs, R, _⟩ := Chains.reachable_rep S.reachable
  obtain ⟨k, hk⟩ := R.stored_iff.mp h
  obtain ⟨x, hx, _⟩ := Chains.numOf_some hk
  exact ⟨x.br, R.getBlockByID_some hk hx⟩

/-- the leash score is the score of the block the leash is on -/
theorem leashScore_of (S : Serving g n lk) (a : Addr) (id : BlockID) (h : LeashOf lk a = .ok id) :
    ∃ s, LeashScore lk a = .ok s ∧ Chains.Spec.ScoreOf lk.db id s := by
  obtain ⟨id', h1, h2⟩ := S.leash a
  rw [h] at h1; cases h1
  obtain ⟨r, hr⟩ := S.record id h2
  refine ⟨r.score, ?_, r, hr, rfl⟩
  unfold LeashScore
  unfold LeashOf at h
  cases hl : getLeash lk.db a with
  | ok i => rw [hl] at h; cases h; simp [hr]
  | error e =>
    rw [hl] at h
    cases e with
    | panic => simp at h
    | err e =>
      cases e with
      | notFound => simp only [Except.ok.injEq] at h; subst h; simp [hr]
      | _ => simp at h

theorem Serving.leashScore (S : Serving g n lk) (a : Addr) : ∃ s, LeashScore lk a = .ok s := by
  obtain ⟨id, h, _⟩ := S.leash a
  obtain ⟨s, h, _⟩ := leashScore_of S a id h
  exact ⟨s, h⟩

theorem Serving.has (S : Serving g n lk) (id : BlockID) : Stored lk.db id ∨ HasBlock lk.db id = .ok false := by
  obtain ⟨ns, hs, R, _⟩ := Chains.reachable_rep S.reachable
  unfold Stored HasBlock
  rw [R.hasBlock]
  cases (Chains.numOf ns id) <;> simp

theorem getBlockByID_no_panic (db : Chains.DB) (id : BlockID) : getBlockByID db id ≠ goPanic := by
  intro h
  have h1 : Chains.getNumOfBlockID db id ≠ goPanic := by
    unfold Chains.getNumOfBlockID
    split
    · simp [fail, goPanic]
    · split
      · rw [be64Dec, if_neg (by omega)]; simp [goPanic]
      · simp [fail, goPanic]
    · simp [fail, goPanic]
  have h2 : ∀ k, Chains.getBlock db k ≠ goPanic := by
    intro k
    unfold Chains.getBlock
    split <;> simp [fail, goPanic]
  unfold getBlockByID at h
  cases hn : Chains.getNumOfBlockID db id with
  | error e =>
    rw [hn] at h h1
    cases e with
    | panic => exact h1 rfl
    | err e => cases h
  | ok k =>
    rw [hn] at h
    exact h2 k h

theorem score_no_panic (db : Chains.DB) (id : BlockID) :
    (do let bl ← getBlockByID db id; pure bl.score : Go Nat) ≠ goPanic := by
  intro h
  cases hb : getBlockByID db id with
  | error e =>
    rw [hb] at h
    cases e with
    | panic => exact getBlockByID_no_panic _ _ hb
    | err e => cases h
  | ok r => rw [hb] at h; cases h

/-- `LeashScore` never panics, whatever the database contains -/
theorem leashScore_no_panic (lk : Linkage) (a : Addr) : LeashScore lk a ≠ goPanic :=
  score_no_panic lk.db _

end Verif.Loading
