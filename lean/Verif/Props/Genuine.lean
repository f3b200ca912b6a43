import Verif.Services.Genuine
import Verif.Services.OriginEx
import Verif.Props.Lca
import Verif.Props.Heads
import Verif.Props.Lives
/-
Property C95: what is reported about a block when everybody tells the truth, and
what one liar can do to the others.
-/

set_option autoImplicit false

namespace Verif.Props

open Verif
open Verif.Chains (Addr BlockID ProtoBlock MicroInv Linkage LeashOf LeashScore BlockOf LastIDs BlockRec getBlockByID lca NewLinkage)
open Verif.Chains.Spec (Op Fresh Stored inserts Truth Truthful Genuine Told Holds Below chainDown Anc IsLCA HeightOf)
open Verif.Peers (Lib)
open Verif.Services

variable {lib : Lib} {g : ProtoBlock} {T : Truth} {l l' : Linkage}

/-! ### what the store holds -/

/-- If every block and every micro-block announcement given to the store tells the truth, everything recorded in the store is
true: of each stored block the height and the score counted along the true chain, the time, the generator and the parent.
Peers, order, repetitions, refusals, failed and lost writes, reopenings do not matter. -/
theorem C95_store (h : Told T g l) : Holds T g l := Chains.told_holds h

/-- The same of the program: if the store was so at the start and every message tells the truth, whoever sends it, then
everything recorded is true at every moment. -/
theorem C95_program {lk : Linkage} {n : Nat} {es : List Ev} {s : Prog} (R : Services.Run lib g lk n es s) (h0 : Told T g lk)
    (ht : Sincere T es) : Holds T g s.l.link := R.holds h0 ht

/-- The same of any number of runs that end at any moment, including in the middle of a call. -/
theorem C95_lives {l0 lk : Linkage} (hf : Fresh g l0) {cs : List (List Op)} {d : Disk} (h : Lives lib g ⟨[], []⟩ cs d)
    (hn : inserts cs.flatten + 2 < 2 ^ 32) (ht : ∀ c, c ∈ cs → ∀ o, o ∈ c → Truthful T o) (ho : Opens g d lk) : Told T g lk := by
  obtain ⟨lk1, os, ho1, _, hE, hex, _, _⟩ := C94_reopens hf h (n := 0) (by omega)
  have e : lk = lk1 := by
    have h1 : NewLinkage .ok d.store g = (lk.db, .ok lk) := ho
    rw [show NewLinkage .ok d.store g = _ from ho1] at h1
    have h2 := congrArg Prod.snd h1
    simp only [Except.ok.injEq] at h2
    exact h2.symm
  subst e
  have hi : inserts os.flatten = inserts cs.flatten := by
    clear hex ht hn h ho1 ho
    induction hE with
    | nil => rfl
    | snoc _ t ih =>
      simp only [List.flatten_append, Chains.inserts_append, ih, List.flatten_cons, List.flatten_nil, List.append_nil]
      congr 1
      cases t with
      | whole => rfl
      | last pre o o' hp hc =>
        rw [hp, Chains.inserts_append, Chains.inserts_append]
        congr 1
        cases hc <;> rfl
  have hT : ∀ o, o ∈ os.flatten → Truthful T o := by
    clear hex hi hn h ho1 ho
    induction hE with
    | nil => intro o ho; cases ho
    | @snoc cs os c os1 _ t ih =>
      intro o ho
      rw [List.flatten_append, List.mem_append] at ho
      rcases ho with ho | ho
      · exact ih (fun c hc => ht c (List.mem_append_left _ hc)) o ho
      · have hc := ht c (List.mem_append_right _ List.mem_cons_self)
        simp only [List.flatten_cons, List.flatten_nil, List.append_nil] at ho
        cases t with
        | whole => exact hc o ho
        | last pre x x' hp hcut =>
          rcases List.mem_append.mp ho with ho | ho
          · exact hc o (by rw [hp]; exact List.mem_append_left _ ho)
          · have e := List.mem_singleton.mp ho
            subst e
            have hx := hc x (by rw [hp]; simp)
            cases hcut <;> exact hx
  exact ⟨l0, os.flatten, hf, by omega, hT, hex⟩

/-! ### what is reported -/

/-- In such a store the ancestors of a stored block are the blocks below it on the true chain. -/
theorem C95_ancestors (h : Holds T g l) {a b : BlockID} (hs : Stored l.db b) : Anc l.db a b ↔ Below T g a b := Chains.holds_anc h hs

/-- The ids sent to a peer in a request for what follows are the true chain down from the block. -/
theorem C95_last (h : Holds T g l) {id : BlockID} (hs : Stored l.db id) (count : Nat) :
    LastIDs l.db id count = .ok (chainDown T g count id) := by
  obtain ⟨r, hr⟩ := Chains.record_of_stored h.reachable hs
  have hh : HeightOf l.db id r.height.toNat := ⟨r, hr, rfl⟩
  obtain ⟨ids, h1, h2, h3, h4⟩ := C12_lastIDs h.reachable id hs count _ hh
  rw [h1, Chains.holds_walk h ids count id _ hh h2 h3 h4]

/-- Two such stores, of one program at two times or of two programs with different peers, agree on every block that both
have: its record, how it is shown, the chain down from it, and the last common block with any other such block. -/
theorem C95_agree (h : Holds T g l) (h' : Holds T g l') {id : BlockID} (hs : Stored l.db id) (hs' : Stored l'.db id) :
    getBlockByID l'.db id = getBlockByID l.db id ∧ BlockOf l'.db id = BlockOf l.db id ∧
    (∀ count : Nat, LastIDs l'.db id count = LastIDs l.db id count) ∧
    (∀ b, Stored l.db b → Stored l'.db b → (∀ c, IsLCA l'.db id b c ↔ IsLCA l.db id b c) ∧ lca l'.db id b = lca l.db id b) := by
  have same : ∀ {b}, Stored l.db b → Stored l'.db b → getBlockByID l'.db b = getBlockByID l.db b := by
    intro b hb hb'
    obtain ⟨r, hr⟩ := Chains.record_of_stored h.reachable hb
    obtain ⟨r', hr'⟩ := Chains.record_of_stored h'.reachable hb'
    rw [hr, hr', (h.record _ _ hr).unique (h'.record _ _ hr')]
  refine ⟨same hs hs', ?_, ?_, ?_⟩
  · unfold BlockOf; rw [same hs hs']
  · intro count; rw [C95_last h hs, C95_last h' hs']
  · intro b hb hb'
    have isl : ∀ c, IsLCA l'.db id b c ↔ IsLCA l.db id b c := by
      intro c
      rw [Chains.holds_isLCA h hs hb, Chains.holds_isLCA h' hs' hb']
    refine ⟨isl, ?_⟩
    obtain ⟨ra, hra⟩ := Chains.record_of_stored h.reachable hs
    obtain ⟨rb, hrb⟩ := Chains.record_of_stored h.reachable hb
    have hra' := (same hs hs').trans hra
    have hrb' := (same hb hb').trans hrb
    obtain ⟨c, hc, i1, ⟨rc, hrc, h1⟩, _, _, p1, q1⟩ := C13_lca_exact h.reachable id b hs hb _ _ ⟨ra, hra, rfl⟩ ⟨rb, hrb, rfl⟩
    obtain ⟨c', hc', i2, ⟨rc', hrc', h2⟩, _, _, p2, q2⟩ := C13_lca_exact h'.reachable id b hs' hb' _ _ ⟨ra, hra', rfl⟩ ⟨rb, hrb', rfl⟩
    have e : c = c' := C13_unique h.reachable hs i1 ((isl c').mp i2)
    subst e
    rw [(h.record _ _ hrc).unique (h'.record _ _ hrc')] at h1
    have e : hc = hc' := h1.symm.trans h2
    subst e
    by_cases hp : Chains.LcaPanics hc (min ra.height.toNat rb.height.toNat - hc - 1)
    · rw [p1 hp, p2 hp]
    · rw [q1 hp, q2 hp]

/-- What is reported about a peer does not depend on what the other peers do: where the peer is seen at one block in both, the
score, the block and the chain are the same. -/
theorem C95_isolated_partial (h : Holds T g l) (h' : Holds T g l') (a : Addr) {id : BlockID} (ha : LeashOf l a = .ok id) (ha' : LeashOf l' a = .ok id)
    (hs : Stored l.db id) (hs' : Stored l'.db id) :
    LeashScore l' a = LeashScore l a ∧ BlockOf l'.db id = BlockOf l.db id ∧
    ∀ count : Nat, LastIDs l'.db id count = LastIDs l.db id count := by
  obtain ⟨e, e1, e2, _⟩ := C95_agree h h' hs hs'
  refine ⟨?_, e1, e2⟩
  have key : ∀ {m : Linkage}, LeashOf m a = .ok id → LeashScore m a = (getBlockByID m.db id >>= fun b => pure b.score) := by
    intro m hm
    unfold LeashOf at hm
    unfold LeashScore
    cases hg : Chains.getLeash m.db a with
    | ok x => rw [hg] at hm; cases hm; rfl
    | error er =>
      rw [hg] at hm
      cases er with
      | panic => cases hm
      | err er =>
        cases er <;> first | (cases hm; rfl) | cases hm
  rw [key ha, key ha', e]

/-! ### a liar -/

/-- what the ids of the examples stand for: block 1 on the genesis block, block 2 on block 1, and 7 is block 2 with a micro-block -/
def Ex.truth : Truth := fun id =>
  if id = Chains.Ex.bid 1 then Chains.Ex.blk 1 0
  else if id = Chains.Ex.bid 2 then Chains.Ex.blk 2 1
  else if id = Chains.Ex.bid 7 then { Chains.Ex.blk 2 1 with id := Chains.Ex.bid 7 }
  else { Chains.Ex.g0 with id := id }

/-- peer 10.0.0.2 sends blocks 1 and 2; in between, something else happens -/
def Ex.visit (between : List Ev) : List Ev :=
  Services.Ex.joined ++ [.message (Loading.Ex.ctx 5) Services.Ex.p2 (.block (some (Chains.Ex.blk 1 0))), .take (Loading.Ex.ctx 6)] ++ between ++
    [.message (Loading.Ex.ctx 8) Services.Ex.p2 (.block (some (Chains.Ex.blk 2 1))), .take (Loading.Ex.ctx 9)]

/-- peer 10.0.0.3 announces a micro-block on block 1 and says that this makes block 2 -/
def Ex.lie : Ev := .message (Loading.Ex.ctx 7) Services.Ex.p3 (.microBlockInv (some ⟨Chains.Ex.bid 2, Chains.Ex.bid 1⟩))

/-- peer 10.0.0.3 sends block 1 as well -/
def Ex.news : List Ev := [.message (Loading.Ex.ctx 7) Services.Ex.p3 (.block (some (Chains.Ex.blk 1 0))), .take (Loading.Ex.ctx 7)]

/-- One lie is enough.  In both executions peer 10.0.0.2 sends the same blocks at the same times and tells the truth, and at the end
it is seen at the block it sent last.  In the second one peer 10.0.0.3 has announced a micro-block under the id of that block
before.  Then the program shows peer 10.0.0.2 at height 2 instead of 3, with the score and the chain of another block, and it
stays so. -/
theorem C95_liar : ∃ es es' s s', Services.Run Peers.Ex.lib Chains.Ex.g0 Chains.Ex.l0 1000 es s ∧
    Services.Run Peers.Ex.lib Chains.Ex.g0 Chains.Ex.l0 1000 es' s' ∧
    (∃ e pre post, es = pre ++ post ∧ es' = pre ++ e :: post ∧
      ∃ c p m, e = .message c p m ∧ p.remote = some Loading.Ex.peer3 ∧ ¬ m.Truthful Ex.truth) ∧
    Sincere Ex.truth es ∧
    LeashOf s.l.link Loading.Ex.peer = .ok (Chains.Ex.bid 2) ∧ LeashOf s'.l.link Loading.Ex.peer = .ok (Chains.Ex.bid 2) ∧
    HeightOf s.l.link.db (Chains.Ex.bid 2) 3 ∧ HeightOf s'.l.link.db (Chains.Ex.bid 2) 2 ∧
    LeashScore s.l.link Loading.Ex.peer ≠ LeashScore s'.l.link Loading.Ex.peer ∧
    LastIDs s.l.link.db (Chains.Ex.bid 2) 10 = .ok [Chains.Ex.bid 2, Chains.Ex.bid 1, Chains.Ex.bid 0] ∧
    LastIDs s'.l.link.db (Chains.Ex.bid 2) 10 = .ok [Chains.Ex.bid 2, Chains.Ex.bid 0] := by
  refine ⟨Ex.visit [], Ex.visit [Ex.lie], _, _, Services.Ex.runs 1000 _ (by decide +kernel) (by decide +kernel),
    Services.Ex.runs 1000 _ (by decide +kernel) (by decide +kernel), ⟨Ex.lie, _, _, rfl, rfl, _, _, _, rfl, rfl, ?_⟩, ?_,
    by decide +kernel, by decide +kernel, ⟨_, rfl, by decide +kernel⟩, ⟨_, rfl, by decide +kernel⟩,
    by decide +kernel, by decide +kernel, by decide +kernel⟩
  · show ¬ (_ = _); decide +kernel
  · intro c p m hm
    simp only [Ex.visit, Services.Ex.joined, List.append_nil, List.cons_append, List.nil_append, List.mem_cons, List.not_mem_nil, or_false, reduceCtorEq, false_or,
      Ev.message.injEq] at hm
    rcases hm with ⟨_, _, rfl⟩ | ⟨_, _, rfl⟩ <;> · show _ = _; decide +kernel

/-- the hypotheses of the theorems above, for an execution in which two peers send the same true blocks -/
example : Told Ex.truth Chains.Ex.g0 Chains.Ex.l0 ∧ Sincere Ex.truth (Ex.visit Ex.news) ∧
    Services.Run Peers.Ex.lib Chains.Ex.g0 Chains.Ex.l0 1000 (Ex.visit Ex.news) (Services.Ex.after (Ex.visit Ex.news)) ∧
    Services.Run Peers.Ex.lib Chains.Ex.g0 Chains.Ex.l0 1000 (Ex.visit []) (Services.Ex.after (Ex.visit [])) ∧
    LeashOf (Services.Ex.after (Ex.visit [])).l.link Loading.Ex.peer = .ok (Chains.Ex.bid 2) ∧
    LeashOf (Services.Ex.after (Ex.visit Ex.news)).l.link Loading.Ex.peer = .ok (Chains.Ex.bid 2) ∧
    Chains.HasBlock (Services.Ex.after (Ex.visit [])).l.link.db (Chains.Ex.bid 2) = .ok true ∧
    Chains.HasBlock (Services.Ex.after (Ex.visit Ex.news)).l.link.db (Chains.Ex.bid 2) = .ok true := by
  refine ⟨⟨_, [], Chains.Ex.fresh, by decide +kernel, (fun o ho => by cases ho), rfl⟩, ?_,
    Services.Ex.runs 1000 _ (by decide +kernel) (by decide +kernel), Services.Ex.runs 1000 _ (by decide +kernel) (by decide +kernel),
    by decide +kernel, by decide +kernel, by decide +kernel, by decide +kernel⟩
  intro c p m hm
  simp only [Ex.visit, Ex.news, Services.Ex.joined, List.cons_append, List.nil_append, List.mem_cons, List.not_mem_nil, or_false, reduceCtorEq, false_or,
    Ev.message.injEq] at hm
  rcases hm with ⟨_, _, rfl⟩ | ⟨_, _, rfl⟩ | ⟨_, _, rfl⟩ <;> · show _ = _; decide +kernel

/-- a store with a true micro-block, and a refused, a failed and a cut write -/
example : Told Ex.truth Chains.Ex.g0 (Chains.Spec.exec Chains.Ex.l0 [Chains.Ex.pb 2 1 1, Chains.Ex.pb 1 0 1, .putBlock (Chains.Ex.blk 2 1) (Chains.Ex.ip 2) .ok .fail,
    Chains.Ex.mb 7 2 3]) ∧
    chainDown Ex.truth Chains.Ex.g0 5 (Chains.Ex.bid 7) = [Chains.Ex.bid 7, Chains.Ex.bid 1, Chains.Ex.bid 0] ∧
    (∃ r, Genuine Ex.truth Chains.Ex.g0 (Chains.Ex.bid 2) r ∧ r.height = 3) := by
  have told : Told Ex.truth Chains.Ex.g0 (Chains.Spec.exec Chains.Ex.l0 [Chains.Ex.pb 2 1 1, Chains.Ex.pb 1 0 1,
      .putBlock (Chains.Ex.blk 2 1) (Chains.Ex.ip 2) .ok .fail, Chains.Ex.mb 7 2 3]) := by
    refine ⟨_, _, Chains.Ex.fresh, by decide +kernel, ?_, rfl⟩
    intro o ho
    simp only [List.mem_cons, List.not_mem_nil, or_false] at ho
    rcases ho with rfl | rfl | rfl | rfl <;> · show _ = _; decide +kernel
  exact ⟨told, by decide +kernel, _, (C95_store told).record (Chains.Ex.bid 2) _ rfl, by decide +kernel⟩

end Verif.Props
