import Verif.Loading.Store
/-
The three loops of the peer loader over the store.
-/

set_option autoImplicit false

namespace Verif.Loading

open Verif
open Verif.Chains (Addr BlockID ProtoBlock MicroInv Linkage Env PutBlock MoveLeash HasBlock LeashOf LeashScore LastIDs LCB getLeash
  getBlockByID Rep)
open Verif.Chains.Spec (Stored SameTree Fresh Disciplined inserts)
open Verif.KV (Fate)

variable {g : ProtoBlock} {n : Nat} {lk : Linkage}

theorem sameTree_refl (db : Chains.DB) : SameTree db db :=
  ⟨fun _ => rfl, fun _ => rfl, fun _ => rfl, fun _ _ => rfl, fun _ _ => rfl, fun _ _ => rfl, rfl⟩

theorem sameTree_trans {a b c : Chains.DB} (h : SameTree a b) (k : SameTree b c) : SameTree a c :=
  ⟨fun i => (k.has i).trans (h.has i), fun i => (k.record i).trans (h.record i), fun i => (k.block i).trans (h.block i),
    fun i j => (k.last i j).trans (h.last i j), fun i j => (k.blocks i j).trans (h.blocks i j),
    fun i j => (k.common i j).trans (h.common i j), k.heads.trans h.heads⟩

theorem sameTree_stored {a b : Chains.DB} (h : SameTree a b) (id : BlockID) : Stored b id ↔ Stored a id := by
  unfold Stored; rw [h.has]

/-! ### moving the leash along the known prefix -/

theorem Walked.refl (lk : Linkage) (peer : Addr) : Walked lk lk peer := ⟨rfl, sameTree_refl _, fun _ _ => rfl⟩

theorem Walked.trans {lk lk' lk'' : Linkage} {peer : Addr} (h : Walked lk lk' peer) (k : Walked lk' lk'' peer) :
    Walked lk lk'' peer :=
  ⟨k.genesis.trans h.genesis, sameTree_trans h.tree k.tree, fun a ha => (k.others a ha).trans (h.others a ha)⟩

theorem leashOf_of_getLeash {lk : Linkage} {a : Addr} {id : BlockID} (h : getLeash lk.db a = .ok id) :
    LeashOf lk a = .ok id := by simp [LeashOf, h]

theorem leashOf_congr {lk lk' : Linkage} {a : Addr} (hg : lk'.genesis = lk.genesis)
    (h : getLeash lk'.db a = getLeash lk.db a) : LeashOf lk' a = LeashOf lk a := by simp [LeashOf, h, hg]

/-- `MoveLeash` -/
theorem move_cases (S : Serving g n lk) (f : Fate) (id : BlockID) (peer : Addr) :
    Walked lk { lk with db := (MoveLeash f lk.db id peer).1 } peer ∧
    (((MoveLeash f lk.db id peer).2 = .ok () ∧ f = .ok ∧
        LeashOf { lk with db := (MoveLeash f lk.db id peer).1 } peer = .ok id) ∨
     (f ≠ .ok ∧ (MoveLeash f lk.db id peer).2 = fail .writeFailed ∧
        (LeashOf { lk with db := (MoveLeash f lk.db id peer).1 } peer = .ok id ∨
         LeashOf { lk with db := (MoveLeash f lk.db id peer).1 } peer = LeashOf lk peer))) := by
  obtain ⟨ns, hs, R, _⟩ := Chains.reachable_rep S.reachable
  have R' := R.putLeash peer id
  have hw : Walked lk { lk with db := KV.put lk.db (Chains.addrKey peer) (.raw id.1) } peer :=
    ⟨rfl, Chains.sameTree_of_rep R R', fun a ha => by
      have := Chains.moved_put lk.db peer id a
      rw [if_neg ha] at this; exact this⟩
  have hl : LeashOf { lk with db := KV.put lk.db (Chains.addrKey peer) (.raw id.1) } peer = .ok id := by
    refine leashOf_of_getLeash ?_
    have := Chains.moved_put lk.db peer id peer
    rw [if_pos rfl] at this; exact this
  cases f with
  | ok => exact ⟨hw, Or.inl ⟨rfl, rfl, hl⟩⟩
  | fail => exact ⟨Walked.refl _ _, Or.inr ⟨by simp, rfl, Or.inr rfl⟩⟩
  | lostAck => exact ⟨hw, Or.inr ⟨by simp, rfl, Or.inl hl⟩⟩

/-- the loop of `requestBlocks`, whatever the writes do -/
theorem requestLoop_spec (c : Ctx) (peer : Addr) (i : Nat) (S : Serving g n lk) (ids : List BlockID) (leash : BlockID)
    (hl : LeashOf lk peer = .ok leash) :
    Serving g n (requestLoop c peer i lk ids).1 ∧ Walked lk (requestLoop c peer i lk ids).1 peer ∧
    ∃ known rest, ids = known ++ rest ∧ (∀ k, k ∈ known → Stored lk.db k) ∧
      (((requestLoop c peer i lk ids).2 = .ok rest ∧ (∀ x, rest.head? = some x → ¬ Stored lk.db x) ∧
          LeashOf (requestLoop c peer i lk ids).1 peer = .ok (known.getLast?.getD leash)) ∨
       ((∃ j, c.fates j ≠ .ok) ∧ (requestLoop c peer i lk ids).2 = fail .writeFailed ∧
          ∃ x, LeashOf (requestLoop c peer i lk ids).1 peer = .ok x ∧ (x = leash ∨ x ∈ known))) := by
  induction ids generalizing i lk leash with
  | nil => exact ⟨S, Walked.refl _ _, [], [], rfl, by simp, Or.inl ⟨rfl, by simp, by simpa [requestLoop] using hl⟩⟩
  | cons id ids ih =>
    rcases S.has id with hst | hno
    · have hst' : HasBlock lk.db id = .ok true := hst
      have step : ∀ (lk' : Linkage), Serving g n lk' → Walked lk lk' peer → LeashOf lk' peer = .ok id →
          ∀ r, r = requestLoop c peer (i + 1) lk' ids →
          Serving g n r.1 ∧ Walked lk r.1 peer ∧ ∃ known rest, id :: ids = known ++ rest ∧ (∀ k, k ∈ known → Stored lk.db k) ∧
            ((r.2 = .ok rest ∧ (∀ x, rest.head? = some x → ¬ Stored lk.db x) ∧ LeashOf r.1 peer = .ok (known.getLast?.getD leash)) ∨
             ((∃ j, c.fates j ≠ .ok) ∧ r.2 = fail .writeFailed ∧ ∃ x, LeashOf r.1 peer = .ok x ∧ (x = leash ∨ x ∈ known))) := by
        intro lk' S' W hl' r hr
        subst hr
        obtain ⟨s1, w1, known, rest, he, hk, hc⟩ := ih (i + 1) S' id hl'
        refine ⟨s1, W.trans w1, id :: known, rest, by rw [he]; rfl, ?_, ?_⟩
        · intro k hk'
          rcases List.mem_cons.mp hk' with rfl | h
          · exact hst
          · exact (sameTree_stored W.tree k).mp (hk k h)
        · rcases hc with ⟨a, b, c'⟩ | ⟨a, b, x, hx, c'⟩
          · refine Or.inl ⟨a, fun x hx => fun hs => b x hx ((sameTree_stored W.tree x).mpr hs), ?_⟩
            rw [c', List.getLast?_cons]; rfl
          · refine Or.inr ⟨a, b, x, hx, Or.inr ?_⟩
            rcases c' with rfl | h
            · exact List.mem_cons_self
            · exact List.mem_cons_of_mem _ h
      by_cases hne : id = leash
      · have hr : requestLoop c peer i lk (id :: ids) = requestLoop c peer (i + 1) lk ids := by
          subst hne; rw [requestLoop]; simp only [hst', hl, ne_eq, not_true, if_false]
        exact step lk S (Walked.refl _ _) (hne ▸ hl) _ hr
      · obtain ⟨W, hc⟩ := move_cases S (c.fates i) id peer
        have S' := S.move id peer (c.fates i) hst
        rcases hc with ⟨h1, h2, h3⟩ | ⟨h1, h2, h3⟩
        · have hr : requestLoop c peer i lk (id :: ids) =
              requestLoop c peer (i + 1) { lk with db := (MoveLeash (c.fates i) lk.db id peer).1 } ids := by
            rw [requestLoop]; simp only [hst', hl, hne, ne_eq, not_false_iff, if_true, h1]
          exact step _ S' W h3 _ hr
        · have hr : requestLoop c peer i lk (id :: ids) =
              ({ lk with db := (MoveLeash (c.fates i) lk.db id peer).1 }, fail .writeFailed) := by
            rw [requestLoop]; simp only [hst', hl, hne, ne_eq, not_false_iff, if_true, h2]; rfl
          rw [hr]
          refine ⟨S', W, [id], ids, rfl, by simpa using hst, Or.inr ⟨⟨i, h1⟩, rfl, ?_⟩⟩
          rcases h3 with h3 | h3
          · exact ⟨id, h3, Or.inr (by simp)⟩
          · exact ⟨leash, h3.trans hl, Or.inl rfl⟩
    · have hr : requestLoop c peer i lk (id :: ids) = (lk, .ok (id :: ids)) := by
        rw [requestLoop]; simp only [hno]
      rw [hr]
      refine ⟨S, Walked.refl _ _, [], id :: ids, rfl, by simp, Or.inl ⟨rfl, ?_, hl⟩⟩
      intro x hx
      simp only [List.head?_cons, Option.some.injEq] at hx
      subst hx
      unfold Stored; rw [hno]; simp

/-- how a list splits at the first element outside a set -/
theorem split_unique {α : Type} {P : α → Prop} {a b a' b' : List α} (h : a ++ b = a' ++ b')
    (ha : ∀ x, x ∈ a → P x) (ha' : ∀ x, x ∈ a' → P x) (hb : ∀ x, b.head? = some x → ¬ P x)
    (hb' : ∀ x, b'.head? = some x → ¬ P x) : a = a' ∧ b = b' := by
  induction a generalizing a' with
  | nil =>
    cases a' with
    | nil => exact ⟨rfl, h⟩
    | cons y a' =>
      simp only [List.nil_append] at h
      exact absurd (ha' y List.mem_cons_self) (hb y (by rw [h]; rfl))
  | cons x a ih =>
    cases a' with
    | nil =>
      simp only [List.nil_append] at h
      exact absurd (ha x List.mem_cons_self) (hb' x (by rw [← h]; rfl))
    | cons y a' =>
      simp only [List.cons_append, List.cons.injEq] at h
      obtain ⟨rfl, h⟩ := h
      obtain ⟨rfl, rfl⟩ := ih h (fun z hz => ha z (List.mem_cons_of_mem _ hz)) (fun z hz => ha' z (List.mem_cons_of_mem _ hz))
      exact ⟨rfl, rfl⟩

/-- the loop of `requestBlocks` when the writes succeed -/
theorem requestLoop_ok (c : Ctx) (peer : Addr) (S : Serving g n lk) (known rest : List BlockID) (leash : BlockID)
    (hl : LeashOf lk peer = .ok leash) (hf : ∀ j, c.fates j = .ok) (hk : ∀ k, k ∈ known → Stored lk.db k)
    (hr : ∀ x, rest.head? = some x → ¬ Stored lk.db x) :
    ∃ lk', requestLoop c peer 0 lk (known ++ rest) = (lk', .ok rest) ∧ Serving g n lk' ∧ Walked lk lk' peer ∧
      LeashOf lk' peer = .ok (known.getLast?.getD leash) := by
  obtain ⟨s, w, known', rest', he, hk', hc⟩ := requestLoop_spec c peer 0 S (known ++ rest) leash hl
  rcases hc with ⟨a, b, d⟩ | ⟨⟨j, hj⟩, _⟩
  · obtain ⟨rfl, rfl⟩ := split_unique he hk hk' hr b
    exact ⟨_, Prod.ext rfl a, s, w, d⟩
  · exact absurd (hf j) hj

/-! ### storing the blocks of a batch -/

theorem Chained.mono {S S' : BlockID → Prop} {bs : List ProtoBlock} (h : Chained S bs) (hs : ∀ i, S i → S' i) :
    Chained S' bs := by
  induction bs generalizing S S' with
  | nil => trivial
  | cons b bs ih =>
    obtain ⟨a, b', c, d⟩ := h
    exact ⟨a, b', c.imp (hs _) (hs _), ih d (fun i hi => hi.imp (hs i) id)⟩

theorem put_ok (S : Serving g (n + 1) lk) (b : ProtoBlock) (peer : Addr) (h1 : b.generator ≠ none)
    (h2 : b.baseTarget.toNat < 2 ^ 63) (h3 : Stored lk.db b.id ∨ Stored lk.db b.parent) :
    (PutBlock .ok .ok lk.db b peer).2 = .ok () := (Props.C02_accept_iff S.reachable b peer h1 h2).mpr h3

theorem put_kept (S : Serving g (n + 1) lk) (b : ProtoBlock) (peer : Addr) (f1 f2 : Fate) (id : BlockID)
    (h : Stored lk.db id) : Stored (PutBlock f1 f2 lk.db b peer).1 id := by
  obtain ⟨l0, ops, hf, _, _, hb, rfl⟩ := S
  have := Props.C01_blocks_permanent hf ops [.putBlock b peer f1 f2]
    (by rw [Chains.inserts_append]; have : inserts [Chains.Spec.Op.putBlock b peer f1 f2] = 1 := rfl; omega) id h
  rw [Chains.exec_append] at this
  exact this.1

theorem put_others (S : Serving g (n + 1) lk) (b : ProtoBlock) (peer : Addr) (f1 f2 : Fate) (a : Addr)
    (ha : a.plain ≠ peer.plain) : getLeash (PutBlock f1 f2 lk.db b peer).1 a = getLeash lk.db a := by
  obtain ⟨ns, hs, R, hb⟩ := Chains.reachable_rep S.reachable
  have := R.step_outcome (l := lk) hb (.putBlock b peer f1 f2)
  simp only [Chains.Spec.target] at this
  rcases this with ⟨_, hm, _⟩ | ⟨_, hs⟩ | ⟨_, _, hm, _⟩
  · have := hm a; rw [if_neg ha] at this; exact this
  · exact hs a
  · have := hm a; rw [if_neg ha] at this; exact this

/-- the loop of `appendBlock` over blocks that form a chain, when the writes succeed -/
theorem applyAll_chained (c : Ctx) (peer : Addr) (i : Nat) (hf : ∀ j, c.fates j = .ok) (q : List Item) (bs : List ProtoBlock)
    (hq : q.map (·.received) = bs.map some) (S : Serving g (n + bs.length) lk) (hc : Chained (Stored lk.db) bs) :
    ∃ lk', applyAll c peer i lk q = (lk', .ok ()) ∧ Serving g n lk' ∧ Applied lk lk' peer bs := by
  induction bs generalizing i lk q with
  | nil =>
    have : q = [] := by simpa using hq
    subst this
    exact ⟨lk, rfl, S.mono (by omega), rfl, by simp, fun _ h => h, fun _ _ => rfl, by simp, fun _ => rfl⟩
  | cons b bs ih =>
    cases q with
    | nil => simp at hq
    | cons it q =>
      simp only [List.map_cons, List.cons.injEq] at hq
      obtain ⟨h1, h2⟩ := hq
      obtain ⟨hg, hbt, hor, hc'⟩ := hc
      have S1 : Serving g ((n + bs.length) + 1) lk := S.mono (by simp; omega)
      have hok := put_ok S1 b peer hg hbt hor
      have S2 := S1.put b peer .ok .ok
      have hst := Props.C02_accepted_stored S.reachable b peer .ok .ok hok
      have hkept := put_kept S1 b peer .ok .ok
      obtain ⟨lk', e, S', A⟩ := ih (i + 1) q h2 S2 (hc'.mono (fun id hid => hid.elim (hkept id) (fun e => e ▸ hst.1)))
      refine ⟨lk', ?_, S', ?_, ?_, ?_, ?_, ?_, ?_⟩
      · rw [applyAll]; simp only [h1, hf, hok]; exact e
      · rw [A.eq]; rfl
      · intro b' hb'
        rcases List.mem_cons.mp hb' with rfl | h
        · exact A.kept _ hst.1
        · exact A.stored _ h
      · intro id hid; exact A.kept id (hkept id hid)
      · intro a ha; rw [A.others a ha]; exact put_others S1 b peer .ok .ok a ha
      · intro b' hb'
        cases bs with
        | nil =>
          simp only [List.getLast?_singleton, Option.some.injEq] at hb'
          subst hb'
          rw [A.same rfl]; exact hst.2
        | cons b2 bs => exact A.leash b' (by rw [← hb', List.getLast?_cons_cons])
      · intro h; cases h

/-- the loop of `appendBlock` at a block that is refused -/
theorem applyAll_refused (c : Ctx) (peer : Addr) (i : Nat) (hf : ∀ j, c.fates j = .ok) (q q' : List Item) (it : Item)
    (bs : List ProtoBlock) (bad : ProtoBlock) (e : Fault)
    (hq : q.map (·.received) = bs.map some) (hit : it.received = some bad)
    (S : Serving g (n + bs.length + 1) lk) (hc : Chained (Stored lk.db) bs)
    (hbad : (PutBlock .ok .ok (Chains.Spec.exec lk (bs.map (putOp peer))).db bad peer).2 = .error e) :
    ∃ lk', applyAll c peer i lk (q ++ it :: q') = (lk', .error e) ∧ Serving g n lk' ∧ Applied lk lk' peer bs := by
  induction bs generalizing i lk q with
  | nil =>
    have : q = [] := by simpa using hq
    subst this
    have hun := Props.C02_refused_unchanged S.reachable bad peer (by
      simp only [List.map_nil, Chains.Spec.exec, List.foldl_nil] at hbad; rw [hbad]; simp)
    refine ⟨lk, ?_, S.mono (by omega), rfl, by simp, fun _ h => h, fun _ _ => rfl, by simp, fun _ => rfl⟩
    simp only [List.map_nil, Chains.Spec.exec, List.foldl_nil] at hbad
    rw [List.nil_append, applyAll]
    simp only [hit, hf, hbad, hun]
  | cons b bs ih =>
    cases q with
    | nil => simp at hq
    | cons it1 q =>
      simp only [List.map_cons, List.cons.injEq] at hq
      obtain ⟨h1, h2⟩ := hq
      obtain ⟨hg, hbt, hor, hc'⟩ := hc
      have S1 : Serving g ((n + bs.length + 1) + 1) lk := S.mono (by simp; omega)
      have hok := put_ok S1 b peer hg hbt hor
      have S2 := S1.put b peer .ok .ok
      have hst := Props.C02_accepted_stored S.reachable b peer .ok .ok hok
      have hkept := put_kept S1 b peer .ok .ok
      obtain ⟨lk', e, S', A⟩ := ih (i + 1) q h2 S2 (hc'.mono (fun id hid => hid.elim (hkept id) (fun e => e ▸ hst.1))) hbad
      refine ⟨lk', ?_, S', ?_, ?_, ?_, ?_, ?_, ?_⟩
      · rw [List.cons_append, applyAll]; simp only [h1, hf, hok]; exact e
      · rw [A.eq]; rfl
      · intro b' hb'
        rcases List.mem_cons.mp hb' with rfl | h
        · exact A.kept _ hst.1
        · exact A.stored _ h
      · intro id hid; exact A.kept id (hkept id hid)
      · intro a ha; rw [A.others a ha]; exact put_others S1 b peer .ok .ok a ha
      · intro b' hb'
        cases bs with
        | nil =>
          simp only [List.getLast?_singleton, Option.some.injEq] at hb'
          subst hb'
          rw [A.same rfl]; exact hst.2
        | cons b2 bs => exact A.leash b' (by rw [← hb', List.getLast?_cons_cons])
      · intro h; cases h

/-- every block in the queue has the id it was put under -/
def Matching (q : List Item) : Prop := ∀ it, it ∈ q → ∀ b, it.received = some b → b.id = it.requested

theorem Matching.put {q : List Item} (h : Matching q) (b : ProtoBlock) : Matching (Loading.put q b) := by
  induction q with
  | nil => exact h
  | cons it q ih =>
    rw [Loading.put]
    by_cases hi : it.requested = b.id
    · rw [if_pos hi]
      intro it' hit b' hb'
      rcases List.mem_cons.mp hit with rfl | hm
      · simp only [Option.some.injEq] at hb'; subst hb'; exact hi.symm
      · exact h it' (List.mem_cons_of_mem _ hm) b' hb'
    · rw [if_neg hi]
      intro it' hit b' hb'
      rcases List.mem_cons.mp hit with rfl | hm
      · exact h it' List.mem_cons_self b' hb'
      · exact ih (fun x hx => h x (List.mem_cons_of_mem _ hx)) it' hm b' hb'

theorem Matching.putOpt {q : List Item} (h : Matching q) (b : Option ProtoBlock) : Matching (Loading.putOpt q b) := by
  cases b with
  | none => exact h
  | some b => exact h.put b

theorem Matching.newQueue (ids : List BlockID) : Matching (Loading.newQueue ids) := by
  intro it hit b hb
  obtain ⟨id, _, rfl⟩ := List.mem_map.mp hit
  simp at hb

theorem Matching.fold {q : List Item} (h : Matching q) (bs : List ProtoBlock) : Matching (bs.foldl Loading.put q) := by
  induction bs generalizing q with
  | nil => exact h
  | cons b bs ih => exact ih (h.put b)

/-- the loop of `handleFailure` is that of `appendBlock` over the received prefix -/
theorem applyPrefix_eq (c : Ctx) (peer : Addr) (i : Nat) (lk : Linkage) (q : List Item) (hq : Matching q) :
    applyPrefix c peer i lk q = applyAll c peer i lk (q.takeWhile (fun it => it.received.isSome)) := by
  induction q generalizing i lk with
  | nil => rfl
  | cons it q ih =>
    have hq' : Matching q := fun x hx => hq x (List.mem_cons_of_mem _ hx)
    rw [applyPrefix]
    cases hr : it.received with
    | none => simp [List.takeWhile, hr, applyAll]
    | some b =>
      have hb := hq it List.mem_cons_self b hr
      simp only [hb, if_true, List.takeWhile_cons, hr, Option.isSome_some, applyAll]
      rcases PutBlock (c.fates (2 * i)) (c.fates (2 * i + 1)) lk.db b peer with ⟨d, (e | u)⟩
      · rfl
      · exact ih _ _ hq'

/-- any number of blocks, whatever the writes do -/
theorem applyAll_serving (c : Ctx) (peer : Addr) (i : Nat) (q : List Item) (S : Serving g (n + q.length) lk) :
    Serving g n (applyAll c peer i lk q).1 ∧ (∀ id, Stored lk.db id → Stored (applyAll c peer i lk q).1.db id) ∧
    (∀ a, a.plain ≠ peer.plain → getLeash (applyAll c peer i lk q).1.db a = getLeash lk.db a) := by
  induction q generalizing i lk with
  | nil => exact ⟨S.mono (by simp), fun _ h => h, fun _ _ => rfl⟩
  | cons it q ih =>
    rw [applyAll]
    cases hr : it.received with
    | none => exact ⟨S.mono (by omega), fun _ h => h, fun _ _ => rfl⟩
    | some b =>
      have S1 : Serving g ((n + q.length) + 1) lk := S.mono (by simp; omega)
      have S2 := S1.put b peer (c.fates (2 * i)) (c.fates (2 * i + 1))
      have hkept := put_kept S1 b peer (c.fates (2 * i)) (c.fates (2 * i + 1))
      have hoth := put_others S1 b peer (c.fates (2 * i)) (c.fates (2 * i + 1))
      simp only
      cases hres : (PutBlock (c.fates (2 * i)) (c.fates (2 * i + 1)) lk.db b peer).2 with
      | error e => exact ⟨S2.mono (by omega), hkept, hoth⟩
      | ok u =>
        obtain ⟨h1, h2, h3⟩ := ih (i + 1) S2
        exact ⟨h1, fun id h => h2 id (hkept id h), fun a ha => (h3 a ha).trans (hoth a ha)⟩

theorem applyPrefix_serving (c : Ctx) (peer : Addr) (i : Nat) (q : List Item) (S : Serving g (n + q.length) lk) :
    Serving g n (applyPrefix c peer i lk q).1 ∧ (∀ id, Stored lk.db id → Stored (applyPrefix c peer i lk q).1.db id) ∧
    (∀ a, a.plain ≠ peer.plain → getLeash (applyPrefix c peer i lk q).1.db a = getLeash lk.db a) := by
  induction q generalizing i lk with
  | nil => exact ⟨S.mono (by simp), fun _ h => h, fun _ _ => rfl⟩
  | cons it q ih =>
    rw [applyPrefix]
    cases hr : it.received with
    | none => exact ⟨S.mono (by omega), fun _ h => h, fun _ _ => rfl⟩
    | some b =>
      simp only
      by_cases hb : b.id = it.requested
      · rw [if_pos hb]
        have S1 : Serving g ((n + q.length) + 1) lk := S.mono (by simp; omega)
        have S2 := S1.put b peer (c.fates (2 * i)) (c.fates (2 * i + 1))
        have hkept := put_kept S1 b peer (c.fates (2 * i)) (c.fates (2 * i + 1))
        have hoth := put_others S1 b peer (c.fates (2 * i)) (c.fates (2 * i + 1))
        cases hres : (PutBlock (c.fates (2 * i)) (c.fates (2 * i + 1)) lk.db b peer).2 with
        | error e => exact ⟨S2.mono (by omega), hkept, hoth⟩
        | ok u =>
          obtain ⟨h1, h2, h3⟩ := ih (i + 1) S2
          exact ⟨h1, fun id h => h2 id (hkept id h), fun a ha => (h3 a ha).trans (hoth a ha)⟩
      · rw [if_neg hb]
        exact ⟨S.mono (by omega), fun _ h => h, fun _ _ => rfl⟩

end Verif.Loading
