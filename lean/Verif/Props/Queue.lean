import Verif.Loading.QueueLemmas
import Verif.Chains.Examples
/-
Properties C40 and C41: the download queue.
-/

set_option autoImplicit false

namespace Verif.Loading

open Verif
open Verif.Chains (BlockID ProtoBlock)

/-! ### C40 -/

/-- For distinct ids, whatever blocks arrive in whatever order: the queue is ready exactly when for
every requested id a block with that id arrived. -/
theorem C40_ready_iff (ids : List BlockID) (h : ids.Nodup) (bs : List ProtoBlock) :
    ready (bs.foldl put (newQueue ids)) = true ↔ ∀ id, id ∈ ids → ∃ b, b ∈ bs ∧ b.id = id := by
  rw [fold_newQueue ids h]
  unfold ready
  rw [List.all_eq_true]
  constructor
  · intro hr id hid
    have := hr _ (List.mem_map.mpr ⟨id, hid, rfl⟩)
    cases hl : lastWith id bs with
    | none => simp [Item.filled, hl] at this
    | some b => exact ⟨b, lastWith_some hl⟩
  · intro hall it hit
    obtain ⟨id, hid, rfl⟩ := List.mem_map.mp hit
    obtain ⟨b, hb, e⟩ := hall id hid
    cases hl : lastWith id bs with
    | none => exact absurd e (lastWith_none hl b hb)
    | some b' => simp [Item.filled, (lastWith_some hl).2]

/-- What the queue holds: the requested ids in the order of the request, each with the block of
that id that arrived last. -/
theorem C40_contents (ids : List BlockID) (h : ids.Nodup) (bs : List ProtoBlock) :
    (bs.foldl put (newQueue ids)).map (·.requested) = ids ∧
    ∀ it, it ∈ bs.foldl put (newQueue ids) →
      it.received = (bs.filter (fun b => decide (b.id = it.requested))).getLast? := by
  rw [fold_newQueue ids h]
  refine ⟨by simp [List.map_map, Function.comp_def], fun it hit => ?_⟩
  obtain ⟨id, _, rfl⟩ := List.mem_map.mp hit
  rfl

/-- The last block received without a gap: if for the ids of `l` blocks have arrived, and for the id after them none has, it is the block that arrived
last for the last id of `l`; there is none if `l` is empty. -/
theorem C40_last (l l' : List BlockID) (h : (l ++ l').Nodup) (bs : List ProtoBlock) (hl : ∀ id, id ∈ l → ∃ b, b ∈ bs ∧ b.id = id)
    (hl' : ∀ id, l'.head? = some id → ∀ b, b ∈ bs → b.id ≠ id) :
    (∀ id, l.getLast? = some id →
      lastReceived (bs.foldl put (newQueue (l ++ l'))) = (bs.filter (fun b => decide (b.id = id))).getLast?) ∧
    (l = [] → lastReceived (bs.foldl put (newQueue (l ++ l'))) = none) := by
  rw [fold_newQueue _ h]
  clear h
  have tail : lastReceived (l'.map (fun id => ⟨id, lastWith id bs⟩)) = none := by
    cases l' with
    | nil => rfl
    | cons id l' =>
      have e : lastWith id bs = none := by
        cases hw : lastWith id bs with
        | none => rfl
        | some b => exact absurd (lastWith_some hw).2 (hl' id rfl b (lastWith_some hw).1)
      simp [lastReceived, Item.filled, e]
  refine ⟨?_, fun e => by rw [e]; exact tail⟩
  intro id hid
  show _ = lastWith id bs
  induction l with
  | nil => cases hid
  | cons x l ih =>
    obtain ⟨b, hb, e⟩ := hl x List.mem_cons_self
    obtain ⟨b', hw⟩ : ∃ b', lastWith x bs = some b' := by
      cases hw : lastWith x bs with
      | none => exact absurd e (lastWith_none hw b hb)
      | some b' => exact ⟨b', rfl⟩
    rw [List.cons_append, List.map_cons, lastReceived, if_pos (by simp [Item.filled, hw, (lastWith_some hw).2])]
    cases l with
    | nil =>
      rw [List.getLast?_singleton] at hid
      cases hid
      rw [List.nil_append, tail]
    | cons y l =>
      have hid' : (y :: l).getLast? = some id := by rw [← hid]; rfl
      rw [ih (fun z hz => hl z (List.mem_cons_of_mem _ hz)) hid']
      have hm : id ∈ x :: y :: l := List.mem_cons_of_mem _ (List.mem_of_getLast? hid')
      obtain ⟨b2, hb2, e2⟩ := hl id hm
      cases hw2 : lastWith id bs with
      | none => exact absurd e2 (lastWith_none hw2 b2 hb2)
      | some _ => rfl

/-- A block that was not requested changes nothing; this holds for every queue. -/
theorem C40_unrequested (ids : List BlockID) (bs : List ProtoBlock) (b : ProtoBlock) (h : b.id ∉ ids) :
    put (bs.foldl put (newQueue ids)) b = bs.foldl put (newQueue ids) := by
  refine put_unrequested (fun it hit e => h ?_)
  have hreq : ∀ (bs : List ProtoBlock) (q : List Item), (bs.foldl put q).map (·.requested) = q.map (·.requested) := by
    intro bs
    induction bs with
    | nil => intro q; rfl
    | cons b bs ih => intro q; rw [List.foldl_cons, ih, put_requested]
  have : it.requested ∈ (bs.foldl put (newQueue ids)).map (·.requested) := List.mem_map.mpr ⟨it, hit, rfl⟩
  rw [hreq, newQueue_requested] at this
  rw [← e]; exact this

/-- The order of arrival does not matter: if blocks with the same id are the same, any two orders
leave the same queue. -/
theorem C40_order (ids : List BlockID) (h : ids.Nodup) (bs bs' : List ProtoBlock) (hp : bs.Perm bs')
    (hag : ∀ b b', b ∈ bs → b' ∈ bs → b.id = b'.id → b = b') :
    bs.foldl put (newQueue ids) = bs'.foldl put (newQueue ids) := by
  rw [fold_newQueue ids h, fold_newQueue ids h]
  refine List.map_congr_left (fun id _ => ?_)
  congr 1
  cases h1 : lastWith id bs with
  | none =>
    cases h2 : lastWith id bs' with
    | none => rfl
    | some b =>
      have := lastWith_some h2
      exact absurd this.2 (lastWith_none h1 b (hp.mem_iff.mpr this.1))
  | some b =>
    have hb := lastWith_some h1
    cases h2 : lastWith id bs' with
    | none => exact absurd hb.2 (lastWith_none h2 b (hp.mem_iff.mp hb.1))
    | some b' =>
      have hb' := lastWith_some h2
      rw [hag b b' hb.1 (hp.mem_iff.mpr hb'.1) (hb.2.trans hb'.2.symm)]

open Chains.Ex in
/-- Three ids; the blocks arrive in another order, with one that was not asked for. -/
example :
    ([bid 1, bid 2, bid 3] : List BlockID).Nodup ∧
    ready ([blk 3 2, blk 9 8, blk 1 0].foldl put (newQueue [bid 1, bid 2, bid 3])) = false ∧
    ready ([blk 3 2, blk 9 8, blk 1 0, blk 2 1].foldl put (newQueue [bid 1, bid 2, bid 3])) = true := by
  decide +kernel

open Chains.Ex in
/-- the hypotheses of `C40_last`, and its answer: block 1, since block 2 has not arrived -/
example :
    ([bid 1] ++ [bid 2, bid 3] : List BlockID).Nodup ∧ (∀ id, id ∈ [bid 1] → ∃ b, b ∈ [blk 3 2, blk 1 0] ∧ b.id = id) ∧
    (∀ b, b ∈ [blk 3 2, blk 1 0] → b.id ≠ bid 2) ∧
    lastReceived ([blk 3 2, blk 1 0].foldl put (newQueue ([bid 1] ++ [bid 2, bid 3]))) = some (blk 1 0) :=
  ⟨by decide +kernel, fun id h => ⟨blk 1 0, by simp, (List.mem_singleton.mp h).symm⟩, by decide +kernel, by rfl⟩

/-! ### C41 -/

/-- Full claim of C41: the batch becomes ready once all its blocks have been received, for every id
list.  It is false when the list repeats an id (`C41_duplicate`).  Proved here: it holds when the
list has no repetition. -/
theorem C41_partial (ids : List BlockID) (h : ids.Nodup) (bs : List ProtoBlock)
    (hall : ∀ id, id ∈ ids → ∃ b, b ∈ bs ∧ b.id = id) : ready (bs.foldl put (newQueue ids)) = true :=
  (C40_ready_iff ids h bs).mpr hall

/-- A peer that repeats an id in its answer makes the batch impossible to complete: whatever
blocks arrive, however often, the queue is never ready. -/
theorem C41_duplicate (ids : List BlockID) (h : ¬ ids.Nodup) (bs : List ProtoBlock) :
    ready (bs.foldl put (newQueue ids)) = false :=
  ((Blocked.newQueue h).fold bs).not_ready

open Chains.Ex in
example : ¬ ([bid 1, bid 2, bid 1] : List BlockID).Nodup ∧
    ready ([blk 1 0, blk 2 1, blk 1 0].foldl put (newQueue [bid 1, bid 2, bid 1])) = false := by decide +kernel

end Verif.Loading
