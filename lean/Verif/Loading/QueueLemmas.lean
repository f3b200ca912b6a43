import Verif.Loading.Queue
/-
Contents of the download queue.
-/

set_option autoImplicit false

namespace Verif.Loading

open Verif
open Verif.Chains (BlockID ProtoBlock)

/-- the last block with the id -/
def lastWith (id : BlockID) (bs : List ProtoBlock) : Option ProtoBlock := (bs.filter (fun b => decide (b.id = id))).getLast?

theorem put_map (f : BlockID → Option ProtoBlock) (b : ProtoBlock) : ∀ (ids : List BlockID), ids.Nodup →
    put (ids.map (fun id => ⟨id, f id⟩)) b = ids.map (fun id => ⟨id, if id = b.id then some b else f id⟩) := by
  intro ids
  induction ids with
  | nil => intro _; rfl
  | cons id ids ih =>
    intro h
    rw [List.nodup_cons] at h
    rw [List.map_cons, put, List.map_cons]
    by_cases e : id = b.id
    · rw [if_pos e, if_pos e]
      congr 1
      refine List.map_congr_left (fun x hx => ?_)
      rw [if_neg]
      intro e'
      exact h.1 (by rw [e, ← e']; exact hx)
    · rw [if_neg e, if_neg e, ih h.2]

theorem fold_put (ids : List BlockID) (h : ids.Nodup) (bs : List ProtoBlock) (f : BlockID → Option ProtoBlock) :
    bs.foldl put (ids.map (fun id => ⟨id, f id⟩)) =
      ids.map (fun id => ⟨id, (lastWith id bs).or (f id)⟩) := by
  induction bs generalizing f with
  | nil => simp [lastWith]
  | cons b bs ih =>
    rw [List.foldl_cons, put_map f b ids h, ih]
    refine List.map_congr_left (fun id _ => ?_)
    congr 1
    unfold lastWith
    rw [List.filter_cons]
    by_cases e : id = b.id
    · rw [if_pos e, if_pos (by simp [e]), List.getLast?_cons]
      cases (bs.filter (fun b => decide (b.id = id))).getLast? <;> simp
    · have : ¬ (decide (b.id = id) = true) := by simp; exact fun e' => e e'.symm
      rw [if_neg e, if_neg this]

theorem fold_newQueue (ids : List BlockID) (h : ids.Nodup) (bs : List ProtoBlock) :
    bs.foldl put (newQueue ids) = ids.map (fun id => ⟨id, lastWith id bs⟩) := by
  have := fold_put ids h bs (fun _ => none)
  simpa [newQueue] using this

theorem lastWith_some {id : BlockID} {bs : List ProtoBlock} {b : ProtoBlock} (h : lastWith id bs = some b) :
    b ∈ bs ∧ b.id = id := by
  have := List.mem_of_getLast? h
  simpa using this

theorem lastWith_none {id : BlockID} {bs : List ProtoBlock} (h : lastWith id bs = none) : ∀ b, b ∈ bs → b.id ≠ id := by
  unfold lastWith at h
  rw [List.getLast?_eq_none_iff, List.filter_eq_nil_iff] at h
  intro b hb
  simpa using h b hb

theorem put_unrequested {b : ProtoBlock} : ∀ {q : List Item}, (∀ it, it ∈ q → it.requested ≠ b.id) → put q b = q := by
  intro q
  induction q with
  | nil => intro _; rfl
  | cons it q ih =>
    intro h
    rw [put, if_neg (h it (by simp)), ih (fun x hx => h x (List.mem_cons_of_mem _ hx))]

theorem put_requested (q : List Item) (b : ProtoBlock) : (put q b).map (·.requested) = q.map (·.requested) := by
  induction q with
  | nil => rfl
  | cons it q ih =>
    rw [put]
    split
    · rfl
    · simp [ih]

theorem putOpt_requested (q : List Item) (b : Option ProtoBlock) :
    (putOpt q b).map (·.requested) = q.map (·.requested) := by
  cases b with
  | none => rfl
  | some b => exact put_requested q b

theorem newQueue_requested (ids : List BlockID) : (newQueue ids).map (·.requested) = ids := by
  simp [newQueue, List.map_map, Function.comp_def]

/-- an item repeats an earlier one and is empty -/
def Blocked (q : List Item) : Prop :=
  ∃ q1 it1 q2 it2 q3, q = q1 ++ it1 :: (q2 ++ it2 :: q3) ∧ it1.requested = it2.requested ∧ it2.received = none

theorem put_append_of_mem {q1 q2 : List Item} {b : ProtoBlock} (h : ∃ it, it ∈ q1 ∧ it.requested = b.id) :
    put (q1 ++ q2) b = put q1 b ++ q2 := by
  induction q1 with
  | nil => obtain ⟨_, h, _⟩ := h; cases h
  | cons it q1 ih =>
    rw [List.cons_append, put, put]
    split
    · rfl
    · rename_i hne
      rw [ih, List.cons_append]
      obtain ⟨x, hx, e⟩ := h
      rcases List.mem_cons.mp hx with rfl | hx
      · exact absurd e hne
      · exact ⟨x, hx, e⟩

theorem put_append_of_not_mem {q1 q2 : List Item} {b : ProtoBlock} (h : ∀ it, it ∈ q1 → it.requested ≠ b.id) :
    put (q1 ++ q2) b = q1 ++ put q2 b := by
  induction q1 with
  | nil => rfl
  | cons it q1 ih =>
    rw [List.cons_append, put, if_neg (h it (by simp)), ih (fun x hx => h x (List.mem_cons_of_mem _ hx)), List.cons_append]

theorem Blocked.put {q : List Item} (h : Blocked q) (b : ProtoBlock) : Blocked (put q b) := by
  obtain ⟨q1, it1, q2, it2, q3, rfl, e, hn⟩ := h
  by_cases h1 : ∃ it, it ∈ q1 ∧ it.requested = b.id
  · rw [put_append_of_mem h1]
    exact ⟨_, it1, q2, it2, q3, rfl, e, hn⟩
  · have h1 : ∀ it, it ∈ q1 → it.requested ≠ b.id := fun it hi he => h1 ⟨it, hi, he⟩
    rw [put_append_of_not_mem h1, Loading.put]
    by_cases h2 : it1.requested = b.id
    · rw [if_pos h2]
      exact ⟨q1, _, q2, it2, q3, rfl, e, hn⟩
    · rw [if_neg h2]
      by_cases h3 : ∃ it, it ∈ q2 ∧ it.requested = b.id
      · rw [put_append_of_mem h3]
        exact ⟨q1, it1, _, it2, q3, rfl, e, hn⟩
      · have h3 : ∀ it, it ∈ q2 → it.requested ≠ b.id := fun it hi he => h3 ⟨it, hi, he⟩
        rw [put_append_of_not_mem h3, Loading.put, if_neg (by rw [← e]; exact h2)]
        exact ⟨q1, it1, q2, it2, _, rfl, e, hn⟩

theorem Blocked.not_ready {q : List Item} (h : Blocked q) : ready q = false := by
  obtain ⟨q1, it1, q2, it2, q3, rfl, e, hn⟩ := h
  cases hr : ready (q1 ++ it1 :: (q2 ++ it2 :: q3)) with
  | false => rfl
  | true =>
    have := List.all_eq_true.mp hr it2 (by simp)
    simp [Item.filled, hn] at this

theorem Blocked.newQueue {ids : List BlockID} (h : ¬ ids.Nodup) : Blocked (newQueue ids) := by
  induction ids with
  | nil => exact absurd List.nodup_nil h
  | cons id ids ih =>
    by_cases hm : id ∈ ids
    · obtain ⟨l1, l2, rfl⟩ := List.append_of_mem hm
      exact ⟨[], ⟨id, none⟩, Loading.newQueue l1, ⟨id, none⟩, Loading.newQueue l2, by simp [Loading.newQueue], rfl, rfl⟩
    · have : ¬ ids.Nodup := fun hn => h (List.nodup_cons.mpr ⟨hm, hn⟩)
      obtain ⟨q1, it1, q2, it2, q3, hq, e, hn⟩ := ih this
      refine ⟨⟨id, none⟩ :: q1, it1, q2, it2, q3, ?_, e, hn⟩
      show (⟨id, none⟩ : Item) :: Loading.newQueue ids = _
      rw [hq]; rfl

theorem Blocked.fold {q : List Item} (h : Blocked q) (bs : List ProtoBlock) : Blocked (bs.foldl Loading.put q) := by
  induction bs generalizing q with
  | nil => exact h
  | cons b bs ih => exact ih (h.put b)

end Verif.Loading
