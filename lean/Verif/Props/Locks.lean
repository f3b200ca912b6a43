import Verif.Services.LocksLemmas
/-
Properties C57 and C62: the mutex of the store.
-/

set_option autoImplicit false

namespace Verif.Props

open Verif
open Verif.Services

/-! ### C57 -/

/-- Any number of goroutines make any calls on the store, `LogInitialStats` excepted.  Whatever the schedule, it has no more
than two steps per lock operation, and it can stop only when all calls have returned.

Missing: `LogInitialStats` beside writers, where the claim is false (`C57_deadlock`). -/
theorem C57_calls_partial (calls : List (List Method)) (hc : ∀ c, c ∈ calls → ∀ n, Method.logInitialStats n ∉ c) {n : Nat}
    {ts : List Thread} (r : LockRun n (calls.map Thread.start) ts) :
    n ≤ 2 * (calls.flatten.flatMap Method.ops).length ∧ ((∀ ts', ¬ LockStep ts ts') → ∀ t, t ∈ ts → t = ⟨0, false, false, []⟩) := by
  have hp : ∀ t, t ∈ calls.map Thread.start → Place t := by
    intro t ht
    obtain ⟨c, hm, rfl⟩ := List.mem_map.mp ht
    exact .outside (flat_calls c (hc c hm))
  refine ⟨?_, fun hstuck t ht => ?_⟩
  · have h := r.work (announcing_start calls)
    have := work_start calls
    omega
  · have hpt := r.place hp t ht
    by_cases hne : t.todo = []
    · cases hpt <;> simp_all
    · obtain ⟨ts', hs⟩ := place_progress (r.place hp) ht hne
      exact absurd hs (hstuck ts')

/-- `LogInitialStats` beside any number of readers: every schedule ends and all calls return.  This is how the program uses it,
before the first service is started (forkdetector.go:75). -/
theorem C57_readers (calls : List (List Method))
    (hc : ∀ c, c ∈ calls → ∀ m, m ∈ c → m ≠ .putBlock ∧ m ≠ .putMicroBlock ∧ m ≠ .moveLeash) {n : Nat} {ts : List Thread}
    (r : LockRun n (calls.map Thread.start) ts) :
    n ≤ 2 * (calls.flatten.flatMap Method.ops).length ∧ ((∀ ts', ¬ LockStep ts ts') → ∀ t, t ∈ ts → t = ⟨0, false, false, []⟩) := by
  have hp : ∀ t, t ∈ calls.map Thread.start → Reader t := by
    intro t ht
    obtain ⟨c, hm, rfl⟩ := List.mem_map.mp ht
    exact ⟨⟨rfl, rfl⟩, reads_calls c (hc c hm)⟩
  refine ⟨?_, fun hstuck t ht => ?_⟩
  · have h := r.work (announcing_start calls)
    have := work_start calls
    omega
  · obtain ⟨⟨ha, hw⟩, hr⟩ := r.reader hp t ht
    by_cases hne : t.todo = []
    · obtain ⟨k, a, w, p⟩ := t
      simp only at hne ha hw
      subst hne ha hw
      cases hr
      rfl
    · obtain ⟨ts', hs⟩ := reader_progress (r.reader hp) ht hne
      exact absurd hs (hstuck ts')

/-- The claim is false when `LogInitialStats` runs beside a writer: for every number of heads but zero there is a schedule in
which both wait for each other for ever.  (The reader is inside, the writer announces itself, the reader calls `Block`.) -/
theorem C57_deadlock (heads : Nat) :
    ∃ ts, LockRun 2 ([[Method.logInitialStats (heads + 1)], [.putBlock]].map Thread.start) ts ∧ (∀ ts', ¬ LockStep ts ts') ∧
      ∀ t, t ∈ ts → t.todo ≠ [] := by
  let p := (List.replicate (heads + 1) [LockOp.rlock, .runlock]).flatten ++ [LockOp.runlock]
  let a0 : Thread := ⟨0, false, false, .rlock :: p⟩
  let a1 : Thread := ⟨1, false, false, p⟩
  let b0 : Thread := ⟨0, false, false, [.lock, .unlock]⟩
  let b1 : Thread := ⟨0, true, false, [.lock, .unlock]⟩
  have hp : ∃ q, p = .rlock :: q := ⟨_, by simp [p, List.replicate_succ]; rfl⟩
  have h0 : [[Method.logInitialStats (heads + 1)], [.putBlock]].map Thread.start = [a0, b0] := by
    simp [Thread.start, Method.ops, a0, b0, p]
  have s1 : LockStep [a0, b0] [a1, b0] := .rlock [] [b0] a0 p rfl (by
    intro t ht
    simp only [List.nil_append, List.mem_cons, List.not_mem_nil, or_false] at ht
    rcases ht with rfl | rfl <;> exact ⟨rfl, rfl⟩)
  have s2 : LockStep [a1, b0] [a1, b1] := .announce [a1] [] b0 [.unlock] rfl (by
    intro t ht
    simp only [List.cons_append, List.nil_append, List.mem_cons, List.not_mem_nil, or_false] at ht
    rcases ht with rfl | rfl <;> exact ⟨rfl, rfl⟩)
  refine ⟨[a1, b1], by rw [h0]; exact .snoc (.snoc (.nil _) s1) s2, ?_, ?_⟩
  · intro ts' hs
    have hw : ∀ {ts : List Thread}, ts = [a1, b1] → ¬ NoWriter ts := by
      rintro ts rfl h
      have := (h b1 (by simp)).1
      cases this
    have hr : ∀ {ts : List Thread}, ts = [a1, b1] → ¬ NoReader ts := by
      rintro ts rfl h
      have := h a1 (by simp)
      cases this
    obtain ⟨q, hq⟩ := hp
    have hmem : ∀ {l1 l2 : List Thread} {t : Thread}, l1 ++ t :: l2 = [a1, b1] → t = a1 ∨ t = b1 := by
      intro l1 l2 t h
      have : t ∈ [a1, b1] := by rw [← h]; simp
      simpa using this
    generalize hA : [a1, b1] = A at hs
    cases hs with
    | rlock l1 l2 t p' h free => exact hw hA.symm free
    | runlock l1 l2 t p' n h hr' =>
      rcases hmem hA.symm with rfl | rfl
      · simp only [a1, hq] at h; cases h
      · cases h
    | announce l1 l2 t p' h free => exact hw hA.symm free
    | acquire l1 l2 t p' h ha free => exact hr hA.symm free
    | unlock l1 l2 t p' h hw' =>
      rcases hmem hA.symm with rfl | rfl
      · cases hw'
      · cases hw'
  · intro t ht
    obtain ⟨q, hq⟩ := hp
    simp only [List.mem_cons, List.not_mem_nil, or_false] at ht
    rcases ht with rfl | rfl
    · simp [a1, hq]
    · simp [b1]

/-- a reader and a writer; the writer waits, then both are done -/
example : ∃ ts, LockRun 5 ([[Method.forks], [.putBlock]].map Thread.start) ts ∧ ∀ t, t ∈ ts → t = ⟨0, false, false, []⟩ := by
  refine ⟨_, .snoc (.snoc (.snoc (.snoc (.snoc (.nil _) (.rlock [] _ _ _ rfl ?_)) (.announce [_] [] _ _ rfl ?_))
    (.runlock [] _ _ _ 0 rfl rfl)) (.acquire [_] [] _ _ rfl rfl ?_)) (.unlock [_] [] _ _ rfl rfl), ?_⟩
  · simp [NoWriter, Thread.start]
  · simp [NoWriter, Thread.start]
  · simp [NoReader, Thread.start]
  · simp [Thread.start]

/-! ### C62 -/

/-- Whatever calls goroutines make (nested ones included) and in every schedule: while a call that changes the store is in its
critical section, no other goroutine is in one, neither a changing nor a reading one.  So a query sees the store as it was
before or after an update, never in between. -/
theorem C62_exclusive (calls : List (List Method)) {n : Nat} {ts : List Thread} (r : LockRun n (calls.map Thread.start) ts)
    (l1 l2 : List Thread) (t : Thread) (hts : ts = l1 ++ t :: l2) (hw : t.writing = true) :
    ∀ u, u ∈ l1 ++ l2 → u.writing = false ∧ u.reads = 0 := by
  obtain ⟨one, alone⟩ := r.exclusive (exclusive_start calls)
  subst hts
  have hnr := alone ⟨t, by simp, hw⟩
  have hz : (l1 ++ l2).countP Thread.busy = 0 := by
    simp only [List.countP_append, List.countP_cons, Thread.busy, hw, Bool.or_true, if_true] at one ⊢
    omega
  intro u hu
  have hb := List.countP_eq_zero.mp hz u hu
  refine ⟨?_, hnr u ?_⟩
  · cases h : u.writing with
    | false => rfl
    | true => simp [Thread.busy, h] at hb
  · rcases List.mem_append.mp hu with h | h <;> simp [h]

/-- a schedule with a writer inside and a reader that waits -/
example : ∃ ts, LockRun 2 ([[Method.moveLeash], [.fork]].map Thread.start) ts ∧ ∃ t u, ts = [] ++ t :: [u] ∧ t.writing = true ∧
    u.todo ≠ [] := by
  refine ⟨_, .snoc (.snoc (.nil _) (.announce [] _ _ _ rfl ?_)) (.acquire [] _ _ _ rfl rfl ?_), _, _, rfl, rfl, ?_⟩
  · simp [NoWriter, Thread.start]
  · simp [NoReader, Thread.start]
  · simp [Thread.start, Method.ops]

end Verif.Props
