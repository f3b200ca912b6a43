import Verif.Services.Locks
/-
Invariants of goroutines that use the mutex.
-/

set_option autoImplicit false

namespace Verif.Services

/-- operations that are left to do, announcements counted -/
def Thread.work (t : Thread) : Nat := 2 * t.todo.length - (if t.announced then 1 else 0)

def work (ts : List Thread) : Nat := (ts.map Thread.work).sum

theorem work_split (l1 l2 : List Thread) (t : Thread) : work (l1 ++ t :: l2) = work l1 + t.work + work l2 := by
  simp [work, Nat.add_assoc]

theorem work_start (calls : List (List Method)) :
    work (calls.map Thread.start) = 2 * (calls.flatten.flatMap Method.ops).length := by
  induction calls with
  | nil => rfl
  | cons c cs ih =>
    simp only [List.map_cons, List.flatten_cons, List.flatMap_append, List.length_append]
    have hcons : work (Thread.start c :: cs.map Thread.start) = (Thread.start c).work + work (cs.map Thread.start) := rfl
    rw [hcons, ih]
    simp [Thread.work, Thread.start]
    omega

/-- an announced writer is at its `Lock` -/
def Announcing (ts : List Thread) : Prop := ∀ t, t ∈ ts → t.announced = true → ∃ p, t.todo = .lock :: p

theorem announcing_start (calls : List (List Method)) : Announcing (calls.map Thread.start) := by
  intro t ht ha
  obtain ⟨c, _, rfl⟩ := List.mem_map.mp ht
  simp [Thread.start] at ha

theorem announcing_step {ts ts' : List Thread} (A : Announcing ts) (s : LockStep ts ts') : Announcing ts' := by
  have key : ∀ (l1 l2 : List Thread) (t t' : Thread), Announcing (l1 ++ t :: l2) →
      (t'.announced = true → ∃ p, t'.todo = .lock :: p) → Announcing (l1 ++ t' :: l2) := by
    intro l1 l2 t t' A h x hx
    rcases List.mem_append.mp hx with hx | hx
    · exact A x (by simp [hx])
    · rcases List.mem_cons.mp hx with rfl | hx
      · exact h
      · exact A x (by simp [hx])
  have self : ∀ (l1 l2 : List Thread) (t : Thread), t ∈ l1 ++ t :: l2 := by simp
  cases s with
  | rlock l1 l2 t p h free =>
    refine key _ _ _ _ A (fun ha => ?_)
    have := (free t (self _ _ _)).1
    simp only at ha
    rw [this] at ha; cases ha
  | runlock l1 l2 t p n h hr =>
    refine key _ _ _ _ A (fun ha => ?_)
    obtain ⟨q, hq⟩ := A t (self _ _ _) ha
    rw [h] at hq; cases hq
  | announce l1 l2 t p h free => exact key _ _ _ _ A (fun _ => ⟨p, h⟩)
  | acquire l1 l2 t p h ha free => exact key _ _ _ _ A (fun ha => by simp at ha)
  | unlock l1 l2 t p h hw =>
    refine key _ _ _ _ A (fun ha => ?_)
    obtain ⟨q, hq⟩ := A t (self _ _ _) ha
    rw [h] at hq; cases hq

/-- every operation brings the end closer -/
theorem work_step {ts ts' : List Thread} (A : Announcing ts) (s : LockStep ts ts') : work ts' < work ts := by
  have self : ∀ (l1 l2 : List Thread) (t : Thread), t ∈ l1 ++ t :: l2 := by simp
  cases s with
  | rlock l1 l2 t p h free =>
    have := (free t (self _ _ _)).1
    simp only [work_split, Thread.work, h, this, List.length_cons]; simp <;> omega
  | runlock l1 l2 t p n h hr =>
    have : t.announced = false := by
      cases ha : t.announced with
      | false => rfl
      | true => obtain ⟨q, hq⟩ := A t (self _ _ _) ha; rw [h] at hq; cases hq
    simp only [work_split, Thread.work, h, this, List.length_cons]; simp <;> omega
  | announce l1 l2 t p h free =>
    have := (free t (self _ _ _)).1
    simp only [work_split, Thread.work, h, this, List.length_cons]; simp; omega
  | acquire l1 l2 t p h ha free =>
    simp only [work_split, Thread.work, h, ha, List.length_cons]; simp; omega
  | unlock l1 l2 t p h hw =>
    have : t.announced = false := by
      cases ha : t.announced with
      | false => rfl
      | true => obtain ⟨q, hq⟩ := A t (self _ _ _) ha; rw [h] at hq; cases hq
    simp only [work_split, Thread.work, h, this, List.length_cons]; simp <;> omega

theorem LockRun.announcing {n : Nat} {ts ts' : List Thread} (r : LockRun n ts ts') (A : Announcing ts) : Announcing ts' := by
  induction r with
  | nil ts => exact A
  | snoc h s ih => exact announcing_step (ih A) s

theorem LockRun.work {n : Nat} {ts ts' : List Thread} (r : LockRun n ts ts') (A : Announcing ts) :
    n + Services.work ts' ≤ Services.work ts := by
  induction r with
  | nil ts => omega
  | snoc h s ih =>
    have := ih A
    have := work_step (h.announcing A) s
    omega

/-- an invariant of all goroutines that a step of any one of them keeps -/
theorem LockRun.each {P : Thread → Prop} {n : Nat} {ts ts' : List Thread} (r : LockRun n ts ts') (h0 : ∀ t, t ∈ ts → P t)
    (hs : ∀ l1 l2 t t', (∀ x, x ∈ l1 ++ t :: l2 → P x) → LockStep (l1 ++ t :: l2) (l1 ++ t' :: l2) → P t') :
    ∀ t, t ∈ ts' → P t := by
  induction r with
  | nil ts => exact h0
  | @snoc n ts ts' ts'' h s ih =>
    have ih := ih h0
    have key : ∀ (l1 l2 : List Thread) (t t' : Thread), ts' = l1 ++ t :: l2 → ts'' = l1 ++ t' :: l2 → ∀ x, x ∈ ts'' → P x := by
      rintro l1 l2 t t' rfl rfl x hx
      rcases List.mem_append.mp hx with hx | hx
      · exact ih x (by simp [hx])
      · rcases List.mem_cons.mp hx with rfl | hx
        · exact hs _ _ _ _ ih s
        · exact ih x (by simp [hx])
    cases s with
    | rlock l1 l2 t p h free => exact key _ _ _ _ rfl rfl
    | runlock l1 l2 t p n h hr => exact key _ _ _ _ rfl rfl
    | announce l1 l2 t p h free => exact key _ _ _ _ rfl rfl
    | acquire l1 l2 t p h ha free => exact key _ _ _ _ rfl rfl
    | unlock l1 l2 t p h hw => exact key _ _ _ _ rfl rfl

/-- sequences of critical sections that are not nested -/
inductive Flat : List LockOp → Prop where
  | nil : Flat []
  | read {p : List LockOp} (h : Flat p) : Flat (.rlock :: .runlock :: p)
  | write {p : List LockOp} (h : Flat p) : Flat (.lock :: .unlock :: p)

/-- where a goroutine without nested critical sections can be -/
inductive Place : Thread → Prop where
  | outside {p : List LockOp} (h : Flat p) : Place ⟨0, false, false, p⟩
  | reading {p : List LockOp} (h : Flat p) : Place ⟨1, false, false, .runlock :: p⟩
  | waiting {p : List LockOp} (h : Flat p) : Place ⟨0, true, false, .lock :: .unlock :: p⟩
  | writing {p : List LockOp} (h : Flat p) : Place ⟨0, false, true, .unlock :: p⟩

theorem flat_calls : ∀ (calls : List Method), (∀ n, Method.logInitialStats n ∉ calls) → Flat (calls.flatMap Method.ops)
  | [], _ => .nil
  | m :: ms, h => by
    have ih := flat_calls ms (fun n hn => h n (by simp [hn]))
    cases m with
    | logInitialStats n => exact absurd (by simp) (h n)
    | putBlock => exact .write ih
    | putMicroBlock => exact .write ih
    | moveLeash => exact .write ih
    | _ => exact .read ih

theorem replace_right {l1 l1' l2 l2' : List Thread} {t u t' u' : Thread} (hl : l1 = l1') (h : l1 ++ t :: l2 = l1' ++ u :: l2')
    (h' : l1 ++ t' :: l2 = l1' ++ u' :: l2') : t = u ∧ t' = u' := by
  subst hl
  simp only [List.append_cancel_left_eq, List.cons.injEq] at h h'
  exact ⟨h.1, h'.1⟩

/-- the possible changes of the goroutine at one place -/
inductive Move (ts : List Thread) (t : Thread) : Thread → Prop where
  | same : Move ts t t
  | rlock (p : List LockOp) (h : t.todo = .rlock :: p) (free : NoWriter ts) : Move ts t { t with reads := t.reads + 1, todo := p }
  | runlock (p : List LockOp) (n : Nat) (h : t.todo = .runlock :: p) (hr : t.reads = n + 1) : Move ts t { t with reads := n, todo := p }
  | announce (p : List LockOp) (h : t.todo = .lock :: p) (free : NoWriter ts) : Move ts t { t with announced := true }
  | acquire (p : List LockOp) (h : t.todo = .lock :: p) (ha : t.announced = true) (free : NoReader ts) :
      Move ts t { t with announced := false, writing := true, todo := p }
  | unlock (p : List LockOp) (h : t.todo = .unlock :: p) (hw : t.writing = true) : Move ts t { t with writing := false, todo := p }

theorem split_cases {α : Type} : ∀ {l1 l2 m1 m2 : List α} {a b : α}, l1 ++ a :: l2 = m1 ++ b :: m2 →
    (l1 = m1 ∧ a = b ∧ l2 = m2) ∨ l1.length ≠ m1.length
  | [], l2, [], m2, a, b, h => by simp at h; exact Or.inl ⟨rfl, h⟩
  | [], l2, m :: m1, m2, a, b, h => by right; simp
  | l :: l1, l2, [], m2, a, b, h => by right; simp
  | l :: l1, l2, m :: m1, m2, a, b, h => by
    simp only [List.cons_append, List.cons.injEq] at h
    rcases split_cases h.2 with ⟨rfl, rfl, rfl⟩ | hne
    · exact Or.inl ⟨by rw [h.1], rfl, rfl⟩
    · right; simpa using hne

theorem step_move {l1 l2 : List Thread} {t t' : Thread} (s : LockStep (l1 ++ t :: l2) (l1 ++ t' :: l2)) :
    Move (l1 ++ t :: l2) t t' := by
  have key : ∀ (m1 m2 : List Thread) (u u' : Thread), l1 ++ t :: l2 = m1 ++ u :: m2 → l1 ++ t' :: l2 = m1 ++ u' :: m2 →
      Move (l1 ++ t :: l2) u u' → Move (l1 ++ t :: l2) t t' := by
    intro m1 m2 u u' h h' hm
    rcases split_cases h with ⟨rfl, rfl, rfl⟩ | hne
    · simp only [List.append_cancel_left_eq, List.cons.injEq, and_true] at h'
      rw [h']; exact hm
    · have e1 := congrArg (fun l => l[l1.length]?) h
      have e2 := congrArg (fun l => l[l1.length]?) h'
      have : ∀ w : Thread, (m1 ++ w :: m2)[l1.length]? = (m1 ++ u :: m2)[l1.length]? := by
        intro w
        rcases Nat.lt_or_gt_of_ne hne with hlt | hgt
        · rw [List.getElem?_append_left hlt, List.getElem?_append_left hlt]
        · rw [List.getElem?_append_right (by omega), List.getElem?_append_right (by omega)]
          obtain ⟨k, hk⟩ : ∃ k, l1.length - m1.length = k + 1 := ⟨l1.length - m1.length - 1, by omega⟩
          rw [hk]; simp
      rw [this u', ← e1] at e2
      simp at e2
      rw [e2]; exact .same
  generalize hA : l1 ++ t :: l2 = A at s
  generalize hB : l1 ++ t' :: l2 = B at s
  cases s with
  | rlock m1 m2 u p h free => rw [← hA]; exact key _ _ _ _ hA hB (.rlock p h (hA ▸ free))
  | runlock m1 m2 u p n h hr => rw [← hA]; exact key _ _ _ _ hA hB (.runlock p n h hr)
  | announce m1 m2 u p h free => rw [← hA]; exact key _ _ _ _ hA hB (.announce p h (hA ▸ free))
  | acquire m1 m2 u p h ha free => rw [← hA]; exact key _ _ _ _ hA hB (.acquire p h ha (hA ▸ free))
  | unlock m1 m2 u p h hw => rw [← hA]; exact key _ _ _ _ hA hB (.unlock p h hw)

theorem LockRun.place {n : Nat} {ts ts' : List Thread} (r : LockRun n ts ts') (h0 : ∀ t, t ∈ ts → Place t) :
    ∀ t, t ∈ ts' → Place t := by
  refine r.each h0 ?_
  intro l1 l2 t t' hp s
  have hpt := hp t (by simp)
  have hm := step_move s
  cases hpt with
  | outside h =>
    cases h with
    | nil => cases hm <;> first | exact .outside .nil | (rename_i h' _; cases h') | (rename_i h' _ _; cases h')
    | read h =>
      cases hm with
      | same => exact .outside (.read h)
      | rlock p h' _ => cases h'; exact .reading h
      | runlock p n h' _ => cases h'
      | announce p h' _ => cases h'
      | acquire p h' _ _ => cases h'
      | unlock p h' _ => cases h'
    | write h =>
      cases hm with
      | same => exact .outside (.write h)
      | rlock p h' _ => cases h'
      | runlock p n h' _ => cases h'
      | announce p h' _ => cases h'; exact .waiting h
      | acquire p h' ha _ => cases ha
      | unlock p h' _ => cases h'
  | reading h =>
    cases hm with
    | same => exact .reading h
    | rlock p h' _ => cases h'
    | runlock p n h' hr => cases h'; cases hr; exact .outside h
    | announce p h' _ => cases h'
    | acquire p h' _ _ => cases h'
    | unlock p h' _ => cases h'
  | waiting h =>
    cases hm with
    | same => exact .waiting h
    | rlock p h' _ => cases h'
    | runlock p n h' hr => cases h'
    | announce p h' free => exact absurd (free _ (List.mem_append_right _ List.mem_cons_self)).1 (by simp)
    | acquire p h' _ _ => cases h'; exact .writing h
    | unlock p h' _ => cases h'
  | writing h =>
    cases hm with
    | same => exact .writing h
    | rlock p h' _ => cases h'
    | runlock p n h' hr => cases h'
    | announce p h' _ => cases h'
    | acquire p h' _ _ => cases h'
    | unlock p h' _ => cases h'; exact .outside h

theorem mem_split' {ts : List Thread} {t : Thread} (h : t ∈ ts) : ∃ l1 l2, ts = l1 ++ t :: l2 := List.append_of_mem h

/-- while somebody has something to do, somebody can do something -/
theorem place_progress {ts : List Thread} (hp : ∀ t, t ∈ ts → Place t) {t : Thread} (ht : t ∈ ts) (hne : t.todo ≠ []) :
    ∃ ts', LockStep ts ts' := by
  by_cases hw : ∃ u, u ∈ ts ∧ u.writing = true
  · obtain ⟨u, hu, hw⟩ := hw
    obtain ⟨l1, l2, rfl⟩ := mem_split' hu
    have := hp u hu
    cases this with
    | outside h => cases hw
    | reading h => cases hw
    | waiting h => cases hw
    | writing h => exact ⟨_, .unlock l1 l2 _ _ rfl rfl⟩
  by_cases hr : ∃ u, u ∈ ts ∧ u.reads ≠ 0
  · obtain ⟨u, hu, hr⟩ := hr
    obtain ⟨l1, l2, rfl⟩ := mem_split' hu
    have := hp u hu
    cases this with
    | outside h => exact absurd rfl hr
    | reading h => exact ⟨_, .runlock l1 l2 _ _ 0 rfl rfl⟩
    | waiting h => exact absurd rfl hr
    | writing h => exact absurd rfl hr
  have nr : NoReader ts := fun u hu => by
    cases h : u.reads with
    | zero => rfl
    | succ n => exact absurd ⟨u, hu, by rw [h]; simp⟩ hr
  by_cases ha : ∃ u, u ∈ ts ∧ u.announced = true
  · obtain ⟨u, hu, ha⟩ := ha
    obtain ⟨l1, l2, rfl⟩ := mem_split' hu
    have := hp u hu
    cases this with
    | outside h => cases ha
    | reading h => cases ha
    | waiting h => exact ⟨_, .acquire l1 l2 _ _ rfl rfl nr⟩
    | writing h => cases ha
  have nw : NoWriter ts := fun u hu => by
    refine ⟨?_, ?_⟩
    · cases h : u.announced with
      | false => rfl
      | true => exact absurd ⟨u, hu, h⟩ ha
    · cases h : u.writing with
      | false => rfl
      | true => exact absurd ⟨u, hu, h⟩ hw
  obtain ⟨l1, l2, rfl⟩ := mem_split' ht
  have := hp t ht
  cases this with
  | outside h =>
    cases h with
    | nil => exact absurd rfl hne
    | read h => exact ⟨_, .rlock l1 l2 _ _ rfl nw⟩
    | write h => exact ⟨_, .announce l1 l2 _ _ rfl nw⟩
  | reading h => exact ⟨_, .runlock l1 l2 _ _ 0 rfl rfl⟩
  | waiting h => exact ⟨_, .acquire l1 l2 _ _ rfl rfl nr⟩
  | writing h => exact ⟨_, .unlock l1 l2 _ _ rfl rfl⟩

/-- read locks only, each given back -/
inductive Reads : Nat → List LockOp → Prop where
  | nil : Reads 0 []
  | rlock {n : Nat} {p : List LockOp} (h : Reads (n + 1) p) : Reads n (.rlock :: p)
  | runlock {n : Nat} {p : List LockOp} (h : Reads n p) : Reads (n + 1) (.runlock :: p)

theorem Reads.append {n : Nat} {p q : List LockOp} (h : Reads n p) {k : Nat} (hq : Reads k q) : Reads (n + k) (p ++ q) := by
  induction h with
  | nil => simpa using hq
  | rlock _ ih => exact .rlock (by have := ih; rwa [Nat.add_right_comm] at this)
  | @runlock n p _ ih => rw [Nat.add_right_comm]; exact .runlock ih

theorem Reads.of_rlock {n : Nat} {q p : List LockOp} (h : Reads n q) (e : q = .rlock :: p) : Reads (n + 1) p := by
  cases h with
  | nil => cases e
  | rlock h => cases e; exact h
  | runlock h => cases e

theorem Reads.of_runlock {n m : Nat} {q p : List LockOp} (h : Reads n q) (e : q = .runlock :: p) (hn : n = m + 1) : Reads m p := by
  cases h with
  | nil => cases e
  | rlock h => cases e
  | runlock h => cases e; cases hn; exact h

theorem Reads.no_lock {n : Nat} {q p : List LockOp} (h : Reads n q) (e : q = .lock :: p) : False := by
  cases h <;> cases e

theorem Reads.no_unlock {n : Nat} {q p : List LockOp} (h : Reads n q) (e : q = .unlock :: p) : False := by
  cases h <;> cases e

/-- the method does not change the store -/
def readsOnly (m : Method) : Prop := m ≠ .putBlock ∧ m ≠ .putMicroBlock ∧ m ≠ .moveLeash

theorem reads_pairs (n : Nat) : Reads 0 (List.replicate n [LockOp.rlock, .runlock]).flatten := by
  induction n with
  | zero => exact .nil
  | succ n ih => exact .rlock (.runlock ih)

theorem reads_ops {m : Method} (h : readsOnly m) : Reads 0 m.ops := by
  cases m with
  | putBlock => exact absurd rfl h.1
  | putMicroBlock => exact absurd rfl h.2.1
  | moveLeash => exact absurd rfl h.2.2
  | logInitialStats n =>
    refine .rlock ?_
    have := (reads_pairs n).append (.runlock .nil : Reads 1 [.runlock])
    simpa using this
  | _ => exact .rlock (.runlock .nil)

theorem reads_calls : ∀ (calls : List Method), (∀ m, m ∈ calls → readsOnly m) → Reads 0 (calls.flatMap Method.ops)
  | [], _ => .nil
  | m :: ms, h => by
    have := (reads_ops (h m (by simp))).append (reads_calls ms (fun m hm => h m (by simp [hm])))
    simpa using this

/-- a goroutine that only reads -/
structure Reader (t : Thread) : Prop where
  quiet : t.announced = false ∧ t.writing = false
  reads : Reads t.reads t.todo

theorem LockRun.reader {n : Nat} {ts ts' : List Thread} (r : LockRun n ts ts') (h0 : ∀ t, t ∈ ts → Reader t) :
    ∀ t, t ∈ ts' → Reader t := by
  refine r.each h0 ?_
  intro l1 l2 t t' hp s
  have hpt := hp t (by simp)
  have hm := step_move s
  obtain ⟨hq, hr⟩ := hpt
  cases hm with
  | same => exact ⟨hq, hr⟩
  | rlock p h' _ => exact ⟨hq, hr.of_rlock h'⟩
  | runlock p n h' hn => exact ⟨hq, hr.of_runlock h' hn⟩
  | announce p h' _ => exact (hr.no_lock h').elim
  | acquire p h' _ _ => exact (hr.no_lock h').elim
  | unlock p h' _ => exact (hr.no_unlock h').elim

theorem reader_progress {ts : List Thread} (hp : ∀ t, t ∈ ts → Reader t) {t : Thread} (ht : t ∈ ts) (hne : t.todo ≠ []) :
    ∃ ts', LockStep ts ts' := by
  have nw : NoWriter ts := fun u hu => (hp u hu).quiet
  obtain ⟨l1, l2, rfl⟩ := mem_split' ht
  obtain ⟨_, hr⟩ := hp t ht
  obtain ⟨n, a, w, p⟩ := t
  cases hr with
  | nil => exact absurd rfl hne
  | rlock h => exact ⟨_, .rlock l1 l2 _ _ rfl nw⟩
  | runlock h => exact ⟨_, .runlock l1 l2 _ _ _ rfl rfl⟩

/-! ### exclusion -/

def Thread.busy (t : Thread) : Bool := t.announced || t.writing

/-- at most one writer is inside or waiting for the readers, and a writer that is inside is alone -/
structure Exclusive (ts : List Thread) : Prop where
  one : ts.countP Thread.busy ≤ 1
  alone : (∃ t, t ∈ ts ∧ t.writing = true) → NoReader ts

theorem countP_noWriter {ts : List Thread} (h : NoWriter ts) : ts.countP Thread.busy = 0 := by
  rw [List.countP_eq_zero]
  intro t ht
  simp [Thread.busy, h t ht]

theorem exclusive_step {ts ts' : List Thread} (E : Exclusive ts) (s : LockStep ts ts') : Exclusive ts' := by
  obtain ⟨one, alone⟩ := E
  cases s with
  | rlock l1 l2 t p h free =>
    refine ⟨?_, ?_⟩
    · simpa [List.countP_append, List.countP_cons, Thread.busy] using one
    · rintro ⟨u, hu, hw⟩
      exfalso
      rcases List.mem_append.mp hu with hu | hu
      · have := (free u (by simp [hu])).2; rw [hw] at this; cases this
      · rcases List.mem_cons.mp hu with rfl | hu
        · have := (free t (by simp)).2; simp only at hw; rw [hw] at this; cases this
        · have := (free u (by simp [hu])).2; rw [hw] at this; cases this
  | runlock l1 l2 t p n h hr =>
    refine ⟨by simpa [List.countP_append, List.countP_cons, Thread.busy] using one, ?_⟩
    rintro ⟨u, hu, hw⟩
    have hnr : NoReader (l1 ++ t :: l2) := by
      refine alone ?_
      rcases List.mem_append.mp hu with hu | hu
      · exact ⟨u, by simp [hu], hw⟩
      · rcases List.mem_cons.mp hu with rfl | hu
        · exact ⟨t, by simp, hw⟩
        · exact ⟨u, by simp [hu], hw⟩
    have := hnr t (by simp)
    omega
  | announce l1 l2 t p h free =>
    have h0 := countP_noWriter free
    refine ⟨?_, ?_⟩
    · simp only [List.countP_append, List.countP_cons] at h0 ⊢
      split <;> omega
    · rintro ⟨u, hu, hw⟩
      exfalso
      rcases List.mem_append.mp hu with hu | hu
      · have := (free u (by simp [hu])).2; rw [hw] at this; cases this
      · rcases List.mem_cons.mp hu with rfl | hu
        · have := (free t (by simp)).2; simp only at hw; rw [hw] at this; cases this
        · have := (free u (by simp [hu])).2; rw [hw] at this; cases this
  | acquire l1 l2 t p h ha free =>
    refine ⟨?_, ?_⟩
    · simpa [List.countP_append, List.countP_cons, Thread.busy, ha] using one
    · intro _ u hu
      rcases List.mem_append.mp hu with hu | hu
      · exact free u (by simp [hu])
      · rcases List.mem_cons.mp hu with rfl | hu
        · exact free t (by simp)
        · exact free u (by simp [hu])
  | unlock l1 l2 t p h hw =>
    refine ⟨?_, ?_⟩
    · simp only [List.countP_append, List.countP_cons, Thread.busy, hw] at one ⊢
      simp at one ⊢
      cases t.announced <;> simp <;> omega
    · intro _ u hu
      have hnr := alone ⟨t, by simp, hw⟩
      rcases List.mem_append.mp hu with hu | hu
      · exact hnr u (by simp [hu])
      · rcases List.mem_cons.mp hu with rfl | hu
        · exact hnr t (by simp)
        · exact hnr u (by simp [hu])

theorem LockRun.exclusive {n : Nat} {ts ts' : List Thread} (r : LockRun n ts ts') (E : Exclusive ts) : Exclusive ts' := by
  induction r with
  | nil ts => exact E
  | snoc h s ih => exact exclusive_step (ih E) s

theorem exclusive_start (calls : List (List Method)) : Exclusive (calls.map Thread.start) := by
  refine ⟨?_, ?_⟩
  · rw [countP_noWriter]
    · omega
    · intro t ht
      obtain ⟨c, _, rfl⟩ := List.mem_map.mp ht
      exact ⟨rfl, rfl⟩
  · rintro ⟨t, ht, hw⟩
    obtain ⟨c, _, rfl⟩ := List.mem_map.mp ht
    cases hw

end Verif.Services
