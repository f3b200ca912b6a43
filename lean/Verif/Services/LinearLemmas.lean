import Verif.Services.Linear
/-
The calls of concurrent goroutines take effect one after the other.
-/

set_option autoImplicit false

namespace Verif.Services

variable {σ ρ : Type}

/-- the code inside the write lock -/
inductive Body : Code σ ρ → Prop where
  | unlock (r : ρ) : Body (.op .unlock (.ret r))
  | act (f : σ → σ) (k : σ → Code σ ρ) (h : ∀ s, Body (k s)) : Body (.act f k)

/-- the code inside `n` read locks -/
inductive Nested : Nat → Code σ ρ → Prop where
  | ret (r : ρ) : Nested 0 (.ret r)
  | rlock (n : Nat) (k : Code σ ρ) (h : Nested (n + 2) k) : Nested (n + 1) (.op .rlock k)
  | runlock (n : Nat) (k : Code σ ρ) (h : Nested n k) : Nested (n + 1) (.op .runlock k)
  | act (n : Nat) (f : σ → σ) (k : σ → Code σ ρ) (hf : ∀ s, f s = s) (h : ∀ s, Nested (n + 1) (k s)) : Nested (n + 1) (.act f k)

/-- code that locks or read-locks -/
inductive Fair : Code σ ρ → Prop where
  | lock (k : Code σ ρ) (h : Body k) : Fair (.op .lock k)
  | rlock (k : Code σ ρ) (h : Nested 1 k) : Fair (.op .rlock k)

/-- the operations bring `n` read locks to none, and only the last one does -/
inductive Balanced : Nat → List LockOp → Prop where
  | nil : Balanced 0 []
  | rlock (n : Nat) (os : List LockOp) (h : Balanced (n + 2) os) : Balanced (n + 1) (.rlock :: os)
  | runlock (n : Nat) (os : List LockOp) (h : Balanced n os) : Balanced (n + 1) (.runlock :: os)

theorem keeps_body {ch : Bool} {k : Code σ ρ} (h : Keeps ch [.unlock] k) : Body k := by
  generalize hos : [LockOp.unlock] = os at h
  induction h with
  | ret => cases hos
  | op o os k h ih =>
    cases hos
    cases h with
    | ret r => exact .unlock r
  | act o os f k hf h ih => exact .act f k (fun s => ih s hos)

theorem keeps_nested {os : List LockOp} {k : Code σ ρ} (h : Keeps false os k) {n : Nat} (hb : Balanced n os) : Nested n k := by
  induction h generalizing n with
  | ret r => cases hb; exact .ret r
  | op o os k h ih =>
    cases hb with
    | rlock n os h' => exact .rlock n k (ih h')
    | runlock n os h' => exact .runlock n k (ih h')
  | act o os f k hf h ih =>
    cases hb with
    | rlock n os h' => exact .act n f k (hf rfl) (fun s => ih s (.rlock n os h'))
    | runlock n os h' => exact .act n f k (hf rfl) (fun s => ih s (.runlock n os h'))

theorem balanced_nested (n : Nat) : Balanced 1 ((List.replicate n [LockOp.rlock, .runlock]).flatten ++ [.runlock]) := by
  induction n with
  | zero => exact .runlock 0 [] .nil
  | succ n ih =>
    simp only [List.replicate_succ, List.flatten_cons, List.cons_append, List.nil_append]
    exact .rlock 0 _ (.runlock 1 _ ih)

theorem codeOf_fair {m : Method} {c : Code σ ρ} (h : CodeOf m c) : Fair c := by
  obtain ⟨o, os, k, ho, rfl, hk⟩ := h
  have shared : ∀ {m : Method} {o : LockOp} {os : List LockOp}, Keeps m.changes os k → m.changes = false →
      LockOp.rlock :: [LockOp.runlock] = o :: os → Fair (.op o k) := by
    intro m o os hk hc ho
    cases ho
    rw [hc] at hk
    exact .rlock k (keeps_nested hk (.runlock 0 [] .nil))
  cases m with
  | putBlock => cases ho; exact .lock k (keeps_body hk)
  | putMicroBlock => cases ho; exact .lock k (keeps_body hk)
  | moveLeash => cases ho; exact .lock k (keeps_body hk)
  | logInitialStats n =>
    cases ho
    exact .rlock k (keeps_nested hk (balanced_nested n))
  | _ => exact shared hk rfl ho

theorem registry_fair {c : Code σ ρ} (h : RegistryCode c) : Fair c := by
  obtain ⟨k, rfl, hk⟩ := h
  exact .lock k (keeps_body hk)

/-- where a goroutine is, when `a` is the state after the calls that have returned and `mem` the present one -/
inductive Phase (a mem : σ) : Client σ ρ → Prop where
  | outside (todo : List (Code σ ρ)) : Phase a mem ⟨0, false, false, none, todo⟩
  | before (todo : List (Code σ ρ)) (c : Code σ ρ) (ann : Bool) (hf : Fair c) (ha : ann = true → ∃ k, c = .op .lock k) :
      Phase a mem ⟨0, ann, false, some (c, c), todo⟩
  | reading (todo : List (Code σ ρ)) (c k : Code σ ρ) (n : Nat) (h : Nested (n + 1) k) (hk : k.run a = c.run a) :
      Phase a mem ⟨n + 1, false, false, some (c, k), todo⟩
  | writing (todo : List (Code σ ρ)) (c k : Code σ ρ) (h : Body k) (hk : k.run mem = c.run a) :
      Phase a mem ⟨0, false, true, some (c, k), todo⟩

structure Lin (s0 : σ) (s : System σ ρ) (a : σ) : Prop where
  serial : Serial s0 s.log a
  phase : ∀ i, Phase a s.mem (s.cl i)
  fair : ∀ i c, c ∈ (s.cl i).todo → Fair c
  one : ∀ i j, i ≠ j → ((s.cl i).announced = true ∨ (s.cl i).writing = true) → (s.cl j).announced = false ∧ (s.cl j).writing = false
  alone : ∀ i j, (s.cl i).writing = true → (s.cl j).reads = 0
  rest : (∀ i, (s.cl i).writing = false) → s.mem = a

theorem Phase.anyMem {a mem mem' : σ} {t : Client σ ρ} (h : Phase a mem t) (hw : t.writing = false) : Phase a mem' t := by
  cases h with
  | outside todo => exact .outside todo
  | before todo c ann hf ha => exact .before todo c ann hf ha
  | reading todo c k n h hk => exact .reading todo c k n h hk
  | writing todo c k h hk => cases hw

theorem Phase.anyState {a a' mem mem' : σ} {t : Client σ ρ} (h : Phase a mem t) (hw : t.writing = false) (hr : t.reads = 0) :
    Phase a' mem' t := by
  cases h with
  | outside todo => exact .outside todo
  | before todo c ann hf ha => exact .before todo c ann hf ha
  | reading todo c k n h hk => cases hr
  | writing todo c k h hk => cases hw

theorem set_cl (s : System σ ρ) (i j : Nat) (t : Client σ ρ) : (s.set i t).cl j = if j = i then t else s.cl j := rfl

theorem Lin.start (s0 : σ) (calls : Nat → List (Code σ ρ)) (h : ∀ i c, c ∈ calls i → Fair c) : Lin s0 (System.start s0 calls) s0 :=
  ⟨.nil, fun i => .outside (calls i), h, (fun i j _ hb => by rcases hb with hb | hb <;> cases hb), (fun i j hw => by cases hw), fun _ => rfl⟩

/-- one goroutine changes its place; the mutex conditions carry over -/
theorem Lin.move {s0 a : σ} {s : System σ ρ} (L : Lin s0 s a) (i : Nat) (t : Client σ ρ)
    (hp : Phase a s.mem t) (hf : ∀ c, c ∈ t.todo → Fair c)
    (hb : t.announced = true ∨ t.writing = true → ∀ j, j ≠ i → (s.cl j).announced = false ∧ (s.cl j).writing = false)
    (hb' : t.announced = false ∧ t.writing = false ∨ ∀ j, j ≠ i → (s.cl j).announced = false ∧ (s.cl j).writing = false)
    (hw : t.writing = true → ∀ j, j ≠ i → (s.cl j).reads = 0) (hw' : t.writing = true → t.reads = 0)
    (hr : t.reads ≠ 0 → ∀ j, j ≠ i → (s.cl j).writing = false)
    (hm : t.writing = false → (s.cl i).writing = false) : Lin s0 (s.set i t) a := by
  refine ⟨L.serial, fun j => ?_, fun j c hc => ?_, fun j k hjk hjb => ?_, fun j k hjw => ?_, fun hall => ?_⟩
  · rw [set_cl]; split
    · exact hp
    · exact L.phase j
  · rw [set_cl] at hc; split at hc
    · exact hf c hc
    · exact L.fair j c hc
  · rw [set_cl] at hjb; rw [set_cl]
    split at hjb
    · rename_i e; subst e
      rw [if_neg (Ne.symm hjk)]
      exact hb hjb k (Ne.symm hjk)
    · rename_i e
      split
      · rcases hb' with h | h
        · exact h
        · have := h j e
          rcases hjb with hjb | hjb
          · rw [this.1] at hjb; cases hjb
          · rw [this.2] at hjb; cases hjb
      · exact L.one j k hjk hjb
  · rw [set_cl] at hjw; rw [set_cl]
    split at hjw
    · split
      · exact hw' hjw
      · rename_i e; exact hw hjw k e
    · rename_i e
      split
      · apply Classical.byContradiction
        intro h
        have := hr h j e
        rw [this] at hjw; cases hjw
      · exact L.alone j k hjw
  · have hi : t.writing = false := by
      have := hall i
      rw [set_cl, if_pos rfl] at this
      exact this
    refine L.rest (fun j => ?_)
    by_cases hj : j = i
    · rw [hj]; exact hm hi
    · have := hall j
      rw [set_cl, if_neg hj] at this
      exact this

theorem left_some {c k : Code σ ρ} (h : ∀ r, k ≠ .ret r) : left c k = some (c, k) := by
  cases k with
  | ret r => exact absurd rfl (h r)
  | op => rfl
  | act => rfl

theorem record_nil {i : Nat} {c k : Code σ ρ} (h : ∀ r, k ≠ .ret r) : record i c k = [] := by
  cases k with
  | ret r => exact absurd rfl (h r)
  | op => rfl
  | act => rfl

theorem nested_not_ret {n : Nat} {k : Code σ ρ} (h : Nested (n + 1) k) (r : ρ) : k ≠ .ret r := by
  cases h <;> simp

theorem Lin.step {s0 a : σ} {s s' : System σ ρ} (L : Lin s0 s a) (h : SysStep s s') : ∃ a', Lin s0 s' a' := by
  cases h with
  | begin i c cs hc h =>
    refine ⟨a, ?_⟩
    have hp := L.phase i
    have hfi := L.fair i
    have hm : (s.cl i).writing = (s.cl i).writing := rfl
    generalize hi : s.cl i = t at hp hfi h hc ⊢
    cases hp with
    | outside todo =>
      cases h
      exact L.move i _ (.before cs c false (hfi c (by simp)) (by simp)) (fun x hx => hfi x (by simp [hx]))
        (by simp) (Or.inl ⟨rfl, rfl⟩) (by simp) (by simp) (by simp) (fun _ => by rw [hi])
    | _ => cases hc
  | rlock i c k h free =>
    refine ⟨a, ?_⟩
    have hp := L.phase i
    have hfi := L.fair i
    generalize hi : s.cl i = t at hp hfi h ⊢
    cases hp with
    | outside todo => cases h
    | before todo c' ann hf ha =>
      have hann : ann = false := by have := (free i).1; rw [hi] at this; exact this
      subst hann
      cases hf with
      | lock k' hb => cases h
      | rlock k' hn =>
        cases h
        exact L.move i _ (.reading todo _ k 0 hn rfl) hfi (by simp) (Or.inl ⟨rfl, rfl⟩) (by simp) (by simp) (fun _ j _ => (free j).2)
          (fun _ => by rw [hi])
    | reading todo c' k' n hn hk =>
      cases h
      cases hn with
      | rlock n k' hn' =>
        exact L.move i _ (.reading todo _ k (n + 1) hn' hk) hfi (by simp) (Or.inl ⟨rfl, rfl⟩) (by simp) (by simp) (fun _ j _ => (free j).2)
          (fun _ => by rw [hi])
    | writing todo c' k' hb hk => cases h; cases hb
  | runlock i c k n h hr =>
    have hp := L.phase i
    have hfi := L.fair i
    have halone := fun j => L.alone j i
    generalize hi : s.cl i = t at hp hfi h hr halone ⊢
    cases hp with
    | outside todo => cases h
    | before todo c' ann hf ha => cases hf <;> cases h
    | writing todo c' k' hb hk => cases h; cases hb
    | reading todo c' k' m hn hk =>
      cases h; cases hr
      have nw : ∀ j, (s.cl j).writing = false := fun j => by
        cases hw : (s.cl j).writing with
        | false => rfl
        | true => have := halone j hw; simp at this
      refine ⟨a, ?_⟩
      cases hn with
      | runlock n k' hn' =>
        cases hn' with
        | ret r =>
          have M := L.move i ⟨0, false, false, none, todo⟩ (.outside todo) hfi (by simp) (Or.inl ⟨rfl, rfl⟩) (by simp) (by simp) (by simp)
            (fun _ => by rw [hi])
          exact ⟨.snoc s.log a a ⟨i, c, r⟩ L.serial hk.symm, M.phase, M.fair, M.one, M.alone, M.rest⟩
        | rlock n k hn' =>
          have M := L.move i ⟨n + 1, false, false, some (c, .op .rlock k), todo⟩ (.reading todo _ _ n (.rlock n k hn') hk) hfi (by simp) (Or.inl ⟨rfl, rfl⟩)
            (by simp) (by simp) (fun _ j _ => nw j) (fun _ => by rw [hi])
          exact ⟨by simpa [record] using L.serial, M.phase, M.fair, M.one, M.alone, M.rest⟩
        | runlock n k hn' =>
          have M := L.move i ⟨n + 1, false, false, some (c, .op .runlock k), todo⟩ (.reading todo _ _ n (.runlock n k hn') hk) hfi (by simp) (Or.inl ⟨rfl, rfl⟩)
            (by simp) (by simp) (fun _ j _ => nw j) (fun _ => by rw [hi])
          exact ⟨by simpa [record] using L.serial, M.phase, M.fair, M.one, M.alone, M.rest⟩
        | act n f k hf hn' =>
          have M := L.move i ⟨n + 1, false, false, some (c, .act f k), todo⟩ (.reading todo _ _ n (.act n f k hf hn') hk) hfi (by simp) (Or.inl ⟨rfl, rfl⟩)
            (by simp) (by simp) (fun _ j _ => nw j) (fun _ => by rw [hi])
          exact ⟨by simpa [record] using L.serial, M.phase, M.fair, M.one, M.alone, M.rest⟩
  | announce i c k h free =>
    refine ⟨a, ?_⟩
    have hp := L.phase i
    have hfi := L.fair i
    generalize hi : s.cl i = t at hp hfi h ⊢
    cases hp with
    | outside todo => cases h
    | before todo c' ann hf ha =>
      cases h
      exact L.move i _ (.before todo _ true hf (fun _ => ⟨k, rfl⟩)) hfi (fun _ j _ => free j) (Or.inr (fun j _ => free j)) (by simp) (by simp) (by simp)
        (fun _ => by rw [hi])
    | reading todo c' k' n hn hk => cases h; cases hn
    | writing todo c' k' hb hk => cases h; cases hb
  | acquire i c k h ha free =>
    refine ⟨a, ?_⟩
    have hp := L.phase i
    have hfi := L.fair i
    have hone : ∀ j, j ≠ i → (s.cl j).announced = false ∧ (s.cl j).writing = false := fun j hj => L.one i j (Ne.symm hj) (Or.inl ha)
    have hmem : (s.cl i).writing = false → s.mem = a := fun hwi => L.rest (fun j => by
      by_cases hj : j = i
      · rw [hj]; exact hwi
      · exact (hone j hj).2)
    generalize hi : s.cl i = t at hp hfi h ha hmem ⊢
    cases hp with
    | outside todo => cases h
    | before todo c' ann hf ha' =>
      cases h
      cases hf with
      | lock k hb =>
        exact L.move i _ (.writing todo _ k hb (by rw [hmem rfl]; rfl)) hfi (fun _ => hone) (Or.inr hone) (fun _ j _ => free j) (fun _ => rfl)
          (by simp) (by simp)
    | reading todo c' k' n hn hk => cases ha
    | writing todo c' k' hb hk => cases ha
  | unlock i c k h hw =>
    have hp := L.phase i
    have hfi := L.fair i
    have hone : ∀ j, j ≠ i → (s.cl j).announced = false ∧ (s.cl j).writing = false := fun j hj => L.one i j (Ne.symm hj) (Or.inr hw)
    have halone := fun j => L.alone i j hw
    generalize hi : s.cl i = t at hp hfi h hw ⊢
    cases hp with
    | outside todo => cases h
    | before todo c' ann hf ha' => cases hw
    | reading todo c' k' n hn hk => cases hw
    | writing todo c' k' hb hk =>
      cases h
      cases hb with
      | unlock r =>
        refine ⟨s.mem, .snoc s.log a s.mem ⟨i, c, r⟩ L.serial hk.symm, fun j => ?_, fun j x hx => ?_, fun j l hjl hb => ?_, fun j l hw' => ?_, fun _ => rfl⟩
        · show Phase s.mem s.mem ((s.set i _).cl j)
          rw [set_cl]; split
          · exact .outside todo
          · rename_i hj
            exact (L.phase j).anyState (hone j hj).2 (halone j)
        · change x ∈ ((s.set i _).cl j).todo at hx
          rw [set_cl] at hx; split at hx
          · exact hfi x hx
          · exact L.fair j x hx
        · change ((s.set i _).cl j).announced = true ∨ ((s.set i _).cl j).writing = true at hb
          rw [set_cl] at hb; split at hb
          · rcases hb with hb | hb <;> cases hb
          · rename_i hj
            rw [(hone j hj).1, (hone j hj).2] at hb
            rcases hb with hb | hb <;> cases hb
        · change ((s.set i _).cl j).writing = true at hw'
          rw [set_cl] at hw'; split at hw'
          · cases hw'
          · rename_i hj
            rw [(hone j hj).2] at hw'; cases hw'
  | act i c f k h =>
    have hp := L.phase i
    have hfi := L.fair i
    have hone : (s.cl i).writing = true → ∀ j, j ≠ i → (s.cl j).announced = false ∧ (s.cl j).writing = false :=
      fun hw j hj => L.one i j (Ne.symm hj) (Or.inr hw)
    have halone := fun j => L.alone j i
    have halone' := fun j => L.alone i j
    generalize hi : s.cl i = t at hp hfi h hone halone halone' ⊢
    cases hp with
    | outside todo => cases h
    | before todo c' ann hf ha' => cases hf <;> cases h
    | reading todo c' k' n hn hk =>
      cases h
      have nw : ∀ j, (s.cl j).writing = false := fun j => by
        cases hw : (s.cl j).writing with
        | false => rfl
        | true => have := halone j hw; simp at this
      have hma := L.rest nw
      cases hn with
      | act n f k hf hn' =>
        refine ⟨a, ?_⟩
        have M := L.move i ⟨n + 1, false, false, some (c, k s.mem), todo⟩ (.reading todo _ _ n (hn' s.mem) (by
          rw [← hk, hma]; show _ = (k a).run (f a); rw [hf])) hfi (by simp) (Or.inl ⟨rfl, rfl⟩)
          (by simp) (by simp) (fun _ j _ => nw j) (fun _ => by rw [hi])
        rw [hf]
        exact ⟨M.serial, M.phase, M.fair, M.one, M.alone, M.rest⟩
    | writing todo c' k' hb hk =>
      cases h
      cases hb with
      | act f k hb' =>
        refine ⟨a, L.serial, fun j => ?_, fun j x hx => ?_, fun j l hjl hb => ?_, fun j l hw' => ?_, fun hall => ?_⟩
        · show Phase a (f s.mem) ((s.set i _).cl j)
          rw [set_cl]; split
          · exact .writing todo c _ (hb' s.mem) hk
          · rename_i hj
            exact (L.phase j).anyMem (hone rfl j hj).2
        · change x ∈ ((s.set i _).cl j).todo at hx
          rw [set_cl] at hx; split at hx
          · exact hfi x hx
          · exact L.fair j x hx
        · change ((s.set i _).cl j).announced = true ∨ ((s.set i _).cl j).writing = true at hb
          show ((s.set i _).cl l).announced = false ∧ ((s.set i _).cl l).writing = false
          rw [set_cl] at hb ⊢
          split at hb
          · rename_i hj
            rw [if_neg (by rw [← hj]; exact Ne.symm hjl)]
            exact hone rfl l (by rw [← hj]; exact Ne.symm hjl)
          · rename_i hj
            rw [(hone rfl j hj).1, (hone rfl j hj).2] at hb
            rcases hb with hb | hb <;> cases hb
        · show ((s.set i _).cl l).reads = 0
          rw [set_cl]; split
          · rfl
          · exact halone' l rfl
        · have := hall i
          change ((s.set i _).cl i).writing = false at this
          rw [set_cl, if_pos rfl] at this; cases this

theorem SysRun.lin {s0 a : σ} {s s' : System σ ρ} (L : Lin s0 s a) (h : SysRun s s') : ∃ a', Lin s0 s' a' := by
  induction h with
  | nil => exact ⟨a, L⟩
  | snoc _ t ih =>
    obtain ⟨a', L'⟩ := ih
    exact L'.step t

/-! ### the order of the calls -/

theorem calls_same {s s' : System σ ρ} {i : Nat} (hl : s'.log = s.log)
    (hc : ∀ j, (s'.cl j).cur.map (fun x => x.1) = (s.cl j).cur.map (fun x => x.1) ∧ (s'.cl j).todo = (s.cl j).todo) :
    s'.calls i = s.calls i := by
  unfold System.calls
  rw [hl, (hc i).1, (hc i).2]

theorem calls_released {s : System σ ρ} {i j : Nat} {c k k0 : Code σ ρ} {t : Client σ ρ} (hc : (s.cl i).cur = some (c, k0)) (ht : t.cur = left c k)
    (hd : t.todo = (s.cl i).todo) :
    System.calls { s.set i t with log := s.log ++ record i c k } j = s.calls j := by
  unfold System.calls
  show (List.filter _ (s.log ++ record i c k)).map _ ++ ((((s.set i t).cl j).cur.map _).toList ++ ((s.set i t).cl j).todo) = _
  rw [set_cl]
  by_cases hj : j = i
  · subst hj
    rw [if_pos rfl, ht, hd, hc]
    cases k <;> simp [left, record, List.filter_append]
  · rw [if_neg hj]
    have : (record i c k).filter (fun x => x.who == j) = [] := by
      cases k <;> simp [record, Ne.symm hj]
    rw [List.filter_append, this, List.append_nil]

theorem calls_step {s s' : System σ ρ} (h : SysStep s s') (j : Nat) : s'.calls j = s.calls j := by
  have upd : ∀ (i : Nat) (t : Client σ ρ), t.cur.map (fun x => x.1) = (s.cl i).cur.map (fun x => x.1) → t.todo = (s.cl i).todo →
      (s.set i t).calls j = s.calls j := by
    intro i t h1 h2
    refine calls_same rfl (fun l => ?_)
    rw [set_cl]
    split
    · rename_i e; subst e; exact ⟨h1, h2⟩
    · exact ⟨rfl, rfl⟩
  cases h with
  | begin i c cs hc h =>
    unfold System.calls
    rw [set_cl]
    split
    · rename_i e; subst e
      simp [hc, h, System.set]
    · rfl
  | rlock i c k h free => exact upd i _ (by simp [h]) rfl
  | runlock i c k n h hr => exact calls_released h rfl rfl
  | announce i c k h free => exact upd i _ (by simp) rfl
  | acquire i c k h ha free => exact upd i _ (by simp [h]) rfl
  | unlock i c k h hw => exact calls_released h rfl rfl
  | act i c f k h => exact upd i _ (by simp [h]) rfl

theorem log_step {s s' : System σ ρ} (h : SysStep s s') : s.log <+: s'.log := by
  cases h with
  | runlock => exact List.prefix_append _ _
  | unlock => exact List.prefix_append _ _
  | _ => exact List.prefix_refl _

end Verif.Services
