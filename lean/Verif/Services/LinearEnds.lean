import Verif.Services.LinearLemmas
/-
Every schedule of goroutines that make finitely many calls ends, and it ends only when all calls have returned.
-/

set_option autoImplicit false

namespace Verif.Services

variable {σ ρ : Type}

/-! ### no goroutine waits for ever -/

/-- the code inside one read lock -/
inductive OneReader : Code σ ρ → Prop where
  | runlock (r : ρ) : OneReader (.op .runlock (.ret r))
  | act (f : σ → σ) (k : σ → Code σ ρ) (h : ∀ s, OneReader (k s)) : OneReader (.act f k)

/-- code that locks or read-locks once -/
inductive Simple : Code σ ρ → Prop where
  | lock (k : Code σ ρ) (h : Body k) : Simple (.op .lock k)
  | rlock (k : Code σ ρ) (h : OneReader k) : Simple (.op .rlock k)

theorem keeps_oneReader {ch : Bool} {k : Code σ ρ} (h : Keeps ch [.runlock] k) : OneReader k := by
  generalize hos : [LockOp.runlock] = os at h
  induction h with
  | ret => cases hos
  | op o os k h ih =>
    cases hos
    cases h with
    | ret r => exact .runlock r
  | act o os f k hf h ih => exact .act f k (fun s => ih s hos)

theorem codeOf_simple {m : Method} {c : Code σ ρ} (h : CodeOf m c) (hm : ∀ n, m ≠ .logInitialStats n) : Simple c := by
  obtain ⟨o, os, k, ho, rfl, hk⟩ := h
  cases m with
  | putBlock => cases ho; exact .lock k (keeps_body hk)
  | putMicroBlock => cases ho; exact .lock k (keeps_body hk)
  | moveLeash => cases ho; exact .lock k (keeps_body hk)
  | logInitialStats n => exact absurd rfl (hm n)
  | _ => cases ho; exact .rlock k (keeps_oneReader hk)

theorem registry_simple {c : Code σ ρ} (h : RegistryCode c) : Simple c := by
  obtain ⟨k, rfl, hk⟩ := h
  exact .lock k (keeps_body hk)

/-- where a goroutine is -/
inductive Stage : Client σ ρ → Prop where
  | outside (todo : List (Code σ ρ)) : Stage ⟨0, false, false, none, todo⟩
  | before (todo : List (Code σ ρ)) (c k : Code σ ρ) (hs : Simple k) : Stage ⟨0, false, false, some (c, k), todo⟩
  | waiting (todo : List (Code σ ρ)) (c k : Code σ ρ) (h : Body k) : Stage ⟨0, true, false, some (c, .op .lock k), todo⟩
  | reading (todo : List (Code σ ρ)) (c k : Code σ ρ) (h : OneReader k) : Stage ⟨1, false, false, some (c, k), todo⟩
  | writing (todo : List (Code σ ρ)) (c k : Code σ ρ) (h : Body k) : Stage ⟨0, false, true, some (c, k), todo⟩

/-- all goroutines are at such places -/
structure Staged (s : System σ ρ) : Prop where
  stage : ∀ i, Stage (s.cl i)
  simple : ∀ i c, c ∈ (s.cl i).todo → Simple c

theorem Staged.start (mem : σ) (calls : Nat → List (Code σ ρ)) (h : ∀ i c, c ∈ calls i → Simple c) :
    Staged (System.start mem calls) := ⟨fun i => .outside (calls i), h⟩

theorem Staged.move {s s' : System σ ρ} (S : Staged s) (i : Nat) (t : Client σ ρ) (hs : ∀ j, s'.cl j = if j = i then t else s.cl j)
    (ht : Stage t) (hc : ∀ c, c ∈ t.todo → Simple c) : Staged s' := by
  constructor
  · intro j; rw [hs]; split
    · exact ht
    · exact S.stage j
  · intro j c hm; rw [hs] at hm; split at hm
    · exact hc c hm
    · exact S.simple j c hm

theorem Staged.step {s s' : System σ ρ} (S : Staged s) (h : SysStep s s') : Staged s' := by
  cases h with
  | begin i c cs hc h =>
    have hp := S.stage i
    have hf := S.simple i
    refine S.move i _ (fun _ => rfl) ?_ (fun c' hm => hf c' (by rw [h]; exact List.mem_cons_of_mem _ hm))
    rw [h] at hf
    generalize s.cl i = t at hp hc
    cases hp with
    | outside todo => exact .before cs c c (hf c List.mem_cons_self)
    | _ => cases hc
  | rlock i c k h free =>
    have hp := S.stage i
    refine S.move i _ (fun _ => rfl) ?_ (S.simple i)
    generalize s.cl i = t at hp h
    cases hp with
    | outside todo => cases h
    | before todo c' k' hs =>
      cases h
      cases hs with
      | rlock _ hr => exact .reading todo c k hr
    | waiting => cases h
    | reading todo c' k' hr => cases h; cases hr
    | writing todo c' k' hb => cases h; cases hb
  | runlock i c k n h hr =>
    have hp := S.stage i
    refine S.move i _ (fun _ => rfl) ?_ (S.simple i)
    generalize s.cl i = t at hp h hr
    cases hp with
    | outside todo => cases h
    | before todo c' k' hs => cases hr
    | waiting => cases hr
    | reading todo c' k' hrd =>
      cases h
      cases hrd
      cases hr
      exact .outside todo
    | writing todo c' k' hb => cases hr
  | announce i c k h free =>
    have hp := S.stage i
    refine S.move i _ (fun _ => rfl) ?_ (S.simple i)
    generalize s.cl i = t at hp h
    cases hp with
    | outside todo => cases h
    | before todo c' k' hs =>
      cases h
      cases hs with
      | lock _ hb => exact .waiting todo c k hb
    | waiting todo c' k' hb => cases h; exact .waiting todo c k hb
    | reading todo c' k' hr => cases h; cases hr
    | writing todo c' k' hb => cases h; cases hb
  | acquire i c k h ha free =>
    have hp := S.stage i
    refine S.move i _ (fun _ => rfl) ?_ (S.simple i)
    generalize s.cl i = t at hp h ha
    cases hp with
    | waiting todo c' k' hb => cases h; exact .writing todo c k hb
    | _ => cases ha
  | unlock i c k h hw =>
    have hp := S.stage i
    refine S.move i _ (fun _ => rfl) ?_ (S.simple i)
    generalize s.cl i = t at hp h hw
    cases hp with
    | writing todo c' k' hb =>
      cases h
      cases hb
      exact .outside todo
    | _ => cases hw
  | act i c f k h =>
    have hp := S.stage i
    refine S.move i _ (fun _ => rfl) ?_ (S.simple i)
    generalize s.cl i = t at hp h
    cases hp with
    | outside todo => cases h
    | before todo c' k' hs => cases h; cases hs
    | waiting todo c' k' hb => cases h
    | reading todo c' k' hr =>
      cases h
      cases hr with
      | act _ _ hr => exact .reading todo c _ (hr _)
    | writing todo c' k' hb =>
      cases h
      cases hb with
      | act _ _ hb => exact .writing todo c _ (hb _)

theorem Staged.run {s s' : System σ ρ} (S : Staged s) (r : SysRun s s') : Staged s' := by
  induction r with
  | nil => exact S
  | snoc _ t ih => exact ih.step t

/-- if a goroutine has something to do then some goroutine can go on -/
theorem Staged.progress {s : System σ ρ} (S : Staged s) (i : Nat) (hi : (s.cl i).cur ≠ none ∨ (s.cl i).todo ≠ []) :
    ∃ s', SysStep s s' := by
  by_cases hw : ∃ j, (s.cl j).writing = true
  · obtain ⟨j, hw⟩ := hw
    have hp := S.stage j
    generalize hj : s.cl j = t at hp
    cases hp with
    | writing todo c k hb =>
      cases hb with
      | unlock r => exact ⟨_, .unlock s j c _ (by rw [hj]) hw⟩
      | act f k _ => exact ⟨_, .act s j c f k (by rw [hj])⟩
    | _ => rw [hj] at hw; cases hw
  by_cases hr : ∃ j, (s.cl j).reads ≠ 0
  · obtain ⟨j, hr⟩ := hr
    have hp := S.stage j
    generalize hj : s.cl j = t at hp
    cases hp with
    | reading todo c k hrd =>
      cases hrd with
      | runlock r => exact ⟨_, .runlock s j c _ 0 (by rw [hj]) (by rw [hj])⟩
      | act f k _ => exact ⟨_, .act s j c f k (by rw [hj])⟩
    | _ => rw [hj] at hr; exact absurd rfl hr
  have hw : ∀ j, (s.cl j).writing = false := fun j => by
    cases h : (s.cl j).writing with
    | false => rfl
    | true => exact absurd ⟨j, h⟩ hw
  have hr : ∀ j, (s.cl j).reads = 0 := fun j => Classical.byContradiction (fun h => hr ⟨j, h⟩)
  by_cases ha : ∃ j, (s.cl j).announced = true
  · obtain ⟨j, ha⟩ := ha
    have hp := S.stage j
    generalize hj : s.cl j = t at hp
    cases hp with
    | waiting todo c k hb => exact ⟨_, .acquire s j c k (by rw [hj]) ha hr⟩
    | _ => rw [hj] at ha; cases ha
  have free : ∀ j, (s.cl j).announced = false ∧ (s.cl j).writing = false := fun j => by
    refine ⟨?_, hw j⟩
    cases h : (s.cl j).announced with
    | false => rfl
    | true => exact absurd ⟨j, h⟩ ha
  have hp := S.stage i
  generalize hj : s.cl i = t at hp hi
  cases hp with
  | outside todo =>
    cases todo with
    | nil => simp at hi
    | cons c cs => exact ⟨_, .begin s i c cs (by rw [hj]) (by rw [hj])⟩
  | before todo c k hs =>
    cases hs with
    | lock k hb => exact ⟨_, .announce s i c k (by rw [hj]) free⟩
    | rlock k hb => exact ⟨_, .rlock s i c k (by rw [hj]) free⟩
  | waiting todo c k hb => have := (free i).1; rw [hj] at this; cases this
  | reading todo c k hrd => have := hr i; rw [hj] at this; cases this
  | writing todo c k hb => have := hw i; rw [hj] at this; cases this

/-! ### every schedule ends -/

/-- what is left of a piece of code is a smaller piece -/
inductive Sub : Code σ ρ → Code σ ρ → Prop where
  | op (o : LockOp) (k : Code σ ρ) : Sub k (.op o k)
  | act (f : σ → σ) (k : σ → Code σ ρ) (s : σ) : Sub (k s) (.act f k)

theorem sub_acc : ∀ c : Code σ ρ, Acc Sub c
  | .ret r => ⟨_, fun y h => by cases h⟩
  | .op o k => ⟨_, fun y h => by cases h; exact sub_acc k⟩
  | .act f k => ⟨_, fun y h => by cases h; exact sub_acc _⟩

/-- a goroutine has gone on -/
inductive Less : Client σ ρ → Client σ ρ → Prop where
  | begin (t : Client σ ρ) (c : Code σ ρ) (cs : List (Code σ ρ)) (hc : t.cur = none) (h : t.todo = c :: cs) (t' : Client σ ρ)
      (h' : t'.todo = cs) : Less t' t
  | next (t t' : Client σ ρ) (c k k' : Code σ ρ) (hc : t.cur = some (c, k)) (hc' : t'.cur = some (c, k')) (h : Sub k' k)
      (ht : t'.todo = t.todo) : Less t' t
  | over (t t' : Client σ ρ) (x : Code σ ρ × Code σ ρ) (hc : t.cur = some x) (hc' : t'.cur = none) (ht : t'.todo = t.todo) : Less t' t
  | announce (t t' : Client σ ρ) (x : Code σ ρ × Code σ ρ) (hc : t.cur = some x) (hc' : t'.cur = some x) (ha : t.announced = false)
      (ha' : t'.announced = true) (ht : t'.todo = t.todo) : Less t' t

theorem less_acc : ∀ t : Client σ ρ, Acc Less t := by
  suffices h : ∀ (todo : List (Code σ ρ)) (t : Client σ ρ), t.todo = todo → Acc Less t from fun t => h _ t rfl
  have rest : ∀ todo, (∀ c cs, todo = c :: cs → ∀ t : Client σ ρ, t.todo = cs → Acc Less t) → ∀ t : Client σ ρ, t.todo = todo → Acc Less t := by
    intro todo later
    have idle : ∀ t : Client σ ρ, t.todo = todo → t.cur = none → Acc Less t := by
      intro t ht hc
      refine ⟨_, fun y h => ?_⟩
      cases h with
      | begin _ c cs _ h _ h' => exact later c cs (by rw [← ht, h]) y h'
      | next _ _ c k k' h => rw [hc] at h; cases h
      | over _ _ x h => rw [hc] at h; cases h
      | announce _ _ x h => rw [hc] at h; cases h
    have busy : ∀ k : Code σ ρ, ∀ (t : Client σ ρ) c, t.todo = todo → t.cur = some (c, k) → Acc Less t := by
      intro k
      induction sub_acc k with
      | intro k _ ih =>
        have told : ∀ (t : Client σ ρ) c, t.todo = todo → t.cur = some (c, k) → t.announced = true → Acc Less t := by
          intro t c ht hc ha
          refine ⟨_, fun y h => ?_⟩
          cases h with
          | begin _ c cs h _ => rw [hc] at h; cases h
          | next _ _ c k1 k' h h' hs e => rw [hc] at h; cases h; exact ih k' hs y c (by rw [e, ht]) h'
          | over _ _ x _ h' e => exact idle y (by rw [e, ht]) h'
          | announce _ _ x _ _ h => rw [ha] at h; cases h
        intro t c ht hc
        refine ⟨_, fun y h => ?_⟩
        cases h with
        | begin _ c cs h _ => rw [hc] at h; cases h
        | next _ _ c k1 k' h h' hs e => rw [hc] at h; cases h; exact ih k' hs y c (by rw [e, ht]) h'
        | over _ _ x _ h' e => exact idle y (by rw [e, ht]) h'
        | announce _ _ x h h' _ ha e => rw [hc] at h; cases h; exact told y c (by rw [e, ht]) h' ha
    intro t ht
    cases hc : t.cur with
    | none => exact idle t ht hc
    | some x => exact busy x.2 t x.1 ht hc
  intro todo
  induction todo with
  | nil => exact rest [] (fun c cs h => by cases h)
  | cons c0 cs0 ih0 => exact rest _ (fun c cs h t ht => by cases h; exact ih0 t ht)

/-- one of the first `n` goroutines has gone on, the others have not -/
def Ahead (n : Nat) (f' f : Nat → Client σ ρ) : Prop := ∃ i, i < n ∧ Less (f' i) (f i) ∧ ∀ j, j ≠ i → f' j = f j

theorem ahead_acc : ∀ (n : Nat) (f : Nat → Client σ ρ), Acc (Ahead n) f
  | 0, f => ⟨_, fun y h => by obtain ⟨i, hi, _⟩ := h; omega⟩
  | n + 1, f => by
    suffices h : ∀ a : Client σ ρ, ∀ f, f n = a → Acc (Ahead (n + 1)) f from h _ f rfl
    intro a
    induction less_acc a with
    | intro a _ iha =>
      intro f
      induction ahead_acc n f with
      | intro f _ ihf =>
        intro hf
        refine ⟨_, fun y h => ?_⟩
        obtain ⟨i, hi, hl, ho⟩ := h
        by_cases hn : i = n
        · subst hn
          exact iha (y i) (by rw [← hf]; exact hl) y rfl
        · exact ihf y ⟨i, by omega, hl, ho⟩ (by rw [ho n (Ne.symm hn), hf])

/-- the goroutines from number `n` on have nothing to do -/
def Idle (n : Nat) (s : System σ ρ) : Prop := ∀ i, n ≤ i → (s.cl i).cur = none ∧ (s.cl i).todo = []

theorem step_ahead {s s' : System σ ρ} (S : Staged s) (h : SysStep s s') :
    ∃ i, ((s.cl i).cur ≠ none ∨ (s.cl i).todo ≠ []) ∧ Less (s'.cl i) (s.cl i) ∧ ∀ j, j ≠ i → s'.cl j = s.cl j := by
  have others : ∀ (i : Nat) (t : Client σ ρ) (j : Nat), j ≠ i → (s.set i t).cl j = s.cl j := by
    intro i t j hj; rw [set_cl, if_neg hj]
  have own : ∀ (i : Nat) (t : Client σ ρ), (s.set i t).cl i = t := by
    intro i t; rw [set_cl, if_pos rfl]
  have over : ∀ (i : Nat) (t : Client σ ρ) (c k : Code σ ρ) (o : LockOp), (s.cl i).cur = some (c, .op o k) → t.cur = left c k →
      t.todo = (s.cl i).todo → Less t (s.cl i) := by
    intro i t c k o h ht hd
    cases k with
    | ret r => exact .over _ _ _ h ht hd
    | op => exact .next _ _ _ _ _ h ht (.op _ _) hd
    | act => exact .next _ _ _ _ _ h ht (.op _ _) hd
  cases h with
  | begin i c cs hc h =>
    refine ⟨i, Or.inr (by rw [h]; simp), ?_, others i _⟩
    rw [own]; exact .begin _ c cs hc h _ rfl
  | rlock i c k h free =>
    refine ⟨i, Or.inl (by rw [h]; simp), ?_, others i _⟩
    rw [own]; exact .next _ _ _ _ _ h rfl (.op _ _) rfl
  | runlock i c k n h hr =>
    refine ⟨i, Or.inl (by rw [h]; simp), ?_, others i _⟩
    show Less ((s.set i _).cl i) _
    rw [own]; exact over i _ c k _ h rfl rfl
  | announce i c k h free =>
    refine ⟨i, Or.inl (by rw [h]; simp), ?_, others i _⟩
    rw [own]; exact .announce _ _ _ h h (free i).1 rfl rfl
  | acquire i c k h ha free =>
    refine ⟨i, Or.inl (by rw [h]; simp), ?_, others i _⟩
    rw [own]; exact .next _ _ _ _ _ h rfl (.op _ _) rfl
  | unlock i c k h hw =>
    refine ⟨i, Or.inl (by rw [h]; simp), ?_, others i _⟩
    show Less ((s.set i _).cl i) _
    rw [own]; exact over i _ c k _ h rfl rfl
  | act i c f k h =>
    refine ⟨i, Or.inl (by rw [h]; simp), ?_, others i _⟩
    show Less ((s.set i _).cl i) _
    rw [own]; exact .next _ _ _ _ _ h rfl (.act _ _ _) rfl

theorem Idle.step {n : Nat} {s s' : System σ ρ} (I : Idle n s) (S : Staged s) (h : SysStep s s') :
    Idle n s' ∧ Ahead n s'.cl s.cl := by
  obtain ⟨i, hi, hl, ho⟩ := step_ahead S h
  have hin : i < n := by
    apply Classical.byContradiction
    intro hn
    obtain ⟨h1, h2⟩ := I i (by omega)
    rcases hi with hi | hi
    · exact hi h1
    · exact hi h2
  refine ⟨fun j hj => ?_, i, hin, hl, ho⟩
  rw [ho j (by omega)]; exact I j hj

/-- no schedule goes on for ever -/
theorem no_endless {n : Nat} {s : System σ ρ} (I : Idle n s) (S : Staged s) (f : Nat → System σ ρ) (h0 : f 0 = s)
    (h : ∀ m, SysStep (f m) (f (m + 1))) : False := by
  have key : ∀ g : Nat → Client σ ρ, ∀ m, (f m).cl = g → Idle n (f m) → Staged (f m) → False := by
    intro g
    induction ahead_acc n g with
    | intro g _ ih =>
      intro m hm I S
      obtain ⟨I', ha⟩ := I.step S (h m)
      rw [hm] at ha
      exact ih _ ha (m + 1) rfl I' (S.step (h m))
  exact key _ 0 rfl (h0 ▸ I) (h0 ▸ S)

/-- a schedule that cannot go on has made all calls -/
theorem all_made {s : System σ ρ} (S : Staged s) (h : ∀ s', ¬ SysStep s s') (i : Nat) : (s.cl i).cur = none ∧ (s.cl i).todo = [] := by
  apply Classical.byContradiction
  intro hn
  have : (s.cl i).cur ≠ none ∨ (s.cl i).todo ≠ [] := by
    by_cases hc : (s.cl i).cur = none
    · exact Or.inr (fun ht => hn ⟨hc, ht⟩)
    · exact Or.inl hc
  obtain ⟨s', hs⟩ := S.progress i this
  exact h s' hs

end Verif.Services
