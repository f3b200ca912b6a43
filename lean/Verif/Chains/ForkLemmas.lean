import Verif.Chains.Edges
/-
Grouping, ranking and best-block selection.
-/
set_option autoImplicit false

namespace Verif.Chains

open Verif KV Spec

/-! ### grouping by block -/

/-- value of a key in an association list, `[]` if absent -/
def lk (m : List (BlockID × List Addr)) (k : BlockID) : List Addr :=
  match m.find? (fun p => p.1 = k) with
  | some p => p.2
  | none => []

theorem lk_nil (k : BlockID) : lk [] k = [] := rfl

theorem lk_cons (p : BlockID × List Addr) (m : List (BlockID × List Addr)) (k : BlockID) :
    lk (p :: m) k = if p.1 = k then p.2 else lk m k := by
  by_cases h : p.1 = k <;> simp [lk, h]

theorem lk_groupInsert (m : List (BlockID × List Addr)) (l : Leash) (k : BlockID) :
    lk (groupInsert m l) k = if k = l.blockID then lk m k ++ [l.addr] else lk m k := by
  induction m with
  | nil => 
    simp only [groupInsert, lk_cons, lk_nil]
    by_cases h : k = l.blockID
    · simp [h]
    · simp [h, Ne.symm h]
  | cons p m ih =>
    obtain ⟨k', v⟩ := p
    simp only [groupInsert]
    by_cases h : k' = l.blockID
    · simp only [h, if_true, lk_cons]
      by_cases hk : k = l.blockID
      · simp [hk]
      · simp [hk, Ne.symm hk]
    · simp only [h, if_false, lk_cons, ih]
      by_cases hk : k' = k
      · subst hk; simp [h]
      · simp [hk]

theorem groupInsert_keys (m : List (BlockID × List Addr)) (l : Leash) :
    (groupInsert m l).map (·.1) = if l.blockID ∈ m.map (·.1) then m.map (·.1) else m.map (·.1) ++ [l.blockID] := by
  induction m with
  | nil => simp [groupInsert]
  | cons p m ih =>
    obtain ⟨k', v⟩ := p
    simp only [groupInsert]
    by_cases h : k' = l.blockID
    · simp [h]
    · simp only [h, if_false, List.map_cons, ih, List.mem_cons, Ne.symm h, false_or]
      by_cases h2 : l.blockID ∈ m.map (·.1)
      · rw [if_pos h2, if_pos h2]
      · rw [if_neg h2, if_neg h2]; rfl

theorem groupInsert_ne_nil {m : List (BlockID × List Addr)} {l : Leash} (h : ∀ p, p ∈ m → p.2 ≠ []) :
    ∀ p, p ∈ groupInsert m l → p.2 ≠ [] := by
  induction m with
  | nil => intro p hp; simp [groupInsert] at hp; subst hp; simp
  | cons q m ih =>
    obtain ⟨k', v⟩ := q
    intro p hp
    simp only [groupInsert] at hp
    by_cases hk : k' = l.blockID
    · simp only [hk, if_true, List.mem_cons] at hp
      rcases hp with rfl | hp
      · simp
      · exact h p (List.mem_cons_of_mem _ hp)
    · simp only [hk, if_false, List.mem_cons] at hp
      rcases hp with rfl | hp
      · exact h _ (by simp)
      · exact ih (fun p hp => h p (List.mem_cons_of_mem _ hp)) p hp

theorem foldl_groupInsert (ls : List Leash) : ∀ (m : List (BlockID × List Addr)), (m.map (·.1)).Nodup →
    (∀ p, p ∈ m → p.2 ≠ []) →
    ((ls.foldl groupInsert m).map (·.1)).Nodup ∧ (∀ p, p ∈ ls.foldl groupInsert m → p.2 ≠ []) ∧
    ∀ k, lk (ls.foldl groupInsert m) k = lk m k ++ peersOn ls k := by
  induction ls with
  | nil => intro m h1 h2; exact ⟨h1, h2, fun k => by simp [peersOn]⟩
  | cons l ls ih =>
    intro m h1 h2
    have h1' : ((groupInsert m l).map (·.1)).Nodup := by
      rw [groupInsert_keys]
      split
      · exact h1
      · rename_i hn
        rw [List.nodup_append]
        refine ⟨h1, by simp, ?_⟩
        intro a ha b hb
        simp at hb; subst hb
        rintro rfl; exact hn ha
    obtain ⟨a, b, c⟩ := ih (groupInsert m l) h1' (groupInsert_ne_nil h2)
    refine ⟨a, b, ?_⟩
    intro k
    rw [List.foldl_cons, c k, lk_groupInsert]
    by_cases hk : l.blockID = k
    · simp [peersOn, hk]
    · simp [peersOn, hk, Ne.symm hk]

theorem mem_of_lk {m : List (BlockID × List Addr)} {k : BlockID} {v : List Addr} (h : lk m k = v) (hv : v ≠ []) :
    (k, v) ∈ m := by
  induction m with
  | nil => rw [lk_nil] at h; exact absurd h.symm hv
  | cons p m ih =>
    rw [lk_cons] at h
    by_cases hk : p.1 = k
    · rw [if_pos hk] at h
      have : p = (k, v) := by cases p; simp_all
      simp [this]
    · rw [if_neg hk] at h
      exact List.mem_cons_of_mem _ (ih h)

theorem lk_of_mem {m : List (BlockID × List Addr)} (hnd : (m.map (·.1)).Nodup) {k : BlockID} {v : List Addr}
    (h : (k, v) ∈ m) : lk m k = v := by
  induction m with
  | nil => simp at h
  | cons p m ih =>
    rw [lk_cons]
    simp only [List.map_cons, List.nodup_cons] at hnd
    rcases List.mem_cons.mp h with rfl | h
    · simp
    · have : p.1 ≠ k := by
        rintro rfl
        exact hnd.1 (List.mem_map.mpr ⟨_, h, rfl⟩)
      rw [if_neg this]; exact ih hnd.2 h

/-- the groups: one per block, with exactly the peers on it -/
theorem mem_groupLeashes (ls : List Leash) (k : BlockID) (v : List Addr) :
    (k, v) ∈ groupLeashes ls ↔ v = peersOn ls k ∧ v ≠ [] := by
  obtain ⟨h1, h2, h3⟩ := foldl_groupInsert ls [] (by simp) (by simp)
  have hl : ∀ k, lk (groupLeashes ls) k = peersOn ls k := fun k => by rw [groupLeashes, h3 k]; simp [lk_nil]
  constructor
  · intro h
    exact ⟨by rw [← hl k]; exact (lk_of_mem h1 h).symm, h2 _ h⟩
  · rintro ⟨rfl, hv⟩
    exact mem_of_lk (hl k) hv

theorem groupLeashes_nodup (ls : List Leash) : ((groupLeashes ls).map (·.1)).Nodup :=
  (foldl_groupInsert ls [] (by simp) (by simp)).1

theorem peersOn_ne_nil {ls : List Leash} {k : BlockID} : peersOn ls k ≠ [] ↔ k ∈ ls.map (·.blockID) := by
  simp only [peersOn, ne_eq, List.map_eq_nil_iff, List.filter_eq_nil_iff, List.mem_map]
  constructor
  · intro h
    obtain ⟨l, hl⟩ := Classical.not_forall.mp h
    obtain ⟨h1, h2⟩ := Classical.not_imp.mp hl
    exact ⟨l, h1, by simpa using h2⟩
  · rintro ⟨l, hl, h⟩ hall; exact hall l hl (by simpa using h)

theorem mem_peersOn {ls : List Leash} {k : BlockID} {p : Addr} : p ∈ peersOn ls k ↔ { addr := p, blockID := k } ∈ ls := by
  simp only [peersOn, List.mem_map, List.mem_filter, decide_eq_true_eq]
  constructor
  · rintro ⟨⟨a, b⟩, ⟨h1, rfl⟩, rfl⟩; exact h1
  · intro h; exact ⟨_, ⟨h, rfl⟩, rfl⟩

theorem mem_selected {filter : List Addr} {ls : List Leash} {p : Addr} {id : BlockID} :
    { addr := p, blockID := id } ∈ selected filter ls ↔ Selected filter ls p id := by
  simp [selected, Selected]

theorem peersOn_sublist (ls : List Leash) (k : BlockID) : (peersOn ls k).Sublist (ls.map (·.addr)) :=
  List.filter_sublist.map _

/-! ### ranking -/

theorem forkLess_strictWeak : StrictWeak forkLess where
  irrefl a := by simp [forkLess]
  trans a b c h1 h2 := by
    simp only [forkLess] at *
    split at h1 <;> split at h2 <;> split <;> simp only [decide_eq_true_eq] at * <;> omega
  incomp a b c h1 h2 h3 h4 := by
    simp only [forkLess] at *
    constructor <;>
    (split at h1 <;> split at h2 <;> split at h3 <;> split at h4 <;> split <;> simp only [decide_eq_false_iff_not] at * <;> omega)

theorem genLess_strictWeak : StrictWeak genLess where
  irrefl a := by simp [genLess]
  trans a b c h1 h2 := by simp only [genLess, decide_eq_true_eq] at *; omega
  incomp a b c h1 h2 h3 h4 := by simp only [genLess, decide_eq_false_iff_not] at *; omega

theorem forkLess_false {a b : Fork} : forkLess b a = false ↔
    b.score < a.score ∨ (b.score = a.score ∧ b.peers.length ≤ a.peers.length) := by
  simp only [forkLess]
  split <;> simp <;> omega

/-! ### the best block -/

/-- `s` is at least as good as an entry -/
def Best.ge (s : Best) (sc np : Nat) : Prop := sc < s.score ∨ (sc = s.score ∧ np ≤ s.peers)

theorem Best.step_ge (s : Best) (k : BlockID) (sc np : Nat) : (s.step k sc np).ge sc np := by
  unfold Best.step Best.ge
  split
  · split <;> first | omega | (simp; done) | (simp; omega)
  · split <;> first | omega | (simp; done) | (simp; omega)

theorem Best.step_mono (s : Best) (k : BlockID) (sc np sc' np' : Nat) (h : s.ge sc' np') : (s.step k sc np).ge sc' np' := by
  unfold Best.step Best.ge at *
  split
  · split <;> first | omega | (simp; done) | (simp; omega)
  · split <;> first | omega | (simp; done) | (simp; omega)

/-- `s` is an entry of the list, or the initial value -/
def Best.From (db : DB) (s : Best) (m : List (BlockID × List Addr)) : Prop :=
  ∃ v b, (s.longest, v) ∈ m ∧ BlockOf db s.longest = .ok b ∧ s.score = b.score ∧ s.peers = v.length

theorem bestLoop_ok {db : DB} : ∀ {m : List (BlockID × List Addr)} {s s' : Best}, bestLoop db s m = .ok s' →
    (∀ sc np, s.ge sc np → s'.ge sc np) ∧ (s' = s ∨ s'.From db m) ∧
    ∀ k v, (k, v) ∈ m → ∃ b, BlockOf db k = .ok b ∧ s'.ge b.score v.length := by
  intro m
  induction m with
  | nil => intro s s' h; simp only [bestLoop, Except.ok.injEq] at h; subst h; exact ⟨fun _ _ h => h, Or.inl rfl, by simp⟩
  | cons p m ih =>
    obtain ⟨k, v⟩ := p
    intro s s' h
    simp only [bestLoop] at h
    obtain ⟨b, hb, h⟩ := go_bind_eq_ok.mp h
    obtain ⟨i1, i2, i3⟩ := ih h
    refine ⟨fun sc np hg => i1 _ _ (s.step_mono k b.score v.length sc np hg), ?_, ?_⟩
    · rcases i2 with rfl | ⟨v', b', hm, hr⟩
      · unfold Best.step
        split
        · split
          · exact Or.inr ⟨v, b, by simp, hb, rfl, rfl⟩
          · exact Or.inl rfl
        · split
          · exact Or.inr ⟨v, b, by simp, hb, rfl, rfl⟩
          · exact Or.inl rfl
      · exact Or.inr ⟨v', b', List.mem_cons_of_mem _ hm, hr⟩
    · intro k' v' hm
      rcases List.mem_cons.mp hm with he | hm
      · cases he; exact ⟨b, hb, i1 _ _ (s.step_ge k b.score v.length)⟩
      · exact i3 k' v' hm

theorem bestLoop_total {db : DB} : ∀ {m : List (BlockID × List Addr)} {s : Best},
    (∀ k v, (k, v) ∈ m → ∃ b, BlockOf db k = .ok b) → ∃ s', bestLoop db s m = .ok s' := by
  intro m
  induction m with
  | nil => intro s _; exact ⟨s, rfl⟩
  | cons p m ih =>
    obtain ⟨k, v⟩ := p
    intro s h
    obtain ⟨b, hb⟩ := h k v (by simp)
    simp only [bestLoop, hb, go_bind_ok]
    exact ih (fun k v hm => h k v (List.mem_cons_of_mem _ hm))

/-- starting from the initial value, the loop over a non-empty map selects one of its best entries -/
theorem bestLoop_init {db : DB} {m : List (BlockID × List Addr)} {s' : Best} (h : bestLoop db Best.init m = .ok s')
    (hne : m ≠ []) (hv : ∀ p, p ∈ m → p.2 ≠ []) :
    s'.From db m ∧ ∀ k v, (k, v) ∈ m → ∃ b, BlockOf db k = .ok b ∧ s'.ge b.score v.length := by
  obtain ⟨_, h2, h3⟩ := bestLoop_ok h
  refine ⟨?_, h3⟩
  rcases h2 with rfl | h2
  · exfalso
    cases m with
    | nil => exact hne rfl
    | cons p m =>
      obtain ⟨b, _, hg⟩ := h3 p.1 p.2 (by simp)
      have : p.2.length ≠ 0 := fun e => hv p (by simp) (List.length_eq_zero_iff.mp e)
      unfold Best.ge Best.init at hg
      simp only at hg
      omega
  · exact h2

/-- the loop of `Fork` selects like the loop of `LCB` -/
theorem forkLoop_best {db : DB} {peer : Addr} : ∀ {m : List (BlockID × List Addr)} {s s' : Best} {f f' : Fork},
    forkLoop db peer s f m = .ok (s', f') → bestLoop db s m = .ok s' := by
  intro m
  induction m with
  | nil => intro s s' f f' h; simp only [forkLoop, Except.ok.injEq, Prod.mk.injEq] at h; rw [bestLoop, h.1]
  | cons p m ih =>
    obtain ⟨k, v⟩ := p
    intro s s' f f' h
    simp only [forkLoop] at h
    obtain ⟨b, hb, h⟩ := go_bind_eq_ok.mp h
    simp only [bestLoop, hb, go_bind_ok]
    exact ih h

/-- and it picks the entry of the peer -/
theorem forkLoop_fork {db : DB} {peer : Addr} : ∀ {m : List (BlockID × List Addr)} {s s' : Best} {f f' : Fork},
    forkLoop db peer s f m = .ok (s', f') →
    ((∀ k v, (k, v) ∈ m → peer ∉ v) ∧ f' = f) ∨
    ∃ k v b, (k, v) ∈ m ∧ peer ∈ v ∧ BlockOf db k = .ok b ∧ f' = mkFork b v := by
  intro m
  induction m with
  | nil => intro s s' f f' h; simp only [forkLoop, Except.ok.injEq, Prod.mk.injEq] at h; exact Or.inl ⟨by simp, h.2.symm⟩
  | cons p m ih =>
    obtain ⟨k, v⟩ := p
    intro s s' f f' h
    simp only [forkLoop] at h
    obtain ⟨b, hb, h⟩ := go_bind_eq_ok.mp h
    rcases ih h with ⟨h1, h2⟩ | ⟨k', v', b', hm, hr⟩
    · by_cases hp : peer ∈ v
      · have : v.contains peer = true := List.contains_iff_mem.mpr hp
        rw [if_pos this] at h2
        exact Or.inr ⟨k, v, b, by simp, hp, hb, h2⟩
      · have : ¬ v.contains peer = true := fun e => hp (List.contains_iff_mem.mp e)
        rw [if_neg this] at h2
        refine Or.inl ⟨?_, h2⟩
        intro k' v' hm
        rcases List.mem_cons.mp hm with he | hm
        · cases he; exact hp
        · exact h1 k' v' hm
    · exact Or.inr ⟨k', v', b', List.mem_cons_of_mem _ hm, hr⟩

theorem forkLoop_total {db : DB} {peer : Addr} : ∀ {m : List (BlockID × List Addr)} {s : Best} {f : Fork},
    (∀ k v, (k, v) ∈ m → ∃ b, BlockOf db k = .ok b) → ∃ r, forkLoop db peer s f m = .ok r := by
  intro m
  induction m with
  | nil => intro s f _; exact ⟨(s, f), rfl⟩
  | cons p m ih =>
    obtain ⟨k, v⟩ := p
    intro s f h
    obtain ⟨b, hb⟩ := h k v (by simp)
    simp only [forkLoop, hb, go_bind_ok]
    exact ih (fun k v hm => h k v (List.mem_cons_of_mem _ hm))

/-! ### counting generators -/

/-- count of a key, 0 if absent -/
def cnt (m : List (WavesAddr × Nat)) (k : WavesAddr) : Nat :=
  match m.find? (fun p => p.1 = k) with
  | some p => p.2
  | none => 0

theorem cnt_cons (p : WavesAddr × Nat) (m : List (WavesAddr × Nat)) (k : WavesAddr) :
    cnt (p :: m) k = if p.1 = k then p.2 else cnt m k := by
  by_cases h : p.1 = k <;> simp [cnt, h]

theorem cnt_insert (m : List (WavesAddr × Nat)) (g k : WavesAddr) :
    cnt (countInsert m g) k = if k = g then cnt m k + 1 else cnt m k := by
  induction m with
  | nil =>
    simp only [countInsert, cnt_cons]
    by_cases h : k = g
    · simp [h, cnt]
    · simp [h, Ne.symm h]
  | cons p m ih =>
    obtain ⟨k', v⟩ := p
    simp only [countInsert]
    by_cases h : k' = g
    · simp only [h, if_true, cnt_cons]
      by_cases hk : k = g
      · simp [hk]
      · simp [hk, Ne.symm hk]
    · simp only [h, if_false, cnt_cons, ih]
      by_cases hk : k' = k
      · subst hk; simp [h]
      · simp [hk]

theorem countInsert_keys (m : List (WavesAddr × Nat)) (g : WavesAddr) :
    (countInsert m g).map (·.1) = if g ∈ m.map (·.1) then m.map (·.1) else m.map (·.1) ++ [g] := by
  induction m with
  | nil => simp [countInsert]
  | cons p m ih =>
    obtain ⟨k', v⟩ := p
    simp only [countInsert]
    by_cases h : k' = g
    · simp [h]
    · simp only [h, if_false, List.map_cons, ih, List.mem_cons, Ne.symm h, false_or]
      by_cases h2 : g ∈ m.map (·.1)
      · rw [if_pos h2, if_pos h2]
      · rw [if_neg h2, if_neg h2]; rfl

theorem countInsert_pos {m : List (WavesAddr × Nat)} {g : WavesAddr} (h : ∀ p, p ∈ m → p.2 ≠ 0) :
    ∀ p, p ∈ countInsert m g → p.2 ≠ 0 := by
  induction m with
  | nil => intro p hp; simp [countInsert] at hp; subst hp; simp
  | cons q m ih =>
    obtain ⟨k', v⟩ := q
    intro p hp
    simp only [countInsert] at hp
    by_cases hk : k' = g
    · simp only [hk, if_true, List.mem_cons] at hp
      rcases hp with rfl | hp
      · simp
      · exact h p (List.mem_cons_of_mem _ hp)
    · simp only [hk, if_false, List.mem_cons] at hp
      rcases hp with rfl | hp
      · exact h _ (by simp)
      · exact ih (fun p hp => h p (List.mem_cons_of_mem _ hp)) p hp

theorem countInsert_sum (m : List (WavesAddr × Nat)) (g : WavesAddr) :
    ((countInsert m g).map (·.2)).sum = (m.map (·.2)).sum + 1 := by
  induction m with
  | nil => simp [countInsert]
  | cons p m ih =>
    obtain ⟨k', v⟩ := p
    simp only [countInsert]
    split
    · simp; omega
    · simp [ih]; omega

theorem foldl_countInsert (gs : List WavesAddr) : ∀ (m : List (WavesAddr × Nat)), (m.map (·.1)).Nodup →
    (∀ p, p ∈ m → p.2 ≠ 0) →
    ((gs.foldl countInsert m).map (·.1)).Nodup ∧ (∀ p, p ∈ gs.foldl countInsert m → p.2 ≠ 0) ∧
    (∀ k, cnt (gs.foldl countInsert m) k = cnt m k + gs.count k) ∧
    ((gs.foldl countInsert m).map (·.2)).sum = (m.map (·.2)).sum + gs.length := by
  induction gs with
  | nil => intro m h1 h2; exact ⟨h1, h2, fun k => by simp, by simp⟩
  | cons l ls ih =>
    intro m h1 h2
    have h1' : ((countInsert m l).map (·.1)).Nodup := by
      rw [countInsert_keys]
      split
      · exact h1
      · rename_i hn
        rw [List.nodup_append]
        refine ⟨h1, by simp, ?_⟩
        intro a ha b hb
        simp at hb; subst hb
        rintro rfl; exact hn ha
    obtain ⟨a, b, c, d⟩ := ih (countInsert m l) h1' (countInsert_pos h2)
    refine ⟨a, b, ?_, ?_⟩
    · intro k
      rw [List.foldl_cons, c k, cnt_insert, List.count_cons]
      by_cases hk : l = k
      · simp [hk]; omega
      · have : ¬ k = l := Ne.symm hk
        have h2 : ¬ l.1 = k.1 := fun e => hk (Subtype.ext e)
        simp [this, h2]
    · rw [List.foldl_cons, d, countInsert_sum, List.length_cons]; omega

theorem mem_counts (gs : List WavesAddr) (k : WavesAddr) (n : Nat) :
    (k, n) ∈ gs.foldl countInsert [] ↔ n = gs.count k ∧ n ≠ 0 := by
  obtain ⟨h1, h2, h3, _⟩ := foldl_countInsert gs [] (by simp) (by simp)
  have hc : ∀ k, cnt (gs.foldl countInsert []) k = gs.count k := fun k => by rw [h3 k]; simp [cnt]
  have mem_cnt : ∀ (m : List (WavesAddr × Nat)) (k : WavesAddr) (n : Nat), cnt m k = n → n ≠ 0 → (k, n) ∈ m := by
    intro m
    induction m with
    | nil => intro k n h hn; simp [cnt] at h; exact absurd h.symm hn
    | cons p m ih =>
      intro k n h hn
      rw [cnt_cons] at h
      by_cases hk : p.1 = k
      · rw [if_pos hk] at h
        have : p = (k, n) := by cases p; simp_all
        simp [this]
      · rw [if_neg hk] at h; exact List.mem_cons_of_mem _ (ih k n h hn)
  have cnt_mem : ∀ (m : List (WavesAddr × Nat)) (_ : (m.map (·.1)).Nodup) (k : WavesAddr) (n : Nat), (k, n) ∈ m → cnt m k = n := by
    intro m
    induction m with
    | nil => intro _ k n h; simp at h
    | cons p m ih =>
      intro hnd k n h
      rw [cnt_cons]
      simp only [List.map_cons, List.nodup_cons] at hnd
      rcases List.mem_cons.mp h with rfl | h
      · simp
      · have : p.1 ≠ k := by
          rintro rfl
          exact hnd.1 (List.mem_map.mpr ⟨_, h, rfl⟩)
        rw [if_neg this]; exact ih hnd.2 k n h
  constructor
  · intro h; exact ⟨by rw [← hc k]; exact (cnt_mem _ h1 k n h).symm, h2 _ h⟩
  · rintro ⟨rfl, hn⟩; exact mem_cnt _ k _ (hc k) hn

end Verif.Chains
