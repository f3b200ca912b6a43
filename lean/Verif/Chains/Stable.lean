import Verif.Chains.ForkOk
import Verif.Chains.Initial
/-
Two calls of the same report on the same store, with any two iteration orders of maps and any two orders of
equal elements after sorting.
-/
set_option autoImplicit false

namespace Verif.Chains

open Verif KV Spec

/-! ### specification -/

/-- the listed peers a report with the given filter is about -/
def about (filter : List Addr) (ls : List Leash) : List Leash := ls.filter (fun l => decide (filter = [] ∨ l.addr ∈ filter))

/-- only one leashed block is best -/
def OneBest (db : DB) (ls : List Leash) : Prop := ∀ b b', IsBest db ls b → IsBest db ls b' → b = b'

/-- no two leashed blocks have the same score and the same number of peers -/
def NoTies (db : DB) (ls : List Leash) : Prop := ∀ b b' s, b ∈ ls.map (·.blockID) → b' ∈ ls.map (·.blockID) →
  ScoreOf db b s → ScoreOf db b' s → (peersOn ls b).length = (peersOn ls b').length → b = b'

/-- the same entries, in some order each time, or a panic both times -/
def SameEntries {α : Type} (x y : Go (List α)) : Prop :=
  (∃ r r', x = .ok r ∧ y = .ok r' ∧ r.Perm r') ∨ (x = goPanic ∧ y = goPanic)

/-! ### lemmas -/

theorem about_selected (filter : List Addr) (ls : List Leash) : selected filter ls = about filter ls := by
  unfold selected about
  apply List.filter_congr
  intro l _
  cases filter <;> simp

/-- the same entries, in some order each time, or the same fault both times -/
def SameOr {α : Type} (e : Fault) (x y : Go (List α)) : Prop :=
  (∃ r r', x = .ok r ∧ y = .ok r' ∧ r.Perm r') ∨ (x = .error e ∧ y = .error e)

theorem SameOr.trans {α : Type} {e : Fault} {x y z : Go (List α)} (h : SameOr e x y) (h' : SameOr e y z) : SameOr e x z := by
  rcases h with ⟨r, r', h1, h2, h3⟩ | ⟨h1, h2⟩
  · rcases h' with ⟨s, s', k1, k2, k3⟩ | ⟨k1, k2⟩
    · rw [h2] at k1; cases k1
      exact Or.inl ⟨r, s', h1, k2, h3.trans k3⟩
    · rw [h2] at k1; cases k1
  · rcases h' with ⟨s, s', k1, k2, k3⟩ | ⟨k1, k2⟩
    · rw [h2] at k1; cases k1
    · exact Or.inr ⟨h1, k2⟩

/-- answers, or fails in the given way -/
def OkOr {α : Type} (e : Fault) (x : Go α) : Prop := (∃ a, x = .ok a) ∨ x = .error e

theorem mapGo_okOr {α β : Type} {e : Fault} {f : α → Go β} : ∀ {l : List α}, (∀ a, a ∈ l → OkOr e (f a)) → OkOr e (mapGo f l)
  | [], _ => Or.inl ⟨[], rfl⟩
  | a :: l, h => by
    rcases h a (by simp) with ⟨b, hb⟩ | hb
    · rcases mapGo_okOr (fun a' ha' => h a' (List.mem_cons_of_mem _ ha')) with ⟨bs, hbs⟩ | hbs
      · exact Or.inl ⟨b :: bs, by simp [mapGo, hb, hbs]⟩
      · exact Or.inr (by simp [mapGo, hb, hbs])
    · exact Or.inr (by simp [mapGo, hb])

/-- the order of the elements decides about the order of the results only -/
theorem mapGo_same {α β : Type} {e : Fault} {f : α → Go β} {l l' : List α} (h : l.Perm l') : (∀ a, a ∈ l → OkOr e (f a)) →
    SameOr e (mapGo f l) (mapGo f l') := by
  induction h with
  | nil => intro _; exact Or.inl ⟨[], [], rfl, rfl, List.Perm.refl _⟩
  | @cons a l l' hp ih =>
    intro hs
    rcases hs a (by simp) with ⟨b, hb⟩ | hb
    · rcases ih (fun a' ha' => hs a' (List.mem_cons_of_mem _ ha')) with ⟨r, r', h1, h2, h3⟩ | ⟨h1, h2⟩
      · exact Or.inl ⟨b :: r, b :: r', by simp [mapGo, hb, h1], by simp [mapGo, hb, h2], h3.cons b⟩
      · exact Or.inr ⟨by simp [mapGo, hb, h1], by simp [mapGo, hb, h2]⟩
    · exact Or.inr ⟨by simp [mapGo, hb], by simp [mapGo, hb]⟩
  | swap a a' l =>
    intro hs
    rcases hs a (by simp) with ⟨b, hb⟩ | hb <;> rcases hs a' (by simp) with ⟨b', hb'⟩ | hb'
    · rcases mapGo_okOr (f := f) (l := l) (fun x hx => hs x (List.mem_cons_of_mem _ (List.mem_cons_of_mem _ hx))) with ⟨r, hr⟩ | hr
      · exact Or.inl ⟨b' :: b :: r, b :: b' :: r, by simp [mapGo, hb, hb', hr], by simp [mapGo, hb, hb', hr], List.Perm.swap _ _ _⟩
      · exact Or.inr ⟨by simp [mapGo, hb, hb', hr], by simp [mapGo, hb, hb', hr]⟩
    · exact Or.inr ⟨by simp [mapGo, hb, hb'], by simp [mapGo, hb, hb']⟩
    · exact Or.inr ⟨by simp [mapGo, hb, hb'], by simp [mapGo, hb, hb']⟩
    · exact Or.inr ⟨by simp [mapGo, hb, hb'], by simp [mapGo, hb, hb']⟩
  | trans h1 h2 ih1 ih2 =>
    intro hs
    exact (ih1 hs).trans (ih2 (fun a ha => hs a (h1.mem_iff.mpr ha)))

/-- answers, or panics -/
abbrev Sane {α : Type} (x : Go α) : Prop := OkOr .panic x

variable {db : DB} {ns : List Node} {hs : List Nat}

theorem Rep.BlockOf_sane (R : Rep db ns hs) {id : BlockID} (h : Stored db id) : Sane (BlockOf db id) := by
  by_cases hr : Readable db id
  · exact Or.inl (R.BlockOf_readable hr)
  · exact Or.inr (R.BlockOf_panics h hr)

theorem Rep.lca_sane (R : Rep db ns hs) {a b : BlockID} (ha : Stored db a) (hb : Stored db b) : Sane (Chains.lca db a b) := by
  obtain ⟨n, hn⟩ := R.stored_iff.mp ha
  obtain ⟨m, hm⟩ := R.stored_iff.mp hb
  obtain ⟨c, cid, _, _, e⟩ := R.lca_nums hn hm
  rw [e]
  split
  · exact Or.inr rfl
  · exact Or.inl ⟨cid, rfl⟩

theorem Rep.rawFork_sane (R : Rep db ns hs) {p : BlockID × List Addr} (h : Stored db p.1) : Sane (rawFork db p) := by
  unfold rawFork
  rcases R.BlockOf_sane h with ⟨b, hb⟩ | hb
  · exact Or.inl ⟨mkFork b p.2, by simp [hb]⟩
  · exact Or.inr (by simp [hb, goPanic])

theorem Rep.finishFork_sane (R : Rep db ns hs) {hd : BlockID} {f : Fork} (h : Stored db hd) (hf : Stored db f.headBlock) :
    Sane (finishFork db hd f) := by
  unfold finishFork
  rcases R.lca_sane h hf with ⟨c, hc⟩ | hc
  · obtain ⟨r, hr⟩ := R.lca_rec hc
    exact Or.inl ⟨_, by rw [hc, go_bind_ok, hr, go_bind_ok]; rfl⟩
  · exact Or.inr (by simp [hc, goPanic])

/-- what the unfinished entries are -/
theorem Rep.raw_facts (R : Rep db ns hs) {env : Env} {ls : List Leash} {r : List Fork}
    (h : mapGo (rawFork db) (env.mapOrder (groupLeashes ls)) = .ok r) :
    (∀ f, f ∈ r → f.headBlock ∈ ls.map (·.blockID) ∧ ∃ b, BlockOf db f.headBlock = .ok b ∧ f = mkFork b (peersOn ls f.headBlock)) ∧
    ∀ c, c ∈ ls.map (·.blockID) → ∃ f, f ∈ r ∧ f.headBlock = c := by
  refine ⟨?_, ?_⟩
  · intro f hf
    obtain ⟨⟨k, v⟩, hm, he⟩ := mapGo_mem h hf
    obtain ⟨hv, hne⟩ := (mem_groupLeashes _ _ _).mp ((env.mapOrder_perm _).mem_iff.mp hm)
    unfold rawFork at he
    obtain ⟨b, hb, he⟩ := go_bind_eq_ok.mp he
    simp only [go_pure, Except.ok.injEq] at he
    have hid := (R.BlockOf_ok hb).1
    subst he
    refine ⟨?_, b, ?_, ?_⟩
    · rw [hv] at hne
      simpa [mkFork, hid] using peersOn_ne_nil.mp hne
    · simpa [mkFork, hid] using hb
    · simp only [mkFork, hid, hv]
  · intro c hc
    have hk : (c, peersOn ls c) ∈ env.mapOrder (groupLeashes ls) :=
      (env.mapOrder_perm _).mem_iff.mpr ((mem_groupLeashes _ _ _).mpr ⟨rfl, peersOn_ne_nil.mpr hc⟩)
    obtain ⟨f, hf, he⟩ := mapGo_mem' h hk
    unfold rawFork at he
    obtain ⟨b, hb, he⟩ := go_bind_eq_ok.mp he
    simp only [go_pure, Except.ok.injEq] at he
    refine ⟨f, hf, ?_⟩
    rw [← he]
    exact (R.BlockOf_ok hb).1

/-- the first entry after sorting is best -/
theorem Rep.raw_best (R : Rep db ns hs) {env : Env} {ls : List Leash} {r : List Fork}
    (h : mapGo (rawFork db) (env.mapOrder (groupLeashes ls)) = .ok r) {env' : Env} {a : Fork} {rest : List Fork}
    (hs' : env'.sort forkLess r = a :: rest) : IsBest db ls a.headBlock := by
  obtain ⟨h1, h2⟩ := R.raw_facts h
  have hperm := env'.sort_perm forkLess r
  have hsort := env'.sort_sorted forkLess r forkLess_strictWeak
  rw [hs'] at hperm hsort
  have score : ∀ f, f ∈ r → ScoreOf db f.headBlock f.score ∧ f.peers = peersOn ls f.headBlock := by
    intro f hf
    obtain ⟨_, b, hb, he⟩ := h1 f hf
    obtain ⟨_, _, rec, hrec, _, hsc, _⟩ := R.BlockOf_ok hb
    rw [he] at hb ⊢
    have hid := (R.BlockOf_ok hb).1
    refine ⟨⟨rec, ?_, by simp [mkFork, hsc]⟩, ?_⟩
    · rw [he] at hrec; exact hrec
    · simp only [mkFork]
      simp only [mkFork] at he
      rw [he]
  have ha := hperm.mem_iff.mp (List.mem_cons_self (a := a) (l := rest))
  refine ⟨(h1 a ha).1, a.score, (score a ha).1, ?_⟩
  intro c hc
  obtain ⟨f, hf, rfl⟩ := h2 c hc
  refine ⟨f.score, (score f hf).1, ?_⟩
  rw [← (score f hf).2, ← (score a ha).2]
  rcases List.mem_cons.mp (hperm.mem_iff.mpr hf) with rfl | hm
  · exact Or.inr ⟨rfl, Nat.le_refl _⟩
  · exact forkLess_false.mp ((List.pairwise_cons.mp hsort).1 f hm)

/-- the two lists of unfinished entries -/
theorem Rep.raw_same (R : Rep db ns hs) {ls : List Leash} (hst : ∀ l, l ∈ ls → Stored db l.blockID) (env1 env2 : Env) :
    SameEntries (mapGo (rawFork db) (env1.mapOrder (groupLeashes ls))) (mapGo (rawFork db) (env2.mapOrder (groupLeashes ls))) := by
  refine mapGo_same ((env1.mapOrder_perm _).trans (env2.mapOrder_perm _).symm) ?_
  intro p hp
  obtain ⟨hv, hne⟩ := (mem_groupLeashes _ p.1 p.2).mp ((env1.mapOrder_perm _).mem_iff.mp hp)
  rw [hv] at hne
  obtain ⟨l, hl, he⟩ := List.mem_map.mp (peersOn_ne_nil.mp hne)
  exact R.rawFork_sane (he ▸ hst l hl)

theorem Rep.raw_eq_of_head (R : Rep db ns hs) {env : Env} {ls : List Leash} {r : List Fork}
    (h : mapGo (rawFork db) (env.mapOrder (groupLeashes ls)) = .ok r) {a b : Fork} (ha : a ∈ r) (hb : b ∈ r)
    (he : a.headBlock = b.headBlock) : a = b := by
  obtain ⟨h1, _⟩ := R.raw_facts h
  obtain ⟨_, x, hx, ea⟩ := h1 a ha
  obtain ⟨_, y, hy, eb⟩ := h1 b hb
  rw [he, hy] at hx
  cases hx
  rw [ea, eb, he]

/-- with one best block, the two reports have the same entries -/
theorem Rep.Forks_same (R : Rep db ns hs) (env1 env2 : Env) {filter : List Addr} {ls : List Leash} (hls : Chains.leashes db = .ok ls)
    (hst : ∀ l, l ∈ selected filter ls → Stored db l.blockID) (hu : OneBest db (selected filter ls)) :
    SameEntries (Forks env1 db filter) (Forks env2 db filter) := by
  rw [Forks_unfold, Forks_unfold, hls, go_bind_ok, go_bind_ok]
  rcases R.raw_same hst env1 env2 with ⟨r1, r2, h1, h2, hp⟩ | ⟨h1, h2⟩
  · rw [h1, h2, go_bind_ok, go_bind_ok]
    have p1 := env1.sort_perm forkLess r1
    have p2 := env2.sort_perm forkLess r2
    have p12 := p1.trans (hp.trans p2.symm)
    cases e1 : env1.sort forkLess r1 with
    | nil =>
      rw [e1] at p12
      rw [List.nil_perm.mp p12]
      exact Or.inr ⟨rfl, rfl⟩
    | cons a ra =>
      cases e2 : env2.sort forkLess r2 with
      | nil => rw [e1, e2] at p12; exact absurd (List.perm_nil.mp p12) (by simp)
      | cons b rb =>
        rw [e1, e2] at p12
        rw [e1] at p1
        rw [e2] at p2
        have hhead : a.headBlock = b.headBlock := hu _ _ (R.raw_best h1 e1) (R.raw_best h2 e2)
        have ha : a ∈ r1 := p1.mem_iff.mp (by simp)
        have hb : b ∈ r1 := hp.mem_iff.mpr (p2.mem_iff.mp (by simp))
        have hab := R.raw_eq_of_head h1 ha hb hhead
        subst hab
        obtain ⟨hf, _⟩ := R.raw_facts h1
        have stored : ∀ f, f ∈ r1 → Stored db f.headBlock := by
          intro f hm
          obtain ⟨l, hl, he⟩ := List.mem_map.mp (hf f hm).1
          exact he ▸ hst l hl
        refine mapGo_same ((List.perm_cons a).mp p12 |>.cons _) ?_
        intro f hm
        rcases List.mem_cons.mp hm with rfl | hm
        · exact R.finishFork_sane (stored a ha) (stored a ha)
        · exact R.finishFork_sane (stored a ha) (stored f (p1.mem_iff.mp (List.mem_cons_of_mem _ hm)))
  · rw [h1, h2]; exact Or.inr ⟨rfl, rfl⟩

/-- without ties the reports are equal -/
theorem Rep.Forks_eq (R : Rep db ns hs) (env1 env2 : Env) {filter : List Addr} {ls : List Leash} (hls : Chains.leashes db = .ok ls)
    (hst : ∀ l, l ∈ selected filter ls → Stored db l.blockID) (hn : NoTies db (selected filter ls)) :
    Forks env1 db filter = Forks env2 db filter := by
  rw [Forks_unfold, Forks_unfold, hls, go_bind_ok, go_bind_ok]
  rcases R.raw_same hst env1 env2 with ⟨r1, r2, h1, h2, hp⟩ | ⟨h1, h2⟩
  · rw [h1, h2, go_bind_ok, go_bind_ok]
    have p1 := env1.sort_perm forkLess r1
    have p2 := env2.sort_perm forkLess r2
    have p12 := p1.trans (hp.trans p2.symm)
    have heq : env1.sort forkLess r1 = env2.sort forkLess r2 := by
      refine List.Perm.eq_of_pairwise ?_ (env1.sort_sorted forkLess r1 forkLess_strictWeak)
        (env2.sort_sorted forkLess r2 forkLess_strictWeak) p12
      intro a b ha hb hab hba
      have ha := p1.mem_iff.mp ha
      have hb := hp.mem_iff.mpr (p2.mem_iff.mp hb)
      refine R.raw_eq_of_head h1 ha hb ?_
      rw [forkLess_false] at hab hba
      obtain ⟨hf, _⟩ := R.raw_facts h1
      have score : ∀ f, f ∈ r1 → f.headBlock ∈ (selected filter ls).map (·.blockID) ∧ ScoreOf db f.headBlock f.score ∧
          f.peers = peersOn (selected filter ls) f.headBlock := by
        intro f hm
        obtain ⟨hk, x, hx, he⟩ := hf f hm
        obtain ⟨_, _, rec, hrec, _, hsc, _⟩ := R.BlockOf_ok hx
        have e1 : f.score = x.score := by rw [he]; rfl
        have e2 : f.peers = peersOn (selected filter ls) f.headBlock := congrArg Fork.peers he
        exact ⟨hk, ⟨rec, hrec, by rw [e1, hsc]⟩, e2⟩
      obtain ⟨ka, sa, pa⟩ := score a ha
      obtain ⟨kb, sb, pb⟩ := score b hb
      have hs : a.score = b.score := by omega
      have hl : a.peers.length = b.peers.length := by omega
      exact hn _ _ a.score ka kb sa (hs ▸ sb) (by rw [← pa, ← pb, hl])
    rw [heq]
  · rw [h1, h2]; rfl

theorem bestLoop_sane : ∀ {m : List (BlockID × List Addr)} {s : Best}, (∀ p, p ∈ m → Sane (BlockOf db p.1)) →
    Sane (bestLoop db s m) ∧ (bestLoop db s m = goPanic ↔ ∃ p, p ∈ m ∧ BlockOf db p.1 = goPanic)
  | [], s, _ => ⟨Or.inl ⟨s, rfl⟩, by simp [bestLoop, goPanic]⟩
  | (k, v) :: m, s, h => by
    rcases h (k, v) (by simp) with ⟨b, hb⟩ | hb
    · simp only at hb
      obtain ⟨i1, i2⟩ := @bestLoop_sane m (s.step k b.score v.length) (fun p hp => h p (List.mem_cons_of_mem _ hp))
      have e : bestLoop db s ((k, v) :: m) = bestLoop db (s.step k b.score v.length) m := by simp [bestLoop, hb]
      rw [e]
      refine ⟨i1, i2.trans ?_⟩
      constructor
      · rintro ⟨p, hp, hq⟩; exact ⟨p, List.mem_cons_of_mem _ hp, hq⟩
      · rintro ⟨p, hp, hq⟩
        rcases List.mem_cons.mp hp with rfl | hp
        · simp only at hq; rw [hb] at hq; simp [goPanic] at hq
        · exact ⟨p, hp, hq⟩
    · simp only at hb
      have e : bestLoop db s ((k, v) :: m) = goPanic := by simp [bestLoop, hb, goPanic]
      exact ⟨Or.inr e, ⟨fun _ => ⟨(k, v), by simp, hb⟩, fun _ => e⟩⟩

/-- the best-block loop gives the same block -/
theorem Rep.best_same (R : Rep db ns hs) (env1 env2 : Env) {ls : List Leash} (hne : ls ≠ [])
    (hst : ∀ l, l ∈ ls → Stored db l.blockID) (hu : OneBest db ls) :
    (∃ s1 s2, bestLoop db Best.init (env1.mapOrder (groupLeashes ls)) = .ok s1 ∧
      bestLoop db Best.init (env2.mapOrder (groupLeashes ls)) = .ok s2 ∧ s1.longest = s2.longest ∧
      s1.longest ∈ ls.map (·.blockID)) ∨
    (bestLoop db Best.init (env1.mapOrder (groupLeashes ls)) = goPanic ∧
      bestLoop db Best.init (env2.mapOrder (groupLeashes ls)) = goPanic) := by
  have sane : ∀ env : Env, ∀ p, p ∈ env.mapOrder (groupLeashes ls) → Sane (BlockOf db p.1) := by
    intro env p hp
    obtain ⟨hv, hn⟩ := (mem_groupLeashes _ p.1 p.2).mp ((env.mapOrder_perm _).mem_iff.mp hp)
    rw [hv] at hn
    obtain ⟨l, hl, he⟩ := List.mem_map.mp (peersOn_ne_nil.mp hn)
    exact R.BlockOf_sane (he ▸ hst l hl)
  obtain ⟨a1, b1⟩ := bestLoop_sane (s := Best.init) (sane env1)
  obtain ⟨a2, b2⟩ := bestLoop_sane (s := Best.init) (sane env2)
  have hiff : bestLoop db Best.init (env1.mapOrder (groupLeashes ls)) = goPanic ↔
      bestLoop db Best.init (env2.mapOrder (groupLeashes ls)) = goPanic := by
    rw [b1, b2]
    constructor
    · rintro ⟨p, hp, h⟩
      exact ⟨p, (env2.mapOrder_perm _).mem_iff.mpr ((env1.mapOrder_perm _).mem_iff.mp hp), h⟩
    · rintro ⟨p, hp, h⟩
      exact ⟨p, (env1.mapOrder_perm _).mem_iff.mpr ((env2.mapOrder_perm _).mem_iff.mp hp), h⟩
  rcases a1 with ⟨s1, h1⟩ | h1
  · rcases a2 with ⟨s2, h2⟩ | h2
    · have B1 := (R.best_isBest hne h1).1
      exact Or.inl ⟨s1, s2, h1, h2, hu _ _ B1 (R.best_isBest hne h2).1, B1.1⟩
    · rw [hiff.mpr h2] at h1; simp [goPanic] at h1
  · exact Or.inr ⟨h1, hiff.mp h1⟩

theorem forkLoop_panics {peer : Addr} : ∀ {m : List (BlockID × List Addr)} {s : Best} {f : Fork},
    bestLoop db s m = goPanic → forkLoop db peer s f m = goPanic
  | [], s, f, h => by simp [bestLoop, goPanic] at h
  | (k, v) :: m, s, f, h => by
    cases hb : BlockOf db k with
    | error e =>
      simp only [bestLoop, hb] at h
      simp only [forkLoop, hb]
      have he : (Except.error e : Go Best) = goPanic := h
      simp only [goPanic, Except.error.injEq] at he
      subst he
      rfl
    | ok b =>
      simp only [bestLoop, hb, go_bind_ok] at h
      simp only [forkLoop, hb, go_bind_ok]
      exact forkLoop_panics h

theorem forkLoop_of_best {peer : Addr} : ∀ {m : List (BlockID × List Addr)} {s s' : Best} {f : Fork},
    bestLoop db s m = .ok s' → ∃ f', forkLoop db peer s f m = .ok (s', f')
  | [], s, s', f, h => by simp only [bestLoop, Except.ok.injEq] at h; exact ⟨f, by rw [forkLoop, h]⟩
  | (k, v) :: m, s, s', f, h => by
    cases hb : BlockOf db k with
    | error e => simp [bestLoop, hb] at h
    | ok b =>
      simp only [bestLoop, hb, go_bind_ok] at h
      simp only [forkLoop, hb, go_bind_ok]
      exact forkLoop_of_best h

/-! ### checking that there is one best block -/

/-- all leashed blocks other than `b0` have a lower score -/
def aheadOfAll (db : DB) (ls : List Leash) (b0 : BlockID) : Bool :=
  match getBlockByID db b0 with
  | .error _ => false
  | .ok r0 => (ls.map (·.blockID)).contains b0 && (ls.map (·.blockID)).all (fun c => decide (c = b0) ||
      match getBlockByID db c with
      | .error _ => false
      | .ok r => decide (r.score < r0.score))

theorem oneBest_of {ls : List Leash} {b0 : BlockID} (h : aheadOfAll db ls b0 = true) : OneBest db ls := by
  unfold aheadOfAll at h
  cases h0 : getBlockByID db b0 with
  | error e => rw [h0] at h; cases h
  | ok r0 =>
    rw [h0] at h
    simp only [Bool.and_eq_true, List.all_eq_true, Bool.or_eq_true, decide_eq_true_eq, List.contains_iff_mem] at h
    have only : ∀ b, IsBest db ls b → b = b0 := by
      rintro b ⟨hb, sb, ⟨rb, hrb, rfl⟩, hall⟩
      rcases h.2 b hb with e | e
      · exact e
      · rw [hrb] at e
        simp only [decide_eq_true_eq] at e
        obtain ⟨s0, ⟨r, hr, rfl⟩, hc⟩ := hall b0 h.1
        rw [h0] at hr
        cases hr
        omega
    exact fun b b' hb hb' => (only b hb).trans (only b' hb').symm

end Verif.Chains
