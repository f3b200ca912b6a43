import Verif.Chains.ForkOk
import Verif.Chains.Examples
import Verif.Props.Lca
/-
Properties C14-C21 and C28: fork reports, the last common block with the best
chain, statistics and generators.  `env` stands for the iteration order of Go
maps and the behaviour of `sort.Sort`; every theorem holds for every `env`.
-/
set_option autoImplicit false

namespace Verif.Props

open Verif KV Chains Spec

/-! ## C28: the best block -/

/-- Whatever order the leash map is visited in, the block selected as longest by `LCB` and `Fork` is leashed and has
the maximal score, and the maximal number of peers among those with that score. -/
theorem C28_best_chosen {g : ProtoBlock} {l : Linkage} (h : Reachable g l) (env : Env) {ls : List Leash} (hne : ls ≠ [])
    {s : Best} (hb : bestLoop l.db Best.init (env.mapOrder (groupLeashes ls)) = .ok s) : IsBest l.db ls s.longest := by
  obtain ⟨ns, hs, R, _⟩ := reachable_rep h
  exact (R.best_isBest hne hb).1

/-- Observed from outside: a fork reported as longest by `Fork(peer)` has a best head, and if there is only one best
block then the peers on it get the flag. -/
theorem C28_longest_flag {g : ProtoBlock} {l : Linkage} (h : Reachable g l) (env : Env) {ls : List Leash}
    (hls : Leashes l.db = .ok ls) {p : Addr} {id : BlockID} (hp : { addr := p, blockID := id } ∈ ls) {f : Fork}
    (hf : ForkOf env l.db p = .ok f) :
    (f.longest = true → IsBest l.db ls id) ∧
    (IsBest l.db ls id → (∀ b, IsBest l.db ls b → b = id) → f.longest = true) := by
  obtain ⟨ns, hs, R, _⟩ := reachable_rep h
  obtain ⟨b, best, hB, _, _, hcase⟩ := R.ForkOf_ok hls hp hf
  rcases hcase with ⟨rfl, rfl⟩ | ⟨hne, _, _, _, _, rfl⟩
  · exact ⟨fun _ => hB, fun _ _ => rfl⟩
  · exact ⟨fun h => by simp [mkFork] at h, fun _ hu => absurd (hu _ hB) (Ne.symm hne)⟩

example : ∃ ls, Leashes Ex.l1.db = .ok ls ∧ ls ≠ [] ∧
    { addr := Ex.ip 2, blockID := Ex.bid 4 } ∈ ls ∧ (ForkOf Ex.env Ex.l1.db (Ex.ip 2)).isOk = true ∧
    (ForkOf Ex.envRev Ex.l1.db (Ex.ip 2)).isOk = true :=
  ⟨[⟨Ex.ip 1, Ex.bid 2⟩, ⟨Ex.ip 2, Ex.bid 4⟩], by decide +kernel, by simp, by simp, by decide +kernel, by decide +kernel⟩

/-! ## C14: LCB -/

/-- What `LCB` answers.  A peer without a leash gets the genesis id.  If a leashed peer gets an answer, it is the lowest
common ancestor of the peer's block and a best leashed block, which is the peer's block itself if that is the best block
chosen.  Missing for the full claim: the comparison may panic (`C14_panics`), and `C14_answers` says when it does
not. -/
theorem C14_lcb_partial {g : ProtoBlock} {l : Linkage} (h : Reachable g l) (env : Env) (p : Addr) :
    (HasLeash l.db p = .ok false → LCB env l p = .ok l.genesis) ∧
    ∀ ls c, HasLeash l.db p = .ok true → Leashes l.db = .ok ls → ls ≠ [] → LCB env l p = .ok c →
      ∃ head b, LeashOf l p = .ok head ∧ IsBest l.db ls b ∧ IsLCA l.db b head c ∧ (head = b → c = head) := by
  obtain ⟨ns, hs, R, _⟩ := reachable_rep h
  rcases (R.getLeash_cases p).symm with hg | ⟨id, hg⟩
  · refine ⟨fun _ => by simp [LCB, hg, fail], fun ls c hh => by simp [HasLeash, hg, fail] at hh⟩
  · refine ⟨fun hh => by simp [HasLeash, hg] at hh, ?_⟩
    intro ls c _ hls hne hc
    simp only [LCB, hg] at hc
    rw [show leashes l.db = .ok ls from hls] at hc
    simp only [go_bind_ok] at hc
    obtain ⟨s, hs', hc⟩ := go_bind_eq_ok.mp hc
    obtain ⟨hB, b, hb⟩ := R.best_isBest hne hs'
    refine ⟨id, s.longest, by simp [LeashOf, hg], hB, ?_⟩
    split at hc
    · rename_i heq
      simp only [go_pure, Except.ok.injEq] at hc
      subst hc
      rw [← heq]
      exact ⟨⟨.refl _, .refl _, fun d hd _ => hd⟩, fun _ => rfl⟩
    · rename_i hne'
      exact ⟨(R.lca_ok hc).2.2.1, fun e => absurd e hne'⟩

/-- `LCB` answers whenever the listed leashes are on readable blocks and the peer's chain can be compared with theirs. -/
theorem C14_answers {g : ProtoBlock} {l : Linkage} (h : Reachable g l) (env : Env) (p : Addr) (head : BlockID) (ls : List Leash)
    (hl : LeashOf l p = .ok head) (hls : Leashes l.db = .ok ls) (hne : ls ≠ []) (hst : Stored l.db head)
    (hr : ∀ q id, { addr := q, blockID := id } ∈ ls → Readable l.db id ∧ Close l.db id head) :
    ∃ c, LCB env l p = .ok c := by
  obtain ⟨ns, hs, R, _⟩ := reachable_rep h
  have hr' : ∀ id, id ∈ ls.map (·.blockID) → Readable l.db id ∧ Close l.db id head := by
    intro id hid
    obtain ⟨⟨a, i⟩, hm, rfl⟩ := List.mem_map.mp hid
    exact hr a i hm
  unfold LCB
  rcases (R.getLeash_cases p).symm with hg | ⟨id, hg⟩
  · rw [hg]; exact ⟨_, rfl⟩
  · rw [hg]
    have : id = head := by simpa [LeashOf, hg] using hl
    subst this
    simp only
    rw [show leashes l.db = .ok ls from hls]
    obtain ⟨s, hs'⟩ := R.best_total env (fun id hid => (hr' id hid).1)
    rw [go_bind_ok, hs', go_bind_ok]
    split
    · exact ⟨_, rfl⟩
    · obtain ⟨hB, b, hb⟩ := R.best_isBest hne hs'
      exact R.lca_close (R.BlockOf_ok hb).2.1 hst (hr' _ hB.1).2

/-- the comparison, and with it `LCB`, `Forks`, `Fork` and `Stats`, panics on a store with two long branches -/
theorem C14_panics : ∃ l p, Reachable Ex.g0 l ∧ HasLeash l.db p = .ok true ∧ (∀ q id, { addr := q, blockID := id } ∈
    ([⟨Ex.ip 1, Ex.bid 5⟩, ⟨Ex.ip 2, Ex.bid 15⟩] : List Leash) → Stored l.db id) ∧
    Leashes l.db = .ok [⟨Ex.ip 1, Ex.bid 5⟩, ⟨Ex.ip 2, Ex.bid 15⟩] ∧
    LCB Ex.env l p = goPanic ∧ ForkOf Ex.env l.db p = goPanic ∧ Forks Ex.env l.db [] = goPanic ∧ StatsOf Ex.env l.db = goPanic := by
  refine ⟨exec Ex.l0 twoBranches, Ex.ip 2, ⟨Ex.l0, _, Ex.fresh, by decide +kernel, rfl⟩, by decide +kernel, ?_, by decide +kernel,
    by decide +kernel, by decide +kernel, by decide +kernel, by decide +kernel⟩
  intro q id hm
  simp only [List.mem_cons, Leash.mk.injEq, List.not_mem_nil, or_false] at hm
  rcases hm with ⟨_, rfl⟩ | ⟨_, rfl⟩ <;> · unfold Stored; decide +kernel

example : LCB Ex.env Ex.l1 (Ex.ip 1) = .ok (Ex.bid 2) ∧ LCB Ex.env Ex.l1 (Ex.ip 2) = .ok (Ex.bid 1) ∧
    LCB Ex.env Ex.l1 (Ex.ip 7) = .ok (Ex.bid 0) := by decide +kernel

/-! ## C15: the partition of the peers -/

/-- A report has exactly one entry per block some selected peer is on; the peers of an entry are exactly the selected
peers on its head, none twice, and their number is given. -/
theorem C15_partition {g : ProtoBlock} {l : Linkage} (h : Reachable g l) (env : Env) (filter : List Addr) {fs : List Fork}
    (hf : Forks env l.db filter = .ok fs) :
    ∃ ls, Leashes l.db = .ok ls ∧ (fs.map (·.headBlock)).Nodup ∧
      (∀ id, id ∈ fs.map (·.headBlock) ↔ ∃ p, Selected filter ls p id) ∧
      ∀ f, f ∈ fs → (∀ p, p ∈ f.peers ↔ Selected filter ls p f.headBlock) ∧ f.peers.Nodup ∧ f.peersCount = f.peers.length := by
  obtain ⟨ns, hs, R, _⟩ := reachable_rep h
  obtain ⟨ls, hls, f0, rest, rfl, _, _, _, hperm, hent⟩ := R.Forks_ok hf
  have hnd : (ls.map (·.addr)).Nodup := by
    obtain ⟨ls', hls', hnd, _⟩ := R.leashes
    rw [hls] at hls'; cases hls'; exact hnd
  refine ⟨ls, hls, hperm.nodup_iff.mpr (groupLeashes_nodup _), ?_, ?_⟩
  · intro id
    rw [hperm.mem_iff]
    constructor
    · intro hm
      obtain ⟨⟨k, v⟩, hm', rfl⟩ := List.mem_map.mp hm
      obtain ⟨hv, hne⟩ := (mem_groupLeashes (selected filter ls) k v).mp hm'
      rw [hv] at hne
      obtain ⟨⟨a, i⟩, hl, he⟩ := List.mem_map.mp (peersOn_ne_nil.mp hne)
      simp only at he
      subst he
      exact ⟨a, mem_selected.mp hl⟩
    · rintro ⟨p, hp⟩
      have hm := mem_selected.mpr hp
      have hne : peersOn (selected filter ls) id ≠ [] := peersOn_ne_nil.mpr (List.mem_map.mpr ⟨_, hm, rfl⟩)
      exact List.mem_map.mpr ⟨(id, _), (mem_groupLeashes _ _ _).mpr ⟨rfl, hne⟩, rfl⟩
  · intro f hm
    obtain ⟨b, lb, E⟩ := hent f hm
    refine ⟨fun p => ?_, ?_, E.count⟩
    · rw [E.peers, mem_peersOn, mem_selected]
    · rw [E.peers]
      exact (peersOn_sublist _ _).nodup ((List.filter_sublist.map _).nodup hnd)

/-- every selected leashed peer is in exactly one entry -/
theorem C15_each_peer_once {g : ProtoBlock} {l : Linkage} (h : Reachable g l) (env : Env) (filter : List Addr) {fs : List Fork}
    (hf : Forks env l.db filter = .ok fs) (ls : List Leash) (hls : Leashes l.db = .ok ls) (p : Addr) (id : BlockID)
    (hp : Selected filter ls p id) :
    ∃ f, f ∈ fs ∧ p ∈ f.peers ∧ f.headBlock = id ∧ ∀ f', f' ∈ fs → p ∈ f'.peers → f' = f := by
  obtain ⟨ls', hls', hnd, hid, hent⟩ := C15_partition h env filter hf
  rw [hls] at hls'; cases hls'
  obtain ⟨f, hm, rfl⟩ := List.mem_map.mp ((hid id).mpr ⟨p, hp⟩)
  refine ⟨f, hm, ((hent f hm).1 p).mpr hp, rfl, ?_⟩
  intro f' hm' hp'
  have hs' := ((hent f' hm').1 p).mp hp'
  obtain ⟨ns, hs, R, _⟩ := reachable_rep h
  obtain ⟨ls', hls', _, hleash⟩ := R.leashes
  rw [show leashes l.db = .ok ls from hls] at hls'; cases hls'
  have h1 := ((hleash _ _).mp hp.1).2.2
  have h2 := ((hleash _ _).mp hs'.1).2.2
  rw [h1] at h2
  simp only [Except.ok.injEq] at h2
  exact eq_of_nodup_map hnd hm' hm h2.symm

/-- An empty filter selects everybody; a report is given whenever somebody is selected, the selected leashes are on
readable blocks and their chains can be compared. -/
theorem C15_C16_C17_answers {g : ProtoBlock} {l : Linkage} (h : Reachable g l) (env : Env) (filter : List Addr) (ls : List Leash)
    (hls : Leashes l.db = .ok ls) (hne : ∃ p id, Selected filter ls p id)
    (hr : ∀ p id, Selected filter ls p id → Readable l.db id)
    (hc : ∀ p id q id', Selected filter ls p id → Selected filter ls q id' → Close l.db id id') :
    ∃ fs, Forks env l.db filter = .ok fs := by
  obtain ⟨ns, hs, R, _⟩ := reachable_rep h
  have hsel : ∀ x, x ∈ selected filter ls → Selected filter ls x.addr x.blockID := fun x hx => mem_selected.mp hx
  refine R.Forks_total env hls ?_ ?_ ?_
  · obtain ⟨p, id, hp⟩ := hne
    intro e
    have := mem_selected.mpr hp
    rw [e] at this; simp at this
  · intro x hx; exact R.BlockOf_readable (hr _ _ (hsel x hx))
  · intro x y hx hy
    have st : ∀ {i}, Readable l.db i → Stored l.db i := by
      intro i hi
      obtain ⟨b, hb⟩ := R.BlockOf_readable hi
      exact (R.BlockOf_ok hb).2.1
    exact R.lca_close (st (hr _ _ (hsel x hx))) (st (hr _ _ (hsel y hy))) (hc _ _ _ _ (hsel x hx) (hsel y hy))

example : (Forks Ex.env Ex.l1.db []).map (·.map (fun f => (f.headBlock, f.peers, f.longest, f.length))) =
    .ok [(Ex.bid 2, [Ex.ip 1], true, 0), (Ex.bid 4, [Ex.ip 2], false, 1)] ∧
    (Forks Ex.env Ex.l1.db [Ex.ip 2, Ex.ip 9]).map (·.map (fun f => (f.headBlock, f.peers))) =
    .ok [(Ex.bid 4, [Ex.ip 2])] := ⟨by decide +kernel, by decide +kernel⟩

/-! ## C16: ranking -/

/-- A report is not empty; its first entry and no other is flagged; entries are ordered by score and then by number of
peers, so no entry beats the first. -/
theorem C16_ranked {g : ProtoBlock} {l : Linkage} (h : Reachable g l) (env : Env) (filter : List Addr) {fs : List Fork}
    (hf : Forks env l.db filter = .ok fs) :
    ∃ f0 rest, fs = f0 :: rest ∧ f0.longest = true ∧ (∀ f, f ∈ rest → f.longest = false) ∧
      fs.Pairwise (fun a b => b.score < a.score ∨ (b.score = a.score ∧ b.peersCount ≤ a.peersCount)) ∧
      ∀ f, f ∈ fs → ScoreOf l.db f.headBlock f.score := by
  obtain ⟨ns, hs, R, _⟩ := reachable_rep h
  obtain ⟨ls, hls, f0, rest, rfl, h1, h2, h3, _, hent⟩ := R.Forks_ok hf
  refine ⟨f0, rest, rfl, h1, h2, ?_, ?_⟩
  · refine h3.imp_of_mem ?_
    intro a b ha hb hh
    obtain ⟨_, _, Ea⟩ := hent a ha
    obtain ⟨_, _, Eb⟩ := hent b hb
    rw [Ea.count, Eb.count]
    exact forkLess_false.mp hh
  · intro f hm
    obtain ⟨b, lb, E⟩ := hent f hm
    obtain ⟨_, _, r, hr, _, hsc, _⟩ := R.BlockOf_ok E.block
    exact ⟨r, hr, by rw [E.score, hsc]⟩

/-- without a filter the flagged fork is a best one over all peers -/
theorem C16_first_is_best {g : ProtoBlock} {l : Linkage} (h : Reachable g l) (env : Env) {f0 : Fork} {rest : List Fork}
    (hf : Forks env l.db [] = .ok (f0 :: rest)) (ls : List Leash) (hls : Leashes l.db = .ok ls) : IsBest l.db ls f0.headBlock := by
  obtain ⟨ns, hs, R, _⟩ := reachable_rep h
  exact R.Forks_first_best hls hf

/-! ## C17: lengths and last common blocks -/

/-- In every entry the last common block is the lowest common ancestor of the head and the longest head, the length is the
difference of the heights and not negative, and the head data is that of the head block.  For the longest
entry the length is 0 and the last common block is the head. -/
theorem C17_lengths {g : ProtoBlock} {l : Linkage} (h : Reachable g l) (env : Env) (filter : List Addr) {f0 : Fork} {rest : List Fork}
    (hf : Forks env l.db filter = .ok (f0 :: rest)) :
    f0.length = 0 ∧ f0.lastCommonBlock = f0.headBlock ∧
    ∀ f, f ∈ f0 :: rest → IsLCA l.db f0.headBlock f.headBlock f.lastCommonBlock ∧
      ∃ r rc, getBlockByID l.db f.headBlock = .ok r ∧ getBlockByID l.db f.lastCommonBlock = .ok rc ∧
        f.length = (r.height.toNat : Int) - rc.height.toNat ∧ 0 ≤ f.length ∧
        f.headHeight = r.height ∧ f.headTimestamp = r.timestamp ∧ f.headGenerator = r.generator ∧ f.score = r.score := by
  obtain ⟨ns, hs, R, _⟩ := reachable_rep h
  obtain ⟨ls, hls, f0', rest', heq, h1, h2, h3, _, hent⟩ := R.Forks_ok hf
  cases heq
  have hself : f0.lastCommonBlock = f0.headBlock := by
    obtain ⟨b, lb, E⟩ := hent f0 (by simp)
    have := E.common
    rw [R.lca_self (R.BlockOf_ok E.block).2.1] at this
    exact (Except.ok.inj this).symm
  refine ⟨?_, hself, ?_⟩
  · obtain ⟨b, lb, E⟩ := hent f0 (by simp)
    obtain ⟨_, _, r, hr, hh, _⟩ := R.BlockOf_ok E.block
    have := E.commonRec
    rw [hself, hr] at this
    cases this
    rw [E.length, hh]; omega
  · intro f hm
    obtain ⟨b, lb, E⟩ := hent f hm
    obtain ⟨b0, lb0, E0⟩ := hent f0 (by simp)
    obtain ⟨_, _, r, hr, hh, hsc, hg, ht⟩ := R.BlockOf_ok E.block
    obtain ⟨_, _, r0, hr0, _⟩ := R.BlockOf_ok E0.block
    obtain ⟨_, _, hl, hle⟩ := R.lca_ok E.common
    have hle' := hle r0 r lb hr0 hr E.commonRec
    refine ⟨hl, r, lb, hr, E.commonRec, by rw [E.length, hh], by rw [E.length, hh]; omega, by rw [E.height, hh],
      by rw [E.ts, ht], by rw [E.gen, hg], by rw [E.score, hsc]⟩

/-! ## C18: nobody selected -/

/-- The claim fails: with nobody selected `Forks` panics, and so does `Stats` when there are no leashes. -/
theorem C18_panics {g : ProtoBlock} {l : Linkage} (env : Env) (filter : List Addr) (_h : Reachable g l) (ls : List Leash)
    (hls : Leashes l.db = .ok ls) (hno : ∀ p id, ¬ Selected filter ls p id) :
    Forks env l.db filter = goPanic ∧ (filter = [] → StatsOf env l.db = goPanic) := by
  have hsel : selected filter ls = [] := by
    apply List.eq_nil_iff_forall_not_mem.mpr
    intro x hx
    exact hno _ _ (mem_selected.mp hx)
  have hp := Forks_empty (env := env) hls hsel
  refine ⟨hp, ?_⟩
  rintro rfl
  simp [StatsOf, hp, goPanic]

/-- Witnesses: a fresh store, and a filter naming only an unknown peer. -/
theorem C18_witness : Reachable Ex.g0 Ex.l0 ∧ Forks Ex.env Ex.l0.db [] = goPanic ∧ StatsOf Ex.env Ex.l0.db = goPanic ∧
    Reachable Ex.g0 Ex.l1 ∧ Forks Ex.env Ex.l1.db [Ex.ip 9] = goPanic :=
  ⟨⟨Ex.l0, [], Ex.fresh, by decide, rfl⟩, by decide +kernel, by decide +kernel, Ex.reach1, by decide +kernel⟩

/-- What holds of the claim: `Forks` and `Stats` never answer with an error value because nobody is selected,
and no wrong report is given: if `Forks` answers then somebody is selected.  Missing: the empty report. -/
theorem C18_no_wrong_report_partial {g : ProtoBlock} {l : Linkage} (h : Reachable g l) (env : Env) (filter : List Addr) {fs : List Fork}
    (hf : Forks env l.db filter = .ok fs) (ls : List Leash) (hls : Leashes l.db = .ok ls) : ∃ p id, Selected filter ls p id := by
  obtain ⟨ls', hls', _, hid, _⟩ := C15_partition h env filter hf
  rw [hls] at hls'; cases hls'
  obtain ⟨f0, rest, rfl, _⟩ := C16_ranked h env filter hf
  obtain ⟨p, hp⟩ := (hid f0.headBlock).mp (by simp)
  exact ⟨p, _, hp⟩

/-! ## C19: Fork(peer) agrees with Forks() -/

/-- For a listed peer, `Fork(peer)` gives the data of the one entry of `Forks()` containing the peer, whatever the two
iteration orders; the two are equal in all fields when only one block is best. -/
theorem C19_fork_agrees {g : ProtoBlock} {l : Linkage} (h : Reachable g l) (env1 env2 : Env) {ls : List Leash}
    (hls : Leashes l.db = .ok ls) {p : Addr} {id : BlockID} (hp : { addr := p, blockID := id } ∈ ls) {f : Fork} {fs : List Fork}
    (hf : ForkOf env1 l.db p = .ok f) (hfs : Forks env2 l.db [] = .ok fs) :
    ∃ e, e ∈ fs ∧ p ∈ e.peers ∧ (∀ e', e' ∈ fs → p ∈ e'.peers → e' = e) ∧
      f.headBlock = e.headBlock ∧ f.headTimestamp = e.headTimestamp ∧ f.headHeight = e.headHeight ∧ f.score = e.score ∧
      f.headGenerator = e.headGenerator ∧ f.peers = e.peers ∧ f.peersCount = e.peersCount ∧
      ((∀ b b', IsBest l.db ls b → IsBest l.db ls b' → b = b') → f = e) := by
  obtain ⟨e, hm, hpe, hhead, huniq⟩ := C15_each_peer_once h env2 [] hfs ls hls p id ⟨hp, Or.inl rfl⟩
  refine ⟨e, hm, hpe, huniq, ?_⟩
  obtain ⟨ns, hs, R, _⟩ := reachable_rep h
  obtain ⟨b, best, hB, hb, hbs, hcase⟩ := R.ForkOf_ok hls hp hf
  obtain ⟨ls', hls', f0, rest, rfl, hlong, hnlong, _, _, hent⟩ := R.Forks_ok hfs
  rw [show leashes l.db = .ok ls from hls] at hls'; cases hls'
  obtain ⟨be, lbe, E⟩ := hent e hm
  have hbe := E.block
  rw [hhead, hb] at hbe
  cases hbe
  rw [selected_nil] at E
  have hbid := (R.BlockOf_ok hb).1
  have hpeers := E.peers
  rw [hhead] at hpeers
  have key : f.headBlock = e.headBlock ∧ f.headTimestamp = e.headTimestamp ∧ f.headHeight = e.headHeight ∧ f.score = e.score ∧
      f.headGenerator = e.headGenerator ∧ f.peers = e.peers ∧ f.peersCount = e.peersCount := by
    rcases hcase with ⟨_, rfl⟩ | ⟨_, c, lb, _, _, rfl⟩ <;>
      exact ⟨by rw [hhead]; exact hbid, E.ts.symm, E.height.symm, E.score.symm, E.gen.symm, by rw [hpeers]; rfl,
        by rw [E.count, hpeers]; rfl⟩
  refine ⟨key.1, key.2.1, key.2.2.1, key.2.2.2.1, key.2.2.2.2.1, key.2.2.2.2.2.1, key.2.2.2.2.2.2, ?_⟩
  intro hu
  have hf0 := hu _ _ (R.Forks_first_best hls hfs) hB
  have h17 := C17_lengths h env2 [] hfs
  have hlen := E.length
  rcases hcase with ⟨hid, rfl⟩ | ⟨hne, c, lb, hc, hlb, rfl⟩
  · -- the peer is on the best block, so its entry is the first one
    have he0 : e = f0 := (huniq f0 (by simp) (by
      obtain ⟨b0, lb0, E0⟩ := hent f0 (by simp)
      rw [E0.peers, selected_nil, mem_peersOn, hf0, ← hid]; exact hp)).symm
    subst he0
    refine fork_ext hlong.symm key.1 key.2.1 key.2.2.2.2.1 key.2.2.1 key.2.2.2.1 key.2.2.2.2.2.2 key.2.2.2.2.2.1 ?_ h17.1.symm
    rw [h17.2.1, hhead]; exact hbid
  · have hcom := E.common
    rw [hhead, hf0, hc] at hcom
    have hcom := Except.ok.inj hcom
    have hrec := E.commonRec
    rw [← hcom, hlb] at hrec
    cases hrec
    have hel : e.longest = false := by
      rcases List.mem_cons.mp hm with rfl | hm
      · exact absurd (hhead.symm.trans hf0) hne
      · exact hnlong e hm
    refine fork_ext hel.symm key.1 key.2.1 key.2.2.2.2.1 key.2.2.1 key.2.2.2.1 key.2.2.2.2.2.2 key.2.2.2.2.2.1 hcom ?_
    rw [hlen]

/-- `Fork(peer)` answers under the same conditions as `Forks()` -/
theorem C19_fork_answers {g : ProtoBlock} {l : Linkage} (h : Reachable g l) (env : Env) {ls : List Leash}
    (hls : Leashes l.db = .ok ls) {p : Addr} {id : BlockID} (hp : { addr := p, blockID := id } ∈ ls)
    (hr : ∀ q i, { addr := q, blockID := i } ∈ ls → Readable l.db i ∧ Close l.db i id) : ∃ f, ForkOf env l.db p = .ok f := by
  obtain ⟨ns, hs, R, _⟩ := reachable_rep h
  have hr' : ∀ i, i ∈ ls.map (·.blockID) → Readable l.db i ∧ Close l.db i id := by
    intro i hi
    obtain ⟨⟨a, j⟩, hm, rfl⟩ := List.mem_map.mp hi
    exact hr a j hm
  have hrb : ∀ k v, (k, v) ∈ env.mapOrder (groupLeashes ls) → ∃ b, BlockOf l.db k = .ok b := by
    intro k v hm
    obtain ⟨hv, hne⟩ := (mem_groupLeashes _ _ _).mp ((env.mapOrder_perm _).mem_iff.mp hm)
    rw [hv] at hne
    exact R.BlockOf_readable (hr' k (peersOn_ne_nil.mp hne)).1
  obtain ⟨⟨s, f⟩, hloop⟩ := forkLoop_total (peer := p) (s := Best.init) (f := zeroFork) hrb
  obtain ⟨hB, b, hb⟩ := R.best_isBest (List.ne_nil_of_mem hp) (forkLoop_best hloop)
  have hhead : f.headBlock = id := by
    obtain ⟨v, _, _, hm⟩ := R.fork_selected hls hp hloop
    exact hm
  unfold ForkOf
  rw [show leashes l.db = .ok ls from hls, go_bind_ok, hloop, go_bind_ok]
  simp only
  split
  · exact ⟨_, rfl⟩
  · have hst : Stored l.db id := by
      obtain ⟨b', hb'⟩ := R.BlockOf_readable (hr p id hp).1
      exact (R.BlockOf_ok hb').2.1
    obtain ⟨c, hc⟩ := R.lca_close (R.BlockOf_ok hb).2.1 hst (hr' _ hB.1).2
    obtain ⟨r, hrec⟩ := R.lca_rec hc
    rw [hhead, hc, go_bind_ok, hrec]
    exact ⟨_, rfl⟩

/-- Blocks 2 and 4 have the same score and one peer each, so which one `Fork` takes for the longest depends on the
iteration order: the condition in `C19_fork_agrees` is needed. -/
theorem C19_tie : (ForkOf Ex.env Ex.l1.db (Ex.ip 2)).map (fun f => (f.headBlock, f.longest, f.length, f.lastCommonBlock)) =
      .ok (Ex.bid 4, false, 1, Ex.bid 1) ∧
    (ForkOf Ex.envRev Ex.l1.db (Ex.ip 2)).map (fun f => (f.headBlock, f.longest, f.length, f.lastCommonBlock)) =
      .ok (Ex.bid 4, true, 0, Ex.bid 4) := ⟨by decide +kernel, by decide +kernel⟩

/-! ## C20: Stats -/

/-- `Stats` counts every entry of `Forks()` once, as long exactly if its length exceeds 5. -/
theorem C20_stats (env : Env) (db : DB) {fs : List Fork} (hf : Forks env db [] = .ok fs) :
    ∃ s, StatsOf env db = .ok s ∧ s.short + s.long = fs.length ∧ s.long = (fs.filter (fun f => 5 < f.length)).length ∧
      s.short = (fs.filter (fun f => f.length ≤ 5)).length := by
  simp only [StatsOf, hf, go_bind_ok, go_pure]
  refine ⟨_, rfl, ?_, rfl, ?_⟩
  · simp only
    have : ∀ l : List Fork, (l.filter (fun f => decide ¬ (f.length > 5))).length + (l.filter (fun f => decide (f.length > 5))).length = l.length := by
      intro l
      induction l with
      | nil => rfl
      | cons a l ih =>
        by_cases h : a.length > 5
        · rw [List.filter_cons_of_neg (by simpa using h), List.filter_cons_of_pos (by simpa using h)]
          simp only [List.length_cons]; omega
        · rw [List.filter_cons_of_pos (by simpa using h), List.filter_cons_of_neg (by simpa using h)]
          simp only [List.length_cons]; omega
    exact this fs
  · simp only
    congr 1
    apply List.filter_congr
    intro f _
    simp

/-- `Stats` fails exactly as `Forks()` does -/
theorem C20_stats_fails (env : Env) (db : DB) (e : Fault) : StatsOf env db = .error e ↔ Forks env db [] = .error e := by
  unfold StatsOf
  cases h : Forks env db [] with
  | ok fs => simp
  | error e' => simp

example : StatsOf Ex.env Ex.l1.db = .ok { short := 2, long := 0 } := by decide +kernel

/-! ## C21: ForkGenerators -/

/-- `ForkGenerators(id, count)` is about the blocks of `LastIDs(id, count)`: every generator of one of them is listed
exactly once with its exact number of blocks, in non-increasing order; the counts add up to min(count, height). -/
theorem C21_generators {g : ProtoBlock} {l : Linkage} (h : Reachable g l) (env : Env) (id : BlockID) (count : Nat)
    {height : Nat} (hh : HeightOf l.db id height) {gs : List GeneratorStats} (hg : ForkGenerators env l.db id count = .ok gs) :
    ∃ (ids : List BlockID) (rs : List BlockRec), LastIDs l.db id count = .ok ids ∧ ids.map (getBlockByID l.db) = rs.map Except.ok ∧
      (gs.map (·.generator)).Nodup ∧
      (∀ a n, { generator := a, blocks := n } ∈ gs ↔ n = (rs.map (·.generator)).count a ∧ n ≠ 0) ∧
      gs.Pairwise (fun a b => b.blocks ≤ a.blocks) ∧ (gs.map (·.blocks)).sum = min count height := by
  obtain ⟨ns, hs, R, _⟩ := reachable_rep h
  have hst : Stored l.db id := by
    obtain ⟨r, hr, _⟩ := hh
    cases hn : numOf ns id with
    | none => simp [R.getBlockByID, hn, fail] at hr
    | some n => exact R.stored_iff.mpr ⟨n, hn⟩
  obtain ⟨ids, hids, hlen, hbs⟩ := R.getBlocks_ids hst count
  rw [(R.heightOf (R.stored_iff.mp hst).choose_spec).mp hh] at hlen
  unfold ForkGenerators at hg
  rw [hbs] at hg
  obtain ⟨bs, hbs', hg⟩ := go_bind_eq_ok.mp hg
  simp only [go_pure, Except.ok.injEq] at hg
  obtain ⟨rs, hrs, hgen⟩ := R.mapGo_BlockOf_recs hbs'
  refine ⟨ids, rs, hids, hrs, ?_⟩
  rw [hgen] at hg
  obtain ⟨c1, c2, c3, c4⟩ := foldl_countInsert (rs.map (·.generator)) [] (by simp) (by simp)
  have hperm : gs.Perm (((rs.map (·.generator)).foldl countInsert []).map (fun p => { generator := p.1, blocks := p.2 })) := by
    rw [← hg]
    exact (env.sort_perm _ _).trans ((env.mapOrder_perm _).map _)
  refine ⟨?_, ?_, ?_, ?_⟩
  · rw [(hperm.map _).nodup_iff, List.map_map]
    exact c1
  · intro a n
    rw [hperm.mem_iff, ← mem_counts]
    simp only [List.mem_map, GeneratorStats.mk.injEq, Prod.exists]
    constructor
    · rintro ⟨a', n', hm, rfl, rfl⟩; exact hm
    · intro hm; exact ⟨a, n, hm, rfl, rfl⟩
  · rw [← hg]
    exact (env.sort_sorted _ _ genLess_strictWeak).imp (by intro a b hab; simpa [genLess] using hab)
  · rw [(hperm.map _).sum_nat, List.map_map]
    have hl := congrArg List.length hrs
    simp only [List.length_map] at hl
    have : ((fun x : GeneratorStats => x.blocks) ∘ fun p : WavesAddr × Nat => { generator := p.1, blocks := p.2 }) = Prod.snd := rfl
    rw [this]
    simp only [List.map_nil, List.sum_nil, Nat.zero_add, List.length_map] at c4
    exact c4.trans (hl.symm.trans hlen)

/-- It answers whenever the blocks concerned are readable; unknown ids give a not-found error, and a negative count
panics. -/
theorem C21_answers {g : ProtoBlock} {l : Linkage} (h : Reachable g l) (env : Env) (id : BlockID) (count : Int) :
    (¬ Stored l.db id → ForkGenerators env l.db id count = fail .notFound) ∧
    (Stored l.db id → count < 0 → ForkGenerators env l.db id count = goPanic) ∧
    (Stored l.db id → 0 ≤ count → (∀ i, Anc l.db i id → Readable l.db i) → ∃ gs, ForkGenerators env l.db id count = .ok gs) := by
  obtain ⟨ns, hs, R, _⟩ := reachable_rep h
  refine ⟨?_, ?_, ?_⟩
  · rw [R.stored_iff, not_exists]
    intro hn
    have := Option.eq_none_iff_forall_ne_some.mpr hn
    simp [ForkGenerators, getBlocks, R.getNum, this, fail]
  · rw [R.stored_iff]
    rintro ⟨n, hn⟩ hc
    simp [ForkGenerators, getBlocks, R.getNum, hn, hc, goPanic]
  · intro hst hc hr
    obtain ⟨k, rfl⟩ := Int.eq_ofNat_of_zero_le hc
    obtain ⟨ids, hids, hlen, hbs⟩ := R.getBlocks_ids hst k
    unfold ForkGenerators
    rw [show getBlocks l.db id (k : Int) = _ from hbs]
    cases hm : mapGo (BlockOf l.db) ids with
    | ok bs => exact ⟨_, rfl⟩
    | error e =>
      exfalso
      obtain ⟨i, hi, he⟩ := mapGo_error hm
      obtain ⟨b, hb⟩ := R.BlockOf_readable (hr i (R.LastIDs_anc hids i hi))
      rw [hb] at he; cases he

example : ForkGenerators Ex.env Ex.l1.db (Ex.bid 5) 3 = .ok [⟨Ex.gen 2, 2⟩, ⟨Ex.gen 1, 1⟩] := by decide +kernel

end Verif.Props
