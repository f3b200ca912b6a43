import Verif.Chains.ForkLemmas
/-
What a successful fork report contains, and when it succeeds.
-/
set_option autoImplicit false

namespace Verif.Chains

open Verif KV Spec

variable {db : DB} {ns : List Node} {hs : List Nat}

theorem Rep.BlockOf_ok (R : Rep db ns hs) {k : BlockID} {b : Block} (h : BlockOf db k = .ok b) :
    b.id = k ∧ Stored db k ∧ ∃ r, Chains.getBlockByID db k = .ok r ∧ b.height = r.height ∧ b.score = r.score ∧
      b.generator = r.generator ∧ b.timestamp = r.timestamp := by
  cases hn : numOf ns k with
  | none => simp [BlockOf, R.getBlockByID, hn, fail] at h
  | some n =>
    obtain ⟨x, hx, hxe⟩ := numOf_some hn
    rw [R.BlockOf_eq hn hx] at h
    obtain ⟨id, par, hid, _, _, hr⟩ := R.blockOfRec hx
    rw [hr] at h
    split at h
    · simp only [Except.ok.injEq] at h
      subst h
      exact ⟨Subtype.ext (hid.symm.trans hxe), R.stored_iff.mpr ⟨n, hn⟩, x.br, R.getBlockByID_some hn hx, rfl, rfl, rfl, rfl⟩
    · simp [goPanic] at h

/-- an entry of a fork report, `hd` being the head of the longest fork -/
structure Entry (db : DB) (sel : List Leash) (hd : BlockID) (f : Fork) (b : Block) (lb : BlockRec) : Prop where
  block : BlockOf db f.headBlock = .ok b
  common : lca db hd f.headBlock = .ok f.lastCommonBlock
  commonRec : getBlockByID db f.lastCommonBlock = .ok lb
  ts : f.headTimestamp = b.timestamp
  gen : f.headGenerator = b.generator
  height : f.headHeight = b.height
  score : f.score = b.score
  peers : f.peers = peersOn sel f.headBlock
  count : f.peersCount = f.peers.length
  length : f.length = (b.height.toNat : Int) - lb.height.toNat
  nonempty : f.peers ≠ []

/-- the unfinished entries -/
def rawFork (db : DB) (p : BlockID × List Addr) : Go Fork := do
  let b ← BlockOf db p.1
  pure (mkFork b p.2)

theorem Forks_unfold (env : Env) (filter : List Addr) :
    Forks env db filter = (do
      let ls ← leashes db
      let r ← mapGo (rawFork db) (env.mapOrder (groupLeashes (selected filter ls)))
      match env.sort forkLess r with
      | [] => goPanic
      | longest :: rest => mapGo (finishFork db longest.headBlock) ({ longest with longest := true } :: rest)) := rfl

theorem finishFork_ok {hd : BlockID} {f f' : Fork} (h : finishFork db hd f = .ok f') :
    ∃ c lb, lca db hd f.headBlock = .ok c ∧ getBlockByID db c = .ok lb ∧
      f' = { f with lastCommonBlock := c, length := f.length - lb.height.toNat } := by
  unfold finishFork at h
  obtain ⟨c, hc, h⟩ := go_bind_eq_ok.mp h
  obtain ⟨lb, hlb, h⟩ := go_bind_eq_ok.mp h
  simp only [go_pure, Except.ok.injEq] at h
  exact ⟨c, lb, hc, hlb, h.symm⟩

theorem Rep.Forks_ok (R : Rep db ns hs) {env : Env} {filter : List Addr} {fs : List Fork} (h : Forks env db filter = .ok fs) :
    ∃ ls, Chains.leashes db = .ok ls ∧ ∃ f0 rest, fs = f0 :: rest ∧ f0.longest = true ∧ (∀ f, f ∈ rest → f.longest = false) ∧
      fs.Pairwise (fun a b => forkLess b a = false) ∧
      (fs.map (·.headBlock)).Perm ((groupLeashes (selected filter ls)).map (·.1)) ∧
      ∀ f, f ∈ fs → ∃ b lb, Entry db (selected filter ls) f0.headBlock f b lb := by
  rw [Forks_unfold] at h
  obtain ⟨ls, hls, h⟩ := go_bind_eq_ok.mp h
  obtain ⟨r, hr, h⟩ := go_bind_eq_ok.mp h
  refine ⟨ls, hls, ?_⟩
  -- the unfinished entries
  have hraw : ∀ f, f ∈ r → ∃ b, BlockOf db f.headBlock = .ok b ∧ f = mkFork b (peersOn (selected filter ls) f.headBlock) ∧
      f.peers ≠ [] := by
    intro f hf
    obtain ⟨⟨k, v⟩, hm, he⟩ := mapGo_mem hr hf
    have hm' := (env.mapOrder_perm _).mem_iff.mp hm
    obtain ⟨hv, hne⟩ := (mem_groupLeashes _ _ _).mp hm'
    unfold rawFork at he
    obtain ⟨b, hb, he⟩ := go_bind_eq_ok.mp he
    simp only [go_pure, Except.ok.injEq] at he
    have hid := (R.BlockOf_ok hb).1
    subst he
    refine ⟨b, ?_, ?_, ?_⟩
    · simpa [mkFork, hid] using hb
    · simp only [mkFork, hid, hv]
    · exact hne
  have hkeys : r.map (·.headBlock) = (env.mapOrder (groupLeashes (selected filter ls))).map (·.1) := by
    refine mapGo_map _ _ ?_ hr
    intro p f hf
    unfold rawFork at hf
    obtain ⟨b, hb, hf⟩ := go_bind_eq_ok.mp hf
    simp only [go_pure, Except.ok.injEq] at hf
    subst hf
    exact (R.BlockOf_ok hb).1
  have hperm := env.sort_perm forkLess r
  have hsort := env.sort_sorted forkLess r forkLess_strictWeak
  cases hs : env.sort forkLess r with
  | nil => rw [hs] at h; simp [goPanic] at h
  | cons longest rest =>
    rw [hs] at h hperm hsort
    simp only at h
    have hmap : ∀ {γ : Type} (p : Fork → γ), (∀ (f : Fork) c n, p { f with lastCommonBlock := c, length := n } = p f) →
        fs.map p = ({ longest with longest := true } :: rest).map p := by
      intro γ p hp
      refine mapGo_map p p ?_ h
      intro f f' hf
      obtain ⟨c, lb, _, _, rfl⟩ := finishFork_ok hf
      exact hp _ _ _
    obtain ⟨f0, rest', h0, hrest, rfl⟩ := mapGo_cons_ok h
    refine ⟨f0, rest', rfl, ?_, ?_, ?_, ?_, ?_⟩
    · obtain ⟨c, lb, _, _, rfl⟩ := finishFork_ok h0; rfl
    · intro f hf
      obtain ⟨f1, hf1, he⟩ := mapGo_mem hrest hf
      obtain ⟨c, lb, _, _, rfl⟩ := finishFork_ok he
      obtain ⟨b, _, he, _⟩ := hraw f1 (hperm.mem_iff.mp (List.mem_cons_of_mem _ hf1))
      rw [he]; rfl
    · have key := hmap (fun f => (f.score, f.peers.length)) (fun _ _ _ => rfl)
      have hp : ((f0 :: rest').map (fun f => (f.score, f.peers.length))).Pairwise
          (fun a b => b.1 < a.1 ∨ (b.1 = a.1 ∧ b.2 ≤ a.2)) := by
        rw [key, List.pairwise_map]
        have h2 : ({ longest with longest := true } :: rest).Pairwise (fun a b => forkLess b a = false) := by
          rw [List.pairwise_cons] at hsort ⊢
          exact ⟨fun f hf => by have := hsort.1 f hf; rw [forkLess_false] at this ⊢; exact this, hsort.2⟩
        exact h2.imp (fun hh => forkLess_false.mp hh)
      rw [List.pairwise_map] at hp
      exact hp.imp (fun hh => forkLess_false.mpr hh)
    · have key := hmap (fun f => f.headBlock) (fun _ _ _ => rfl)
      rw [key]
      have : ({ longest with longest := true } :: rest).map (fun f => f.headBlock) = (longest :: rest).map (fun f => f.headBlock) := rfl
      rw [this]
      have h2 := hperm.map (fun f => f.headBlock)
      rw [hkeys] at h2
      exact h2.trans ((env.mapOrder_perm _).map _)
    · have hhd : f0.headBlock = longest.headBlock := by
        obtain ⟨c, lb, _, _, rfl⟩ := finishFork_ok h0; rfl
      intro f hf
      obtain ⟨f1, hf1, he⟩ := mapGo_mem h hf
      obtain ⟨c, lb, hc, hlb, rfl⟩ := finishFork_ok he
      have hex : ∃ f2, f2 ∈ r ∧ { f2 with longest := f1.longest } = f1 := by
        rcases List.mem_cons.mp hf1 with rfl | hf1
        · exact ⟨longest, hperm.mem_iff.mp (by simp), rfl⟩
        · exact ⟨f1, hperm.mem_iff.mp (List.mem_cons_of_mem _ hf1), rfl⟩
      obtain ⟨f2, hf2, he2⟩ := hex
      obtain ⟨b, hb, hmk, hne⟩ := hraw f2 hf2
      have hb1 : f1.headBlock = f2.headBlock := by rw [← he2]
      have hid := (R.BlockOf_ok hb).1
      refine ⟨b, lb, ?_⟩
      rw [hhd]
      have hf1 : f1 = { mkFork b (peersOn (selected filter ls) f2.headBlock) with longest := f1.longest } := by
        conv => lhs; rw [← he2, hmk]
      have hne' : peersOn (selected filter ls) f2.headBlock ≠ [] := by rw [hmk] at hne; exact hne
      constructor
      · show BlockOf db f1.headBlock = _; rw [hb1]; exact hb
      · exact hc
      · exact hlb
      · rw [hf1]; rfl
      · rw [hf1]; rfl
      · rw [hf1]; rfl
      · rw [hf1]; rfl
      · rw [hf1]; show peersOn _ f2.headBlock = peersOn _ b.id; rw [hid]
      · rw [hf1]; rfl
      · rw [hf1]; rfl
      · rw [hf1]; exact hne'

/-- nobody selected: the report panics -/
theorem Forks_empty {env : Env} {filter : List Addr} {ls : List Leash} (hls : leashes db = .ok ls)
    (hsel : selected filter ls = []) : Forks env db filter = goPanic := by
  rw [Forks_unfold, hls]
  have h1 : env.mapOrder (groupLeashes []) = [] := List.perm_nil.mp (env.mapOrder_perm _)
  have h2 : env.sort forkLess [] = [] := List.perm_nil.mp (env.sort_perm _ _)
  simp only [go_bind_ok, hsel, h1, mapGo, h2]

/-- when all selected leashes resolve and can be compared, the report succeeds -/
theorem Rep.Forks_total (R : Rep db ns hs) (env : Env) {filter : List Addr} {ls : List Leash} (hls : Chains.leashes db = .ok ls)
    (hsel : selected filter ls ≠ []) (hb : ∀ l, l ∈ selected filter ls → ∃ b, BlockOf db l.blockID = .ok b)
    (hc : ∀ l1 l2, l1 ∈ selected filter ls → l2 ∈ selected filter ls → ∃ c, Chains.lca db l1.blockID l2.blockID = .ok c) :
    ∃ fs, Forks env db filter = .ok fs := by
  rw [Forks_unfold, hls]
  simp only [go_bind_ok]
  have hkey : ∀ k v, (k, v) ∈ groupLeashes (selected filter ls) → ∃ l, l ∈ selected filter ls ∧ l.blockID = k := by
    intro k v hm
    obtain ⟨hv, hne⟩ := (mem_groupLeashes _ _ _).mp hm
    rw [hv] at hne
    have := peersOn_ne_nil.mp hne
    simpa using this
  have hr : ∃ r, mapGo (rawFork db) (env.mapOrder (groupLeashes (selected filter ls))) = .ok r := by
    cases h : mapGo (rawFork db) (env.mapOrder (groupLeashes (selected filter ls))) with
    | ok r => exact ⟨r, rfl⟩
    | error e =>
      obtain ⟨⟨k, v⟩, hm, he⟩ := mapGo_error h
      obtain ⟨l, hl, hk⟩ := hkey k v ((env.mapOrder_perm _).mem_iff.mp hm)
      obtain ⟨b, hb⟩ := hb l hl
      rw [hk] at hb
      simp [rawFork, hb] at he
  obtain ⟨r, hr⟩ := hr
  rw [hr]
  simp only [go_bind_ok]
  have hmem : ∀ f, f ∈ r → ∃ l, l ∈ selected filter ls ∧ l.blockID = f.headBlock := by
    intro f hf
    obtain ⟨⟨k, v⟩, hm, he⟩ := mapGo_mem hr hf
    obtain ⟨l, hl, hk⟩ := hkey k v ((env.mapOrder_perm _).mem_iff.mp hm)
    unfold rawFork at he
    obtain ⟨b, hb, he⟩ := go_bind_eq_ok.mp he
    simp only [go_pure, Except.ok.injEq] at he
    subst he
    exact ⟨l, hl, by rw [hk]; exact (R.BlockOf_ok hb).1.symm⟩
  have hperm := env.sort_perm forkLess r
  cases hs : env.sort forkLess r with
  | nil =>
    exfalso
    rw [hs] at hperm
    have h0 : r = [] := List.nil_perm.mp hperm
    rw [h0] at hr
    have h2 := mapGo_length hr
    have h3 := (env.mapOrder_perm (groupLeashes (selected filter ls))).length_eq
    have h4 : groupLeashes (selected filter ls) = [] := List.length_eq_zero_iff.mp (by rw [← h3, ← h2]; rfl)
    cases hl : selected filter ls with
    | nil => exact hsel hl
    | cons l rest =>
      have hp : peersOn (selected filter ls) l.blockID ≠ [] := peersOn_ne_nil.mpr (by rw [hl]; simp)
      have := (mem_groupLeashes (selected filter ls) l.blockID _).mpr ⟨rfl, hp⟩
      rw [h4] at this; simp at this
  | cons longest rest =>
    rw [hs] at hperm
    simp only
    cases h : mapGo (finishFork db longest.headBlock) ({ longest with longest := true } :: rest) with
    | ok fs => exact ⟨fs, rfl⟩
    | error e =>
      exfalso
      obtain ⟨f, hf, he⟩ := mapGo_error h
      obtain ⟨l0, hl0, hk0⟩ := hmem longest (hperm.mem_iff.mp (by simp))
      have hf' : ∃ l, l ∈ selected filter ls ∧ l.blockID = f.headBlock := by
        rcases List.mem_cons.mp hf with rfl | hf
        · exact ⟨l0, hl0, hk0⟩
        · exact hmem f (hperm.mem_iff.mp (List.mem_cons_of_mem _ hf))
      obtain ⟨l1, hl1, hk1⟩ := hf'
      obtain ⟨c, hc⟩ := hc l0 l1 hl0 hl1
      rw [hk0, hk1] at hc
      have hs0 : ∃ n, numOf ns longest.headBlock = some n := by
        obtain ⟨b, hb⟩ := hb l0 hl0
        rw [hk0] at hb
        exact R.stored_iff.mp (R.BlockOf_ok hb).2.1
      have hs1 : ∃ n, numOf ns f.headBlock = some n := by
        obtain ⟨b, hb⟩ := hb l1 hl1
        rw [hk1] at hb
        exact R.stored_iff.mp (R.BlockOf_ok hb).2.1
      obtain ⟨n, hn⟩ := hs0
      obtain ⟨m, hm⟩ := hs1
      obtain ⟨c', cid, hcn, _, hl⟩ := R.lca_nums hn hm
      rw [hl] at hc
      split at hc
      · simp [goPanic] at hc
      · rename_i hnp
        simp only [Except.ok.injEq] at hc
        subst hc
        obtain ⟨x, hx, _⟩ := numOf_some hcn
        rw [if_neg hnp] at hl
        simp [finishFork, hl, R.getBlockByID_some hcn hx] at he

/-! ### comparing blocks -/

theorem Rep.lca_ok (R : Rep db ns hs) {a b c : BlockID} (h : Chains.lca db a b = .ok c) :
    Stored db a ∧ Stored db b ∧ IsLCA db a b c ∧
      ∀ ra rb rc, Chains.getBlockByID db a = .ok ra → Chains.getBlockByID db b = .ok rb → Chains.getBlockByID db c = .ok rc →
        rc.height.toNat ≤ ra.height.toNat ∧ rc.height.toNat ≤ rb.height.toNat := by
  cases hn : numOf ns a with
  | none => simp [Chains.lca, Chains.getLinkByID, R.getNum, hn, fail] at h
  | some n =>
    cases hm : numOf ns b with
    | none =>
      obtain ⟨x, hx, _⟩ := numOf_some hn
      simp [Chains.lca, Chains.getLinkByID, R.getNum, hn, hm, fail, R.getLink_ofNat hx] at h
    | some m =>
      obtain ⟨k, cid, hc, D, e⟩ := R.lca_nums hn hm
      rw [e] at h
      split at h
      · simp [goPanic] at h
      · simp only [Except.ok.injEq] at h
        subst h
        refine ⟨R.stored_iff.mpr ⟨n, hn⟩, R.stored_iff.mpr ⟨m, hm⟩, R.isLCA hn hm hc D, ?_⟩
        intro ra rb rc ha hb hcr
        have h1 := (R.heightOf hn).mp ⟨ra, ha, rfl⟩
        have h2 := (R.heightOf hm).mp ⟨rb, hb, rfl⟩
        have h3 := (R.heightOf hc).mp ⟨rc, hcr, rfl⟩
        obtain ⟨i, hi, _⟩ := D.upn
        obtain ⟨j, hj, _⟩ := D.upm
        have h4 := R.tree.ht_up n i
        have h5 := R.tree.ht_up m j
        rw [hi] at h4
        rw [hj] at h5
        omega

theorem Rep.lca_self (R : Rep db ns hs) {a : BlockID} (h : Stored db a) : Chains.lca db a a = .ok a := by
  obtain ⟨n, hn⟩ := R.stored_iff.mp h
  obtain ⟨x, hx, hxe⟩ := numOf_some hn
  obtain ⟨c, cid, hc, D, e⟩ := R.lca_nums hn hn
  have hl := R.isLCA hn hn hc D
  -- the lowest common ancestor of a block with itself is the block
  have h1 := hl.2.2 a (.refl a) (.refl a)
  obtain ⟨i, _, hi⟩ := (R.anc_iff hc).mp h1
  obtain ⟨j, hj, _⟩ := D.upn
  have l1 := R.tree.up_le c i
  have l2 := R.tree.up_le n j
  rw [hn] at hi
  have hi := Option.some.inj hi
  have hnc : c = n := by omega
  subst hnc
  obtain ⟨y, hy, hye⟩ := numOf_some hc
  rw [hx] at hy; cases hy
  have : cid = a := Subtype.ext (hye.symm.trans hxe)
  subst this
  rw [e, if_neg]
  exact not_lcaPanics_of_le (by omega)

theorem Rep.lca_close (R : Rep db ns hs) {a b : BlockID} (ha : Stored db a) (hb : Stored db b) (h : Close db a b) :
    ∃ c, Chains.lca db a b = .ok c := by
  obtain ⟨n, hn⟩ := R.stored_iff.mp ha
  obtain ⟨m, hm⟩ := R.stored_iff.mp hb
  obtain ⟨c, cid, hc, D, e⟩ := R.lca_nums hn hm
  have := h cid _ _ _ (R.isLCA hn hm hc D) ((R.heightOf hn).mpr rfl) ((R.heightOf hm).mpr rfl) ((R.heightOf hc).mpr rfl)
  refine ⟨cid, ?_⟩
  rw [e, if_neg]
  exact not_lcaPanics_of_le (by omega)

theorem Rep.BlockOf_readable (R : Rep db ns hs) {id : BlockID} (h : Readable db id) : ∃ b, BlockOf db id = .ok b := by
  obtain ⟨r, hr, ht⟩ := h
  cases hn : numOf ns id with
  | none => simp [R.getBlockByID, hn, fail] at hr
  | some n =>
    obtain ⟨x, hx, hxe⟩ := numOf_some hn
    rw [R.getBlockByID_some hn hx] at hr
    cases hr
    rw [R.BlockOf_eq hn hx]
    obtain ⟨i, par, hid, _, _, e⟩ := R.blockOfRec hx
    exact ⟨_, by rw [e, if_pos ht]⟩

theorem Rep.readable_of_BlockOf (R : Rep db ns hs) {id : BlockID} {b : Block} (h : BlockOf db id = .ok b) : Readable db id := by
  obtain ⟨r, hr, hb⟩ := go_bind_eq_ok.mp h
  refine ⟨r, hr, ?_⟩
  cases hn : numOf ns id with
  | none => simp [R.getBlockByID, hn, fail] at hr
  | some n =>
    obtain ⟨x, hx, hxe⟩ := numOf_some hn
    rw [R.getBlockByID_some hn hx] at hr
    cases hr
    obtain ⟨i, par, hid, _, _, e⟩ := R.blockOfRec hx
    rw [e] at hb
    split at hb
    · assumption
    · simp [goPanic] at hb

/-! ### the best block -/

/-- whichever order the map is visited in, a best block is chosen -/
theorem Rep.best_isBest (R : Rep db ns hs) {env : Env} {ls : List Leash} (hne : ls ≠ []) {s : Best}
    (h : bestLoop db Best.init (env.mapOrder (groupLeashes ls)) = .ok s) :
    IsBest db ls s.longest ∧ ∃ b, BlockOf db s.longest = .ok b := by
  have hmem : ∀ k v, (k, v) ∈ env.mapOrder (groupLeashes ls) ↔ v = peersOn ls k ∧ v ≠ [] := by
    intro k v; rw [(env.mapOrder_perm _).mem_iff, mem_groupLeashes]
  have hne' : env.mapOrder (groupLeashes ls) ≠ [] := by
    cases ls with
    | nil => exact absurd rfl hne
    | cons l rest =>
      have hp : peersOn (l :: rest) l.blockID ≠ [] := peersOn_ne_nil.mpr (by simp)
      have := (hmem l.blockID _).mpr ⟨rfl, hp⟩
      intro e; rw [e] at this; simp at this
  obtain ⟨⟨v, b, hv, hb, hsc, hpc⟩, hall⟩ := bestLoop_init h hne' (fun p hp => ((hmem p.1 p.2).mp hp).2)
  obtain ⟨hv1, hv2⟩ := (hmem _ _).mp hv
  refine ⟨⟨?_, ?_⟩, b, hb⟩
  · rw [hv1] at hv2; exact peersOn_ne_nil.mp hv2
  · obtain ⟨_, _, r, hr, _, hrs, _⟩ := R.BlockOf_ok hb
    refine ⟨r.score, ⟨r, hr, rfl⟩, ?_⟩
    intro c hc
    obtain ⟨bc, hbc, hge⟩ := hall c (peersOn ls c) ((hmem _ _).mpr ⟨rfl, peersOn_ne_nil.mpr hc⟩)
    obtain ⟨_, _, rc, hrc, _, hrcs, _⟩ := R.BlockOf_ok hbc
    refine ⟨rc.score, ⟨rc, hrc, rfl⟩, ?_⟩
    unfold Best.ge at hge
    rw [hsc, hpc, hrs, hrcs, hv1] at hge
    exact hge

theorem Rep.best_total (R : Rep db ns hs) (env : Env) {ls : List Leash} (hr : ∀ id, id ∈ ls.map (·.blockID) → Readable db id) :
    ∃ s, bestLoop db Best.init (env.mapOrder (groupLeashes ls)) = .ok s := by
  apply bestLoop_total
  intro k v hm
  obtain ⟨hv, hne⟩ := (mem_groupLeashes _ _ _).mp ((env.mapOrder_perm _).mem_iff.mp hm)
  rw [hv] at hne
  exact R.BlockOf_readable (hr k (peersOn_ne_nil.mp hne))

theorem selected_nil (ls : List Leash) : selected [] ls = ls := by simp [selected]

theorem eq_of_nodup_map {α β : Type} {f : α → β} : ∀ {l : List α}, (l.map f).Nodup → ∀ {a b : α}, a ∈ l → b ∈ l → f a = f b → a = b := by
  intro l
  induction l with
  | nil => intro _ a b ha; simp at ha
  | cons x l ih =>
    intro hnd a b ha hb he
    rw [List.map_cons, List.nodup_cons] at hnd
    rcases List.mem_cons.mp ha with ha | ha <;> rcases List.mem_cons.mp hb with hb | hb
    · exact ha.trans hb.symm
    · exact absurd (List.mem_map.mpr ⟨b, hb, by rw [← he, ha]⟩) hnd.1
    · exact absurd (List.mem_map.mpr ⟨a, ha, by rw [he, hb]⟩) hnd.1
    · exact ih hnd.2 ha hb he

theorem fork_ext {f e : Fork} (h1 : f.longest = e.longest) (h2 : f.headBlock = e.headBlock)
    (h3 : f.headTimestamp = e.headTimestamp) (h4 : f.headGenerator = e.headGenerator) (h5 : f.headHeight = e.headHeight)
    (h6 : f.score = e.score) (h7 : f.peersCount = e.peersCount) (h8 : f.peers = e.peers)
    (h9 : f.lastCommonBlock = e.lastCommonBlock) (h10 : f.length = e.length) : f = e := by
  cases f; cases e; simp only [Fork.mk.injEq]; exact ⟨h1, h2, h3, h4, h5, h6, h7, h8, h9, h10⟩

theorem Rep.lca_rec (R : Rep db ns hs) {a b c : BlockID} (h : Chains.lca db a b = .ok c) :
    ∃ r, Chains.getBlockByID db c = .ok r := by
  obtain ⟨ha, _, hl, _⟩ := R.lca_ok h
  obtain ⟨n, hn⟩ := R.stored_iff.mp ha
  obtain ⟨k, _, hc⟩ := (R.anc_iff hn).mp hl.1
  obtain ⟨x, hx, _⟩ := numOf_some hc
  exact ⟨_, R.getBlockByID_some hc hx⟩

/-- the entry `Fork` selects for a listed peer -/
theorem Rep.fork_selected (R : Rep db ns hs) {env : Env} {ls : List Leash} (hls : Chains.leashes db = .ok ls) {p : Addr} {id : BlockID}
    (hp : { addr := p, blockID := id } ∈ ls) {s s' : Best} {f0 f : Fork}
    (h : forkLoop db p s f0 (env.mapOrder (groupLeashes ls)) = .ok (s', f)) :
    ∃ b, BlockOf db id = .ok b ∧ f = mkFork b (peersOn ls id) ∧ f.headBlock = id := by
  have hmem : ∀ k v, (k, v) ∈ env.mapOrder (groupLeashes ls) ↔ v = peersOn ls k ∧ v ≠ [] := by
    intro k v; rw [(env.mapOrder_perm _).mem_iff, mem_groupLeashes]
  obtain ⟨ls', hls', _, hleash⟩ := R.leashes
  rw [hls] at hls'; cases hls'
  rcases forkLoop_fork h with ⟨hno, _⟩ | ⟨k, v, b, hm, hpv, hb, rfl⟩
  · exfalso
    have hp' := mem_peersOn.mpr hp
    exact hno id (peersOn ls id) ((hmem _ _).mpr ⟨rfl, List.ne_nil_of_mem hp'⟩) hp'
  · obtain ⟨hv, _⟩ := (hmem _ _).mp hm
    subst hv
    have h1 := ((hleash _ _).mp (mem_peersOn.mp hpv)).2.2
    have h2 := ((hleash _ _).mp hp).2.2
    rw [h1] at h2
    have := Except.ok.inj h2
    subst this
    exact ⟨b, hb, rfl, (R.BlockOf_ok hb).1⟩

/-- what `Fork` answers for a listed peer -/
theorem Rep.ForkOf_ok (R : Rep db ns hs) {env : Env} {ls : List Leash} (hls : Chains.leashes db = .ok ls) {p : Addr} {id : BlockID}
    (hp : { addr := p, blockID := id } ∈ ls) {f : Fork} (h : ForkOf env db p = .ok f) :
    ∃ b best, IsBest db ls best ∧ BlockOf db id = .ok b ∧ Stored db best ∧
      ((id = best ∧ f = { mkFork b (peersOn ls id) with longest := true, length := 0 }) ∨
       (id ≠ best ∧ ∃ c lb, Chains.lca db best id = .ok c ∧ Chains.getBlockByID db c = .ok lb ∧
        f = { mkFork b (peersOn ls id) with lastCommonBlock := c, length := (b.height.toNat : Int) - lb.height.toNat })) := by
  unfold ForkOf at h
  rw [hls, go_bind_ok] at h
  obtain ⟨⟨s, f1⟩, hloop, h⟩ := go_bind_eq_ok.mp h
  simp only at h
  obtain ⟨hB, bb, hbb⟩ := R.best_isBest (List.ne_nil_of_mem hp) (forkLoop_best hloop)
  obtain ⟨b, hb, rfl, hhead⟩ := R.fork_selected hls hp hloop
  rw [hhead] at h
  refine ⟨b, s.longest, hB, hb, (R.BlockOf_ok hbb).2.1, ?_⟩
  split at h
  · simp only [go_pure, Except.ok.injEq] at h
    exact Or.inl ⟨by assumption, h.symm.trans (fork_ext rfl hhead.symm rfl rfl rfl rfl rfl rfl rfl rfl)⟩
  · obtain ⟨c, hc, h⟩ := go_bind_eq_ok.mp h
    obtain ⟨lb, hlb, h⟩ := go_bind_eq_ok.mp h
    simp only [go_pure, Except.ok.injEq] at h
    exact Or.inr ⟨by assumption, c, lb, hc, hlb, h.symm.trans (fork_ext rfl hhead.symm rfl rfl rfl rfl rfl rfl rfl rfl)⟩

/-- without a filter the first entry is a best one -/
theorem Rep.Forks_first_best (R : Rep db ns hs) {env : Env} {ls : List Leash} (hls : Chains.leashes db = .ok ls) {f0 : Fork} {rest : List Fork}
    (h : Forks env db [] = .ok (f0 :: rest)) : IsBest db ls f0.headBlock := by
  obtain ⟨ls', hls', f0', rest', heq, _, _, hpw, hperm, hent⟩ := R.Forks_ok h
  rw [hls] at hls'; cases hls'
  cases heq
  rw [selected_nil] at hperm
  have hscore : ∀ f, f ∈ f0 :: rest → ScoreOf db f.headBlock f.score ∧ f.peers = peersOn ls f.headBlock ∧ f.peers ≠ [] := by
    intro f hm
    obtain ⟨b, lb, E⟩ := hent f hm
    obtain ⟨_, _, r, hr, _, hsc, _⟩ := R.BlockOf_ok E.block
    exact ⟨⟨r, hr, by rw [E.score, hsc]⟩, by rw [E.peers, selected_nil], E.nonempty⟩
  obtain ⟨hs0, hp0, hne0⟩ := hscore f0 (by simp)
  refine ⟨?_, f0.score, hs0, ?_⟩
  · rw [hp0] at hne0; exact peersOn_ne_nil.mp hne0
  · intro c hc
    have hk : c ∈ (groupLeashes ls).map (·.1) :=
      List.mem_map.mpr ⟨(c, _), (mem_groupLeashes _ _ _).mpr ⟨rfl, peersOn_ne_nil.mpr hc⟩, rfl⟩
    obtain ⟨f, hm, rfl⟩ := List.mem_map.mp (hperm.mem_iff.mpr hk)
    obtain ⟨hs1, hp1, _⟩ := hscore f hm
    refine ⟨f.score, hs1, ?_⟩
    rw [← hp0, ← hp1]
    rcases List.mem_cons.mp hm with rfl | hm
    · exact Or.inr ⟨rfl, Nat.le_refl _⟩
    · exact forkLess_false.mp ((List.pairwise_cons.mp hpw).1 f hm)

/-! ### generators -/

theorem mapGo_congr {α β γ : Type} {f : α → Go γ} {g : β → Go γ} : ∀ {l : List α} {l' : List β},
    l.map f = l'.map g → mapGo f l = mapGo g l' := by
  intro l
  induction l with
  | nil => intro l' h; cases l' with
    | nil => rfl
    | cons => simp at h
  | cons a l ih =>
    intro l' h
    cases l' with
    | nil => simp at h
    | cons b l' =>
      simp only [List.map_cons, List.cons.injEq] at h
      rw [mapGo, mapGo, h.1, ih h.2]

theorem at1_up (T : TreeOK ns) {n k : Nat} (hk : k < ht ns n) : ∃ y, at1 ns (up ns n k) = some y := by
  have h := T.ht_up n k
  cases hy : at1 ns (up ns n k) with
  | some y => exact ⟨y, rfl⟩
  | none =>
    have h0 : ht ns (up ns n k) = 0 := by simp [ht, hy]
    omega

/-- `getBlocks` reads the blocks of `LastIDs` -/
theorem Rep.getBlocks_ids (R : Rep db ns hs) {id : BlockID} (hst : Stored db id) (count : Nat) :
    ∃ ids, Chains.LastIDs db id count = .ok ids ∧ ids.length = min count (ht ns (R.stored_iff.mp hst).choose) ∧
      Chains.getBlocks db id count = mapGo (BlockOf db) ids := by
  have hn := (R.stored_iff.mp hst).choose_spec
  generalize (R.stored_iff.mp hst).choose = n at hn ⊢
  obtain ⟨x, hx, _⟩ := numOf_some hn
  obtain ⟨ids, h1, h2⟩ := R.LastIDs hn count
  refine ⟨ids, h1, ?_, ?_⟩
  · have := congrArg List.length h2
    simpa [walkNums] using this
  · have hb : Chains.getBlocks db id count = Chains.blocksLoop db count (UInt64.ofNat n) := by
      simp only [Chains.getBlocks, R.getNum, hn, go_bind_ok]
      rw [if_neg (by omega)]; simp
    rw [hb, R.blocksLoop count n x hx]
    apply mapGo_congr
    -- compare entry by entry
    have hw : ∀ (w : List Nat) (is : List BlockID), is.map (·.1) = w.map (idOf ns) → (∀ m, m ∈ w → ∃ y, at1 ns m = some y) →
        w.map (fun m => match at1 ns m with | some y => Chains.blockOfRec y.br | none => goPanic) = is.map (BlockOf db) := by
      intro w
      induction w with
      | nil =>
        intro is h _
        cases is with
        | nil => rfl
        | cons => simp at h
      | cons m w ih =>
        intro is h hw
        cases is with
        | nil => simp at h
        | cons i is =>
          simp only [List.map_cons, List.cons.injEq] at h
          rw [List.map_cons, List.map_cons, ih is h.2 (fun m hm => hw m (List.mem_cons_of_mem _ hm))]
          obtain ⟨y, hy⟩ := hw m (by simp)
          rw [idOf_some hy] at h
          rw [R.BlockOf_eq (R.tree.numOf_eq hy h.1.symm) hy, hy]
    apply hw _ _ h2
    intro m hm
    obtain ⟨i, hi, rfl⟩ := List.mem_map.mp hm
    simp only [List.mem_range] at hi
    exact at1_up R.tree (by omega)

theorem Rep.mapGo_BlockOf_recs (R : Rep db ns hs) : ∀ {ids : List BlockID} {bs : List Block}, mapGo (BlockOf db) ids = .ok bs →
    ∃ rs : List BlockRec, ids.map (Chains.getBlockByID db) = rs.map Except.ok ∧ bs.map (·.generator) = rs.map (·.generator) := by
  intro ids
  induction ids with
  | nil => intro bs h; simp only [mapGo, Except.ok.injEq] at h; subst h; exact ⟨[], rfl, rfl⟩
  | cons i ids ih =>
    intro bs h
    obtain ⟨b, bs', hb, hbs, rfl⟩ := mapGo_cons_ok h
    obtain ⟨rs, h1, h2⟩ := ih hbs
    obtain ⟨_, _, r, hr, _, _, hg, _⟩ := R.BlockOf_ok hb
    exact ⟨r :: rs, by simp [hr, h1], by simp [hg, h2]⟩

theorem Rep.LastIDs_anc (R : Rep db ns hs) {id : BlockID} {count : Nat} {ids : List BlockID} (h : Chains.LastIDs db id count = .ok ids) :
    ∀ i, i ∈ ids → Anc db i id := by
  intro i hi
  cases hn : numOf ns id with
  | none => simp [Chains.LastIDs, getAncestors, R.getNum, hn, fail] at h
  | some n =>
    obtain ⟨x, hx, _⟩ := numOf_some hn
    obtain ⟨ids', h1, h2⟩ := R.LastIDs hn count
    rw [h1] at h; cases h
    have : i.1 ∈ ids.map (·.1) := List.mem_map.mpr ⟨i, hi, rfl⟩
    rw [h2] at this
    obtain ⟨m, hm, he⟩ := List.mem_map.mp this
    obtain ⟨k, hk, rfl⟩ := List.mem_map.mp hm
    simp only [List.mem_range] at hk
    obtain ⟨y, hy⟩ := at1_up R.tree (k := k) (n := n) (by omega)
    rw [idOf_some hy] at he
    exact (R.anc_iff hn).mpr ⟨k, by omega, R.tree.numOf_eq hy he⟩

end Verif.Chains
