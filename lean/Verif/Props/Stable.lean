import Verif.Chains.Stable
import Verif.Services.ApiLemmas
import Verif.Props.Api
/-
C119: The same question gets the same answer while nothing changes.

The code visits maps in an order that differs from call to call, and sorts with a function that does not keep the
order of equal elements.  Both are in the argument `Env`, of which the two calls have different ones.
-/
set_option autoImplicit false

namespace Verif.Props

open Verif KV Chains Spec Peers Services

/-! ## the store -/

/-- With one best block, the entries of a fork report, the fork of a peer, the last common block of a peer and the numbers of short
and long forks do not depend on the order in which maps are visited; also when the answer is a panic. -/
theorem C119_partial {g : ProtoBlock} {l : Linkage} (h : Reachable g l) (env1 env2 : Env) {ls : List Leash}
    (hls : Leashes l.db = .ok ls) (hst : ∀ x, x ∈ ls → Stored l.db x.blockID) :
    (∀ filter, OneBest l.db (about filter ls) → SameEntries (Forks env1 l.db filter) (Forks env2 l.db filter)) ∧
    (OneBest l.db ls → StatsOf env1 l.db = StatsOf env2 l.db ∧
      ∀ p id, { addr := p, blockID := id } ∈ ls →
        ForkOf env1 l.db p = ForkOf env2 l.db p ∧ LCB env1 l p = LCB env2 l p) := by
  obtain ⟨ns, hs, R, _⟩ := reachable_rep h
  have hls' : Chains.leashes l.db = .ok ls := hls
  have part1 : ∀ filter, OneBest l.db (about filter ls) → SameEntries (Forks env1 l.db filter) (Forks env2 l.db filter) := by
    intro filter hu
    rw [← about_selected] at hu
    exact R.Forks_same env1 env2 hls' (fun x hx => hst x (List.mem_filter.mp hx).1) hu
  refine ⟨part1, fun hu => ⟨?_, ?_⟩⟩
  · have ha : about [] ls = ls := by simp [about]
    rcases part1 [] (ha.symm ▸ hu) with ⟨r, r', h1, h2, hp⟩ | ⟨h1, h2⟩
    · simp only [StatsOf, h1, h2, go_bind_ok]
      rw [(hp.filter _).length_eq, (hp.filter _).length_eq]
    · simp [StatsOf, h1, h2, goPanic]
  · intro p id hp
    have hne : ls ≠ [] := List.ne_nil_of_mem hp
    have hst' : ∀ b, b ∈ ls.map (·.blockID) → Stored l.db b := by
      intro b hb
      obtain ⟨x, hx, rfl⟩ := List.mem_map.mp hb
      exact hst x hx
    refine ⟨?_, ?_⟩
    · unfold ForkOf
      rw [hls', go_bind_ok, go_bind_ok]
      rcases R.best_same env1 env2 hne hst hu with ⟨s1, s2, h1, h2, he, _⟩ | ⟨h1, h2⟩
      · obtain ⟨f1, k1⟩ := forkLoop_of_best (peer := p) (f := zeroFork) h1
        obtain ⟨f2, k2⟩ := forkLoop_of_best (peer := p) (f := zeroFork) h2
        obtain ⟨b1, e1, e1', _⟩ := R.fork_selected hls' hp k1
        obtain ⟨b2, e2, e2', _⟩ := R.fork_selected hls' hp k2
        rw [e1] at e2; cases e2
        rw [k1, k2, go_bind_ok, go_bind_ok, e1', e2']
        simp only [he]
      · rw [forkLoop_panics h1, forkLoop_panics h2]
    · unfold LCB
      split
      · rfl
      · rfl
      · rw [hls', go_bind_ok, go_bind_ok]
        rcases R.best_same env1 env2 hne hst hu with ⟨s1, s2, h1, h2, he, _⟩ | ⟨h1, h2⟩
        · rw [h1, h2, go_bind_ok, go_bind_ok, he]
        · rw [h1, h2]

/-- Without ties between any two leashed blocks the entries are in the same order as well. -/
theorem C119_order {g : ProtoBlock} {l : Linkage} (h : Reachable g l) (env1 env2 : Env) {ls : List Leash}
    (hls : Leashes l.db = .ok ls) (hst : ∀ x, x ∈ ls → Stored l.db x.blockID) (filter : List Addr)
    (hn : NoTies l.db (about filter ls)) : Forks env1 l.db filter = Forks env2 l.db filter := by
  obtain ⟨ns, hs, R, _⟩ := reachable_rep h
  rw [← about_selected] at hn
  exact R.Forks_eq env1 env2 hls (fun x hx => hst x (List.mem_filter.mp hx).1) hn

/-- what a fork report tells about a fork by itself, not in comparison with the longest one -/
def ownData (f : Fork) : BlockID × UInt64 × WavesAddr × UInt32 × Nat × Nat × List Addr :=
  (f.headBlock, f.headTimestamp, f.headGenerator, f.headHeight, f.score, f.peersCount, f.peers)

/-- Whatever the ties: two reports that are both given list the same forks with the same peers, and differ at most in what is longest,
and in the last common blocks and the lengths. -/
theorem C119_core {g : ProtoBlock} {l : Linkage} (h : Reachable g l) (env1 env2 : Env) {filter : List Addr} {fs1 fs2 : List Fork}
    (h1 : Forks env1 l.db filter = .ok fs1) (h2 : Forks env2 l.db filter = .ok fs2) :
    (fs1.map ownData).Perm (fs2.map ownData) := by
  obtain ⟨ns, hs, R, _⟩ := reachable_rep h
  have key : ∀ {env : Env} {fs : List Fork}, Forks env l.db filter = .ok fs → ∃ ls, Chains.leashes l.db = .ok ls ∧
      (fs.map (·.headBlock)).Perm ((groupLeashes (selected filter ls)).map (·.1)) ∧
      fs.map ownData = (fs.map (·.headBlock)).map (fun k => match BlockOf l.db k with
        | .ok b => ownData (mkFork b (peersOn (selected filter ls) k))
        | .error _ => ownData zeroFork) := by
    intro env fs hf
    obtain ⟨ls, hls, f0, rest, rfl, _, _, _, hp, hent⟩ := R.Forks_ok hf
    refine ⟨ls, hls, hp, ?_⟩
    rw [List.map_map]
    apply List.map_congr_left
    intro f hm
    obtain ⟨b, lb, E⟩ := hent f hm
    have hid := (R.BlockOf_ok E.block).1
    simp only [Function.comp, E.block, ownData, mkFork, hid, E.ts, E.gen, E.height, E.score, E.count, E.peers]
  obtain ⟨ls, hl, p1, e1⟩ := key h1
  obtain ⟨ls', hl', p2, e2⟩ := key h2
  rw [hl] at hl'; cases hl'
  rw [e1, e2]
  exact (p1.trans p2.symm).map _

/-- Whatever the ties: the generators of a branch are listed with the same numbers of blocks, and in the same order when the numbers
are different. -/
theorem C119_generators (env1 env2 : Env) (db : Chains.DB) (id : BlockID) (count : Int) :
    (∀ e, ForkGenerators env1 db id count = .error e ↔ ForkGenerators env2 db id count = .error e) ∧
    ∀ gs1 gs2, ForkGenerators env1 db id count = .ok gs1 → ForkGenerators env2 db id count = .ok gs2 →
      gs1.Perm gs2 ∧ ((∀ a b, a ∈ gs1 → b ∈ gs1 → a.blocks = b.blocks → a = b) → gs1 = gs2) := by
  unfold ForkGenerators
  cases hb : getBlocks db id count with
  | error e => exact ⟨fun _ => Iff.rfl, fun gs1 gs2 k1 => by simp at k1⟩
  | ok bs =>
    simp only [go_bind_ok, go_pure]
    refine ⟨fun e => by simp, ?_⟩
    intro gs1 gs2 k1 k2
    cases k1
    cases k2
    have hp := ((env1.mapOrder_perm ((bs.map (·.generator)).foldl countInsert [])).trans
      (env2.mapOrder_perm ((bs.map (·.generator)).foldl countInsert [])).symm).map
        (fun p => ({ generator := p.1, blocks := p.2 } : GeneratorStats))
    have hp := (env1.sort_perm genLess _).trans (hp.trans (env2.sort_perm genLess _).symm)
    refine ⟨hp, fun hd => ?_⟩
    have W : StrictWeak genLess :=
      ⟨fun a => by simp [genLess], fun a b c => by simp only [genLess, decide_eq_true_eq]; omega,
        fun a b c => by simp only [genLess, decide_eq_false_iff_not]; omega⟩
    refine List.Perm.eq_of_pairwise ?_ (env1.sort_sorted genLess _ W) (env2.sort_sorted genLess _ W) hp
    intro a b ha hb hab hba
    simp only [genLess, decide_eq_false_iff_not] at hab hba
    exact hd a b ha (hp.mem_iff.mpr hb) (by omega)

/-! ## the reports -/

/-- the same body up to the order of its entries, or the same other response -/
def Alike {α : Type} (x y : Resp (List α)) : Prop := (∃ r r', x = .ok r ∧ y = .ok r' ∧ r.Perm r') ∨ x = y

theorem encode_alike {α : Type} (w : Web) {r r' : List α} (hp : r.Perm r') (t : α → Nat) :
    Alike (w.encode r (r.map t)) (w.encode r' (r'.map t)) := by
  have e : (r.map t).all w.encodes = (r'.map t).all w.encodes := by
    rw [Bool.eq_iff_iff, List.all_eq_true, List.all_eq_true]
    exact ⟨fun k x hx => k x ((hp.map t).mem_iff.mpr hx), fun k x hx => k x ((hp.map t).mem_iff.mp hx)⟩
  unfold Web.encode
  rw [e]
  split
  · exact Or.inl ⟨r, r', rfl, rfl, hp⟩
  · exact Or.inr rfl

/-- The responses to the requests for forks, for the fork of a peer and for its generators are the same while the store does not
change, when only one block is best. -/
theorem C119_responses {g : ProtoBlock} {l : Linkage} (h : Reachable g l) (w : Web) (env1 env2 env3 env4 : Env) {ls : List Leash}
    (hls : Leashes l.db = .ok ls) (hst : ∀ x, x ∈ ls → Stored l.db x.blockID) :
    (∀ q, (∀ ps, w.getPeers q = some ps → OneBest l.db (about ps ls)) → Alike (w.forks env1 l.db q) (w.forks env2 l.db q)) ∧
    (OneBest l.db ls → ∀ s p id, w.parse s = some p → { addr := p, blockID := id } ∈ ls →
      w.fork env1 l.db l.db s = w.fork env2 l.db l.db s ∧
      ∀ n, Alike (w.forkGenerators env1 env3 l.db l.db l.db s n) (w.forkGenerators env2 env4 l.db l.db l.db s n)) := by
  obtain ⟨k1, k2⟩ := C119_partial h env1 env2 hls hst
  refine ⟨?_, ?_⟩
  · intro q hq
    unfold Web.forks
    cases hg : w.getPeers q with
    | none => exact Or.inr rfl
    | some ps =>
      rcases k1 ps (hq ps hg) with ⟨r, r', e1, e2, hp⟩ | ⟨e1, e2⟩
      · simp only [e1, e2, Resp.after]
        exact encode_alike w hp _
      · simp only [e1, e2]; exact Or.inr rfl
  · intro hu s p id hs hp
    obtain ⟨ef, _⟩ := (k2 hu).2 p id hp
    refine ⟨by simp only [Web.fork, hs, ef], ?_⟩
    intro n
    simp only [Web.forkGenerators, hs, ef]
    cases ha : atoi n with
    | none => exact Or.inr rfl
    | some c =>
      simp only [Resp.after]
      split
      · split
        · exact Or.inr rfl
        · split
          · rename_i f _
            unfold Web.generators
            split
            · exact Or.inr rfl
            · split
              · exact Or.inr rfl
              · obtain ⟨g1, g2⟩ := C119_generators env3 env4 l.db f.headBlock (blockCount c f)
                cases e3 : ForkGenerators env3 l.db f.headBlock (blockCount c f) with
                | error e => rw [(g1 e).mp e3]; exact Or.inr rfl
                | ok gs =>
                  cases e4 : ForkGenerators env4 l.db f.headBlock (blockCount c f) with
                  | error e => rw [(g1 e).mpr e4] at e3; cases e3
                  | ok gs' => exact Or.inl ⟨gs, gs', rfl, rfl, (g2 gs gs' e3 e4).1⟩
          · exact Or.inr rfl
          · exact Or.inr rfl
      · exact Or.inr rfl
      · exact Or.inr rfl

/-- the leash report when the store does not change meanwhile -/
theorem leashInfos_mapGo (db : Chains.DB) : ∀ (i : Nat) (m : List (BlockID × List Addr)), leashInfos (fun _ => db) i m =
    mapGo (fun p => do
      let b ← BlockOf db p.1
      pure ({ blockID := b.id, height := b.height, score := b.score, timestamp := b.timestamp, generator := b.generator,
              peers := p.2 } : LeashInfo)) m
  | _, [] => rfl
  | i, (k, v) :: m => by
    rw [leashInfos, leashInfos_mapGo db (i + 1) m, mapGo]
    cases BlockOf db k <;> rfl

/-- Whatever the ties: the leash report has the same entries. -/
theorem C119_leashes {g : ProtoBlock} {l : Linkage} (h : Reachable g l) (w : Web) (env1 env2 : Env) {ls : List Leash}
    (hls : Leashes l.db = .ok ls) (hst : ∀ x, x ∈ ls → Stored l.db x.blockID) :
    Alike (w.leashes env1 l.db (fun _ => l.db)) (w.leashes env2 l.db (fun _ => l.db)) := by
  obtain ⟨ns, hs, R, _⟩ := reachable_rep h
  simp only [Web.leashes, hls, leashInfos_mapGo]
  have key := mapGo_same (e := .panic) (f := fun (p : BlockID × List Addr) => do
      let b ← BlockOf l.db p.1
      pure ({ blockID := b.id, height := b.height, score := b.score, timestamp := b.timestamp, generator := b.generator,
              peers := p.2 } : LeashInfo))
    ((env1.mapOrder_perm (groupLeashes ls)).trans (env2.mapOrder_perm (groupLeashes ls)).symm) (by
      intro p hp
      obtain ⟨hv, hne⟩ := (mem_groupLeashes _ p.1 p.2).mp ((env1.mapOrder_perm _).mem_iff.mp hp)
      rw [hv] at hne
      obtain ⟨x, hx, he⟩ := List.mem_map.mp (peersOn_ne_nil.mp hne)
      rcases R.BlockOf_sane (he ▸ hst x hx) with ⟨b, hb⟩ | hb
      · exact Or.inl ⟨_, by rw [hb, go_bind_ok]; rfl⟩
      · exact Or.inr (by rw [hb]; rfl))
  rcases key with ⟨r, r', h1, h2, hp⟩ | ⟨h1, h2⟩
  · simp only [Resp.after, h1, h2]
    have hp' := (env1.sort_perm leashLess r).trans (hp.trans (env2.sort_perm leashLess r').symm)
    have e1 : ∀ (env : Env) (r : List LeashInfo), w.encode (env.sort leashLess r) (r.map (·.timestamp.toNat)) =
        w.encode (env.sort leashLess r) ((env.sort leashLess r).map (·.timestamp.toNat)) := by
      intro env r
      have : (r.map (·.timestamp.toNat)).all w.encodes = ((env.sort leashLess r).map (·.timestamp.toNat)).all w.encodes := by
        rw [Bool.eq_iff_iff, List.all_eq_true, List.all_eq_true]
        have hq := (env.sort_perm leashLess r).map (·.timestamp.toNat)
        exact ⟨fun k x hx => k x (hq.mem_iff.mp hx), fun k x hx => k x (hq.mem_iff.mpr hx)⟩
      unfold Web.encode
      rw [this]
    rw [e1, e1]
    exact encode_alike w hp' _
  · simp only [Resp.after, h1, h2]; exact Or.inr rfl

/-- the connections, in some order -/
theorem connections_same {lib : Lib} {r : Registry} (I : Peers.Inv r) (env1 env2 : Env) :
    SameOr (.err .notFound) (Peers.Connections lib env1 r) (Peers.Connections lib env2 r) := by
  have loop : ∀ l : List (Addr × Conn), connectionsLoop r.db l = mapGo (fun x => do
      let sp ← peer r.db x.1
      pure ({ sp with conn := some x.2 } : Peer)) l := by
    intro l
    induction l with
    | nil => rfl
    | cons x l ih =>
      obtain ⟨a, c⟩ := x
      rw [connectionsLoop, ih, mapGo]
      cases peer r.db a <;> rfl
  have key := mapGo_same (e := .err .notFound) (f := fun (x : Addr × Conn) => do
      let sp ← peer r.db x.1
      pure ({ sp with conn := some x.2 } : Peer))
    ((env1.mapOrder_perm r.connections).trans (env2.mapOrder_perm r.connections).symm) (by
      intro x hx
      obtain ⟨a, c⟩ := x
      obtain ⟨b, rfl⟩ := is4_iff.mp (I.ipv4 a c ((env1.mapOrder_perm _).mem_iff.mp hx)).1
      cases hv : view r.db b with
      | none => exact Or.inr (by simp only [I.good.peer_v4, hv]; rfl)
      | some v => exact Or.inl ⟨_, by simp only [I.good.peer_v4, hv]; rfl⟩)
  unfold Connections
  rw [loop, loop]
  rcases key with ⟨x, y, h1, h2, hp⟩ | ⟨h1, h2⟩
  · rw [h1, h2]
    exact Or.inl ⟨_, _, rfl, rfl, (env1.sort_perm _ _).trans (hp.trans (env2.sort_perm _ _).symm)⟩
  · rw [h1, h2]; exact Or.inr ⟨rfl, rfl⟩

/-- The peers, the friendly peers and the connections are the same, up to the order of peers with the same name; so is the report of
active forks when only one block is best among those it is about, and the status when only one block is best. -/
theorem C119_status {g : ProtoBlock} {l : Linkage} (h : Reachable g l) {lib : Lib} {r : Registry} (R : Peers.Reachable lib r)
    (w : Web) (env1 env2 env3 env4 env5 env6 env7 env8 : Env) {ls : List Leash}
    (hls : Leashes l.db = .ok ls) (hst : ∀ x, x ∈ ls → Stored l.db x.blockID) :
    (∃ x y, Peers.Peers lib env1 r = .ok x ∧ Peers.Peers lib env2 r = .ok y ∧ x.Perm y) ∧
    (∃ x y, FriendlyPeers lib env1 r = .ok x ∧ FriendlyPeers lib env2 r = .ok y ∧ x.Perm y) ∧
    SameOr (.err .notFound) (Connections lib env1 r) (Connections lib env2 r) ∧
    (∀ q, (∀ ps conns, w.getPeers q = some ps → Connections lib env1 r = .ok conns → OneBest l.db (about (activePeers ps conns) ls)) →
      Alike (w.activeForks lib env1 env3 r l.db q) (w.activeForks lib env2 env4 r l.db q)) ∧
    (OneBest l.db ls → status lib env3 env1 env5 env7 l.db r r r = status lib env4 env2 env6 env8 l.db r r r) := by
  have I := R.inv
  obtain ⟨ps, hps, _⟩ := peers_good I.good
  have peersEq : ∀ env : Env, Peers.Peers lib env r = .ok (env.sort (byName lib) ps) := fun env => by simp [Peers.Peers, hps]
  have friendsEq : ∀ env : Env, FriendlyPeers lib env r =
      .ok (env.sort (byName lib) (ps.filter (fun p => decide (p.state = .connected)))) := fun env => by simp [FriendlyPeers, hps]
  refine ⟨?_, ?_, connections_same I env1 env2, ?_, ?_⟩
  · exact ⟨_, _, peersEq env1, peersEq env2, (env1.sort_perm _ _).trans (env2.sort_perm _ _).symm⟩
  · exact ⟨_, _, friendsEq env1, friendsEq env2, (env1.sort_perm _ _).trans (env2.sort_perm _ _).symm⟩
  · intro q hq
    unfold Web.activeForks
    cases hg : w.getPeers q with
    | none => exact Or.inr rfl
    | some rps =>
      simp only
      rcases connections_same (lib := lib) I env1 env2 with ⟨x, y, h1, h2, hp⟩ | ⟨h1, h2⟩
      · simp only [h1, h2, Resp.after]
        have hact : (activePeers rps x).Perm (activePeers rps y) := (hp.map _).filter _
        have hsel : selected (activePeers rps y) ls = selected (activePeers rps x) ls := by
          rw [about_selected, about_selected]
          unfold about
          apply List.filter_congr
          intro k _
          rw [decide_eq_decide, hact.mem_iff]
          constructor
          · rintro (e | e)
            · exact Or.inl (List.perm_nil.mp (e ▸ hact))
            · exact Or.inr e
          · rintro (e | e)
            · exact Or.inl (List.nil_perm.mp (e ▸ hact))
            · exact Or.inr e
        have hF : Forks env4 l.db (activePeers rps y) = Forks env4 l.db (activePeers rps x) := by
          have hls' : Chains.leashes l.db = .ok ls := hls
          rw [Forks_unfold, Forks_unfold, hls', go_bind_ok, go_bind_ok, hsel]
        rcases (C119_partial h env3 env4 hls hst).1 _ (hq rps x hg h1) with ⟨fs, fs', e1, e2, hpf⟩ | ⟨e1, e2⟩
        · rw [hF, e1, e2]
          exact encode_alike w hpf _
        · rw [hF, e1, e2]; exact Or.inr rfl
      · simp only [h1, h2]; exact Or.inr rfl
  · intro hu
    have hs := ((C119_partial h env3 env4 hls hst).2 hu).1
    simp only [status, hs, peersEq, friendsEq, Resp.after]
    rw [(env1.sort_perm (byName lib) ps).length_eq, (env2.sort_perm (byName lib) ps).length_eq,
      (env5.sort_perm (byName lib) _).length_eq, (env6.sort_perm (byName lib) _).length_eq]
    rcases connections_same (lib := lib) I env7 env8 with ⟨x, y, h1, h2, hp⟩ | ⟨h1, h2⟩
    · simp only [h1, h2, hp.length_eq]
    · simp only [h1, h2]

/-! ## a case without ties -/

/-- Cases in which the hypotheses hold: one more block of peer 1 on top of block 2, which is then ahead of block 4 of peer 2. -/
def aheadLinkage : Linkage := exec Ex.l1 [Ex.pb 6 2 1]

/-- its leashes -/
def aheadLeashes : List Leash := [⟨Ex.ip 1, Ex.bid 6⟩, ⟨Ex.ip 2, Ex.bid 4⟩]

example : Leashes aheadLinkage.db = .ok aheadLeashes ∧ (∀ x, x ∈ aheadLeashes → Stored aheadLinkage.db x.blockID) ∧
    OneBest aheadLinkage.db aheadLeashes ∧ OneBest aheadLinkage.db (about [Ex.ip 2] aheadLeashes) ∧
    ((Forks Ex.env aheadLinkage.db []).map (fun fs => fs.map (fun f => (f.headBlock, f.longest, f.length)))) =
      .ok [(Ex.bid 6, true, 0), (Ex.bid 4, false, 1)] := by
  refine ⟨by decide +kernel, by unfold Stored; decide +kernel, oneBest_of (b0 := Ex.bid 6) (by decide +kernel),
    oneBest_of (b0 := Ex.bid 4) (by decide +kernel), by decide +kernel⟩

example : NoTies aheadLinkage.db aheadLeashes := by
  intro b b' s hb hb' hs hs' _
  have score : ∀ c, c ∈ aheadLeashes.map (·.blockID) → ∀ t, ScoreOf aheadLinkage.db c t →
      (getBlockByID aheadLinkage.db c).map (·.score) = .ok t := by
    rintro c _ t ⟨r, hr, rfl⟩
    rw [hr]; rfl
  have k := score b hb s hs
  have k' := score b' hb' s hs'
  have hne : (getBlockByID aheadLinkage.db (Ex.bid 6)).map (·.score) ≠ (getBlockByID aheadLinkage.db (Ex.bid 4)).map (·.score) := by
    decide +kernel
  simp only [aheadLeashes, List.map_cons, List.map_nil, List.mem_cons, List.not_mem_nil, or_false] at hb hb'
  rcases hb with rfl | rfl <;> rcases hb' with rfl | rfl
  · rfl
  · exact absurd (k.trans k'.symm) hne
  · exact absurd (k'.trans k.symm) hne
  · rfl

/-! ## ties -/

/-- The claim fails: peers 1 and 2 are on two branches with the same score, a third peer one block behind the first.  The store does
not change, and the two orders of the map give two numbers of long forks. -/
def tiedOps : List Spec.Op :=
  [Ex.pb 1 0 1, Ex.pb 2 1 1, Ex.pb 3 2 1, Ex.pb 4 3 1, Ex.pb 5 4 1, Ex.pb 6 5 1, Ex.pb 7 6 1, Ex.pb 8 7 1, Ex.pb 9 8 3, Ex.pb 10 9 1,
   Ex.pb 14 3 2, Ex.pb 15 14 2, Ex.pb 16 15 2, Ex.pb 17 16 2, Ex.pb 18 17 2, Ex.pb 19 18 2, Ex.pb 20 19 2]

theorem C119_witness : Reachable Ex.g0 (exec Ex.l0 tiedOps) ∧
    StatsOf Ex.env (exec Ex.l0 tiedOps).db = .ok { short := 2, long := 1 } ∧
    StatsOf Ex.envRev (exec Ex.l0 tiedOps).db = .ok { short := 1, long := 2 } :=
  ⟨⟨Ex.l0, _, Ex.fresh, by decide +kernel, rfl⟩, by decide +kernel, by decide +kernel⟩

/-- a block with the given base target -/
def pbT (n p t a : Nat) : Spec.Op := .putBlock (Ex.blkT n p t) (Ex.ip a) .ok .ok

/-- nine blocks of peer 1; two of peer 2 with the same score in all; and four light ones of peer 3 on the first of them -/
def oddOps : List Spec.Op :=
  [pbT 1 0 1024 1, pbT 2 1 1024 1, pbT 3 2 1024 1, pbT 4 3 1024 1, pbT 5 4 1024 1, pbT 6 5 1024 1, pbT 7 6 1024 1, pbT 8 7 1024 1,
   pbT 9 8 1024 1, pbT 11 0 1024 2, pbT 12 11 128 2,
   pbT 23 11 1048576 3, pbT 24 23 1048576 3, pbT 25 24 1048576 3, pbT 26 25 1048576 3]

/-- The claim fails further: with the same store one order of the map gives a panic, the other one a report. -/
theorem C119_panics : Reachable Ex.g0 (exec Ex.l0 oddOps) ∧ Forks Ex.env (exec Ex.l0 oddOps).db [] = goPanic ∧
    exWeb.forks Ex.env (exec Ex.l0 oddOps).db [] = .panicked ∧
    (exWeb.forks Ex.envRev (exec Ex.l0 oddOps).db []).status = some 200 :=
  ⟨⟨Ex.l0, _, Ex.fresh, by decide +kernel, rfl⟩, by decide +kernel, by decide +kernel, by decide +kernel⟩

end Verif.Props
