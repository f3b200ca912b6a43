import Verif.Services.ApiReads
import Verif.Props.Reports
import Verif.Props.Reads
import Verif.Props.ReadsPeers
import Verif.Props.Config
/-
Property C104: the HTTP reports on databases that fail to read, or that are being closed.
-/

set_option autoImplicit false

namespace Verif.Props

open Verif
open Verif.Chains (Addr BlockID DB Env Fork Leash Head Linkage ProtoBlock LeashOf HasLeash Leashes Heads HasBlock BlockOf getBlockByID Listed)
open Verif.Chains.Spec (Op Fresh Stored Reachable exec inserts)
open Verif.Chains.Rd (Faults)
open Verif.Peers (Registry Lib Peer)
open Verif.Services

/-- the iterators of a call deliver every entry -/
def Delivers (c : Cond) : Prop := ∀ F, c = .opened F → ∀ k, F.missed k = false

/-- what an iterator of a call misses -/
def misses (c : Cond) (k : List UInt8) : Bool :=
  match c with
  | .opened F => F.missed k
  | .closed => false

/-! ### lemmas -/

theorem filter_delivered {V : Type} {F : Faults} (h : ∀ k, F.missed k = false) (db : KV.DB V) :
    db.filter (fun p => !F.missed p.1) = db := by
  simp [h]

theorem unseen_delivered {F : Faults} (h : ∀ k, F.missed k = false) (db : DB) : Chains.Rd.unseen F db = db := by
  unfold Chains.Rd.unseen Chains.Rd.keep
  simp [h]

theorem leashes_delivered {F : Faults} (h : ∀ k, F.missed k = false) (db : DB) : Chains.Rd.Leashes F db = Leashes db := by
  unfold Chains.Rd.Leashes Chains.Rd.leashes Leashes Chains.leashes Chains.Rd.scan
  rw [filter_delivered h]

theorem activeHeads_delivered {F : Faults} (h : ∀ k, F.missed k = false) (db : DB) :
    Chains.Rd.Safe F (Chains.Rd.ActiveHeads F db) (Chains.ActiveHeads db) := by
  unfold Chains.Rd.ActiveHeads Chains.ActiveHeads
  refine Chains.Rd.Safe.bind ?_ fun hs => ?_
  · unfold Chains.Rd.heads Chains.heads
    have e : Chains.Rd.getHeads F db = Chains.getHeads db := by
      unfold Chains.Rd.getHeads Chains.getHeads Chains.Rd.scan
      rw [filter_delivered h]
    rw [e]
    exact (Chains.Rd.Safe.refl _).bind fun hs =>
      Chains.Rd.Safe.mapGo (fun p => (Chains.Rd.safe_getBlock F db _).bind fun _ => .refl _) _
  · have e : Chains.Rd.leashes F db = Chains.leashes db := leashes_delivered h db
    rw [e]
    exact .refl _

theorem connections_orErr (c : Cond) (lib : Lib) (env : Env) (r : Registry) :
    OrErr (c.connections lib env r) (Peers.Connections lib env r) := by
  unfold Cond.connections Peers.Rd.Connections Peers.Connections
  refine OrErr.bind ?_ fun l => .refl _
  rcases Peers.Rd.connectionsLoop_safe c.faults r.db (env.mapOrder r.connections) with h | ⟨e, h, h' | h'⟩
  · exact Or.inl h
  · exact Or.inr ⟨_, by rw [h, h']; rfl⟩
  · exact Or.inl (by rw [h, h'])

theorem peers_orErr {c : Cond} (hd : Delivers c) (lib : Lib) (env : Env) (r : Registry) :
    OrErr (c.run (fun F => Peers.Rd.Peers F lib env r)) (Peers.Peers lib env r) := by
  cases c with
  | closed => exact Or.inr ⟨_, rfl⟩
  | opened F =>
    left
    show Peers.Rd.Peers F lib env r = _
    unfold Peers.Rd.Peers Peers.Peers Peers.Rd.peers
    rw [filter_delivered (hd F rfl)]

theorem friendly_orErr {c : Cond} (hd : Delivers c) (lib : Lib) (env : Env) (r : Registry) :
    OrErr (c.run (fun F => Peers.Rd.FriendlyPeers F lib env r)) (Peers.FriendlyPeers lib env r) := by
  cases c with
  | closed => exact Or.inr ⟨_, rfl⟩
  | opened F =>
    left
    show Peers.Rd.FriendlyPeers F lib env r = _
    unfold Peers.Rd.FriendlyPeers Peers.FriendlyPeers Peers.Rd.peers
    rw [filter_delivered (hd F rfl)]

theorem headInfos_orErr (cs : Nat → Cond) (dbs : Nat → DB) : ∀ (hs : List Head) (i : Nat),
    OrErr (headInfosRd cs dbs i hs) (headInfos dbs i hs)
  | [], _ => .refl _
  | h :: hs, i => by
    unfold headInfosRd headInfos
    refine OrErr.bind (OrErr.run _ fun F _ => Chains.Rd.safe_BlockOf F _ _) fun b => ?_
    exact OrErr.bind (headInfos_orErr cs dbs hs (i + 1)) fun _ => .refl _

theorem leashInfos_orErr (cs : Nat → Cond) (dbs : Nat → DB) : ∀ (m : List (BlockID × List Addr)) (i : Nat),
    OrErr (leashInfosRd cs dbs i m) (leashInfos dbs i m)
  | [], _ => .refl _
  | (k, v) :: m, i => by
    unfold leashInfosRd leashInfos
    refine OrErr.bind (OrErr.run _ fun F _ => Chains.Rd.safe_BlockOf F _ _) fun b => ?_
    exact OrErr.bind (leashInfos_orErr cs dbs m (i + 1)) fun _ => .refl _

theorem generators_orFailed (w : Web) (c : Cond) (env : Env) (db : DB) (id : BlockID) (n : Int) :
    OrFailed (w.generatorsRd c env db id n) (w.generators env db id n) := by
  unfold Web.generatorsRd Web.generators
  split
  · exact OrFailed.after (OrErr.run _ fun F _ => Chains.Rd.safe_getNum F _ _) fun _ => .refl _
  · split
    · exact OrFailed.after (OrErr.run _ fun F _ => Chains.Rd.safe_getNum F _ _) fun _ => .refl _
    · exact OrFailed.after (OrErr.run _ fun F _ => Chains.Rd.safe_ForkGenerators F _ _ _ _) fun _ => .refl _

/-! ### C104 -/

/-- If the iterators deliver every entry, then whatever else cannot be read, and whenever the databases are closed, each answer is the
one that good databases would give, or its status is 500. -/
theorem C104_delivered (w : Web) (d : Dates) (lib : Lib) (c1 c2 c3 c4 : Cond) (cs : Nat → Cond) (e1 e2 e3 e4 : Env) (db1 db2 db3 : DB)
    (dbs : Nat → DB) (r1 r2 r3 : Registry) (h1 : Delivers c1) (h2 : Delivers c2) (h3 : Delivers c3) (q q' : List Char) :
    OrFailed (w.forksRd c1 e1 db1 q) (w.forks e1 db1 q) ∧
    OrFailed (w.activeForksRd c4 c1 lib e1 e2 r1 db1 q) (w.activeForks lib e1 e2 r1 db1 q) ∧
    OrFailed (w.forkRd c4 c1 e1 db1 db2 q) (w.fork e1 db1 db2 q) ∧
    OrFailed (w.forkGeneratorsRd c4 c1 c2 e1 e2 db1 db2 db3 q q') (w.forkGenerators e1 e2 db1 db2 db3 q q') ∧
    OrFailed (w.headsRd c1 cs db1 dbs) (w.heads db1 dbs) ∧
    OrFailed (w.leashesRd c1 cs e1 db1 dbs) (w.leashes e1 db1 dbs) ∧
    OrFailed (statusRd c1 c2 c3 c4 lib e1 e2 e3 e4 db1 r1 r2 r3) (status lib e1 e2 e3 e4 db1 r1 r2 r3) ∧
    OrFailed (d.peersRd c1 lib e1 r1) (d.peers lib e1 r1) ∧
    OrFailed (d.friendlyRd c1 lib e1 r1) (d.friendly lib e1 r1) ∧
    OrFailed (d.connectionsRd c4 lib e1 r1) (d.connections lib e1 r1) := by
  have hforks : ∀ env db ps, OrErr (c1.run (fun F => Chains.Rd.Forks F env db ps)) (Chains.Forks env db ps) := by
    intro env db ps
    refine OrErr.run _ fun F hF => ?_
    have := Chains.Rd.safe_Forks F env db ps
    rwa [unseen_delivered (h1 F hF)] at this
  have hfork : ∀ env db a, OrErr (c1.run (fun F => Chains.Rd.ForkOf F env db a)) (Chains.ForkOf env db a) := by
    intro env db a
    refine OrErr.run _ fun F hF => ?_
    have := Chains.Rd.safe_ForkOf F env db a
    rwa [unseen_delivered (h1 F hF)] at this
  refine ⟨?_, ?_, ?_, ?_, ?_, ?_, ?_, ?_, ?_, ?_⟩
  · unfold Web.forksRd Web.forks
    cases w.getPeers q
    · exact .refl _
    · exact OrFailed.after (hforks _ _ _) fun _ => .refl _
  · unfold Web.activeForksRd Web.activeForks
    cases w.getPeers q
    · exact .refl _
    · exact OrFailed.after (connections_orErr _ _ _ _) fun _ => OrFailed.after (hforks _ _ _) fun _ => .refl _
  · unfold Web.forkRd Web.fork
    cases w.parse q
    · exact .refl _
    · refine OrFailed.after (OrErr.run _ fun F _ => Chains.Rd.safe_HasLeash F _ _) fun ok => ?_
      cases ok
      · exact .refl _
      · exact OrFailed.after (hfork _ _ _) fun _ => .refl _
  · unfold Web.forkGeneratorsRd Web.forkGenerators
    cases w.parse q
    · exact .refl _
    · cases atoi q'
      · exact .refl _
      · refine OrFailed.after (OrErr.run _ fun F _ => Chains.Rd.safe_HasLeash F _ _) fun ok => ?_
        cases ok
        · exact .refl _
        · exact OrFailed.after (hfork _ _ _) fun f => generators_orFailed _ _ _ _ _ _
  · unfold Web.headsRd Web.heads
    exact OrFailed.after (OrErr.run _ fun F hF => activeHeads_delivered (h1 F hF) _) fun hs =>
      OrFailed.after (headInfos_orErr cs dbs hs 0) fun _ => .refl _
  · unfold Web.leashesRd Web.leashes
    exact OrFailed.after (OrErr.run _ fun F hF => Or.inl (leashes_delivered (h1 F hF) _)) fun ls =>
      OrFailed.after (leashInfos_orErr cs dbs _ 0) fun _ => .refl _
  · unfold statusRd status
    refine OrFailed.after ?_ fun _ => OrFailed.after (peers_orErr h2 _ _ _) fun _ =>
      OrFailed.after (friendly_orErr h3 _ _ _) fun _ => OrFailed.after (connections_orErr _ _ _ _) fun _ => .refl _
    refine OrErr.run _ fun F hF => ?_
    have := Chains.Rd.safe_StatsOf F e1 db1
    rwa [unseen_delivered (h1 F hF)] at this
  · exact OrFailed.after (peers_orErr h1 _ _ _) fun _ => .refl _
  · exact OrFailed.after (friendly_orErr h1 _ _ _) fun _ => .refl _
  · exact OrFailed.after (connections_orErr _ _ _ _) fun _ => .refl _

/-- another store that could have come about, with the same blocks, in which the peers that are missed are nowhere -/
structure Lacking (g : ProtoBlock) (c : Cond) (l l' : Linkage) : Prop where
  reachable : Reachable g l'
  genesis : l'.genesis = l.genesis
  has : ∀ id, HasBlock l'.db id = HasBlock l.db id
  blocks : ∀ id, BlockOf l'.db id = BlockOf l.db id
  lost : ∀ a, Listed a → HasLeash l'.db a = if misses c (Chains.addrKey a) then .ok false else HasLeash l.db a
  kept : ∀ a, misses c (Chains.addrKey a) = false → LeashOf l' a = LeashOf l a

/-- If entries are missed, each report about forks is the one of such a store, or its status is 500.  Missing for the full claim: that
it is the report of this store; see `C104_wrong`. -/
theorem C104_forks_partial {g : ProtoBlock} {l : Linkage} (h : Reachable g l) (c : Cond) : ∃ l', Lacking g c l l' ∧
    ∀ (w : Web) (lib : Lib) (c1 c3 : Cond) (e1 e2 : Env) (db1 db3 : DB) (reg : Registry) (q q' : List Char),
      OrFailed (w.forksRd c e1 l.db q) (w.forks e1 l'.db q) ∧
      OrFailed (w.activeForksRd c1 c lib e1 e2 reg l.db q) (w.activeForks lib e1 e2 reg l'.db q) ∧
      OrFailed (w.forkRd c1 c e1 db1 l.db q) (w.fork e1 db1 l'.db q) ∧
      OrFailed (w.forkGeneratorsRd c1 c c3 e1 e2 db1 l.db db3 q q') (w.forkGenerators e1 e2 db1 l'.db db3 q q') := by
  have key : ∃ l', Lacking g c l l' ∧
      (∀ env ps, OrErr (c.run (fun F => Chains.Rd.Forks F env l.db ps)) (Chains.Forks env l'.db ps)) ∧
      ∀ env a, OrErr (c.run (fun F => Chains.Rd.ForkOf F env l.db a)) (Chains.ForkOf env l'.db a) := by
    cases c with
    | closed =>
      exact ⟨l, ⟨h, rfl, fun _ => rfl, fun _ => rfl, fun _ _ => rfl, fun _ _ => rfl⟩, fun _ _ => Or.inr ⟨_, rfl⟩, fun _ _ => Or.inr ⟨_, rfl⟩⟩
    | opened F =>
      obtain ⟨l', a1, a2, a3, a4, a5, a6, a7, _, a9, _⟩ := C99_reports_partial h F
      exact ⟨l', ⟨a1, a2, a3, a4, a5, a6⟩, fun env ps => (a7 env ps).imp id fun e => ⟨_, e⟩, fun env a => (a9 env a).imp id fun e => ⟨_, e⟩⟩
  obtain ⟨l', hl, hforks, hfork⟩ := key
  refine ⟨l', hl, fun w lib c1 c3 e1 e2 db1 db3 reg q q' => ⟨?_, ?_, ?_, ?_⟩⟩
  · unfold Web.forksRd Web.forks
    cases w.getPeers q
    · exact .refl _
    · exact OrFailed.after (hforks _ _) fun _ => .refl _
  · unfold Web.activeForksRd Web.activeForks
    cases w.getPeers q
    · exact .refl _
    · exact OrFailed.after (connections_orErr _ _ _ _) fun _ => OrFailed.after (hforks _ _) fun _ => .refl _
  · unfold Web.forkRd Web.fork
    cases w.parse q
    · exact .refl _
    · refine OrFailed.after (OrErr.run _ fun F _ => Chains.Rd.safe_HasLeash F _ _) fun ok => ?_
      cases ok
      · exact .refl _
      · exact OrFailed.after (hfork _ _) fun _ => .refl _
  · unfold Web.forkGeneratorsRd Web.forkGenerators
    cases w.parse q
    · exact .refl _
    · cases atoi q'
      · exact .refl _
      · refine OrFailed.after (OrErr.run _ fun F _ => Chains.Rd.safe_HasLeash F _ _) fun ok => ?_
        cases ok
        · exact .refl _
        · exact OrFailed.after (hfork _ _) fun f => generators_orFailed _ _ _ _ _ _

/-- a successful call, and what a good database would have answered -/
theorem after_orErr_ok {α β : Type} {x y : Go α} {f : α → Resp β} {r : β} (h : OrErr x y) (ho : Resp.after x f = .ok r) :
    ∃ a, x = .ok a ∧ y = .ok a ∧ f a = .ok r := by
  obtain ⟨a, ha, hr⟩ := Resp.after_ok ho
  rcases h with e | ⟨e, he⟩
  · exact ⟨a, ha, by rw [← e, ha], hr⟩
  · rw [he] at ha; cases ha

/-- The heads reported are those of `C70_heads` whose own entry is not missed and that some peer is on whose leash is not missed; what
is said about them is right.  The condition of the reads of single blocks does not matter. -/
theorem C104_heads_partial {g : ProtoBlock} {l0 : Linkage} (hf : Fresh g l0) (ops1 : List Op) (hb : inserts ops1 + 2 < 2 ^ 32) (dbs : Nat → DB)
    (hd : Later l0 ops1 dbs) (w : Web) (c : Cond) (cs : Nat → Cond) {r : List HeadInfo} (ho : w.headsRd c cs (exec l0 ops1).db dbs = .ok r) :
    (r.map (·.id)).Nodup ∧
    (∃ hd ls, Heads (exec l0 ops1).db = .ok hd ∧ Leashes (exec l0 ops1).db = .ok ls ∧
      ∀ n id, (∃ h, h ∈ r ∧ h.number = n ∧ h.id = id) ↔
        { num := n, blockID := id } ∈ hd ∧ misses c (Chains.numKey Chains.headToBlockPrefix n) = false ∧
        ∃ p, { addr := p, blockID := id } ∈ ls ∧ misses c (Chains.addrKey p) = false) ∧
    ∀ h, h ∈ r → ∃ rec, getBlockByID (exec l0 ops1).db h.id = .ok rec ∧ h.height = rec.height ∧ h.score = rec.score ∧
      h.timestamp = rec.timestamp := by
  have hR : Reachable g (exec l0 ops1) := ⟨l0, ops1, hf, hb, rfl⟩
  unfold Web.headsRd at ho
  obtain ⟨ah, hah, ho⟩ := Resp.after_ok ho
  obtain ⟨r', _, hloop, ho⟩ := after_orErr_ok (headInfos_orErr cs dbs _ 0) ho
  obtain ⟨rfl, _⟩ := Web.encode_ok ho
  cases c with
  | closed => cases hah
  | opened F =>
    change Chains.Rd.ActiveHeads F _ = .ok ah at hah
    obtain ⟨ls, hls, hlsF⟩ := C99_leashes hR F
    obtain ⟨hd', hhd, hhdF⟩ := C99_heads hR F
    unfold Chains.Rd.ActiveHeads at hah
    obtain ⟨hs', hhs', hah⟩ := go_bind_eq_ok.mp hah
    obtain ⟨ls', hls', hah⟩ := go_bind_eq_ok.mp hah
    rw [show Chains.Rd.leashes F (exec l0 ops1).db = _ from hlsF] at hls'
    cases hls'
    have hhs'' : hs' = hd'.filter (fun x => !F.missed (Chains.numKey Chains.headToBlockPrefix x.num)) := by
      rcases hhdF with e | e <;> rw [show Chains.Rd.heads F (exec l0 ops1).db = _ from e] at hhs'
      · cases hhs'; rfl
      · cases hhs'
    subst hhs''
    cases hah
    obtain ⟨hd2, g1, _, g3, g4⟩ := C10_heads hf ops1 hb
    rw [hhd] at g1; cases g1
    refine match head_rows hf ops1 hb dbs hd 0 _ r ?_ hloop with
      | ⟨q1, q2⟩ => ⟨?_, ⟨hd', ls, hhd, hls, ?_⟩, q2⟩
    · intro x hx
      have := (List.mem_filter.mp (List.mem_filter.mp hx).1).1
      exact ((g4 x.blockID).mp (List.mem_map.mpr ⟨x, this, rfl⟩)).1
    · have hids := congrArg (List.map Prod.snd) q1
      rw [List.map_map, List.map_map] at hids
      rw [show r.map (·.id) = _ from hids]
      exact ((List.filter_sublist.trans List.filter_sublist).map _).nodup g3
    · intro n id
      have e1 : (∃ h, h ∈ r ∧ h.number = n ∧ h.id = id) ↔ (n, id) ∈ r.map (fun h => (h.number, h.id)) := by
        rw [List.mem_map]
        constructor
        · rintro ⟨h, hm, rfl, rfl⟩; exact ⟨h, hm, rfl⟩
        · rintro ⟨h, hm, e⟩; cases e; exact ⟨h, hm, rfl, rfl⟩
      rw [e1, q1, List.mem_map]
      simp only [misses]
      constructor
      · rintro ⟨h, hm, e⟩
        cases e
        obtain ⟨hm, hl⟩ := List.mem_filter.mp hm
        obtain ⟨hm, hk⟩ := List.mem_filter.mp hm
        obtain ⟨x, hx, e⟩ := List.mem_map.mp (List.contains_iff_mem.mp hl)
        obtain ⟨hx, hxm⟩ := List.mem_filter.mp hx
        refine ⟨hm, by simpa using hk, x.addr, ?_, by simpa using hxm⟩
        rw [← e]; exact hx
      · rintro ⟨hm, hk, p, hp, hpm⟩
        refine ⟨_, List.mem_filter.mpr ⟨List.mem_filter.mpr ⟨hm, by simp [hk]⟩, ?_⟩, rfl⟩
        exact List.contains_iff_mem.mpr (List.mem_map.mpr ⟨_, List.mem_filter.mpr ⟨hp, by simp [hpm]⟩, rfl⟩)

/-- The leashes reported are those of `C71_leashes` without the peers that are missed. -/
theorem C104_leashes_partial {g : ProtoBlock} {l0 : Linkage} (hf : Fresh g l0) (ops1 : List Op) (hb : inserts ops1 + 2 < 2 ^ 32) (dbs : Nat → DB)
    (hd : Later l0 ops1 dbs) (w : Web) (c : Cond) (cs : Nat → Cond) (env : Env) {r : List LeashInfo}
    (ho : w.leashesRd c cs env (exec l0 ops1).db dbs = .ok r) :
    ∃ all ls, Leashes (exec l0 ops1).db = .ok all ∧ ls = all.filter (fun x => !misses c (Chains.addrKey x.addr)) ∧
      (r.map (·.blockID)).Nodup ∧
      (∀ id, id ∈ r.map (·.blockID) ↔ ∃ p, { addr := p, blockID := id } ∈ ls) ∧
      (∀ x, x ∈ r → (∀ p, p ∈ x.peers ↔ { addr := p, blockID := x.blockID } ∈ ls) ∧ x.peers.Nodup ∧
        (Stored (exec l0 ops1).db x.blockID → ∃ rec, getBlockByID (exec l0 ops1).db x.blockID = .ok rec ∧
          x.height = rec.height ∧ x.score = rec.score ∧ x.timestamp = rec.timestamp ∧ x.generator = rec.generator)) ∧
      r.Pairwise (fun a b => b.score < a.score ∨ (b.score = a.score ∧ b.peers.length ≤ a.peers.length)) := by
  have hR : Reachable g (exec l0 ops1) := ⟨l0, ops1, hf, hb, rfl⟩
  unfold Web.leashesRd at ho
  obtain ⟨ls, hls, ho⟩ := Resp.after_ok ho
  obtain ⟨r', _, hloop, ho⟩ := after_orErr_ok (leashInfos_orErr cs dbs _ 0) ho
  obtain ⟨rfl, _⟩ := Web.encode_ok ho
  cases c with
  | closed => cases hls
  | opened F =>
    change Chains.Rd.Leashes F _ = .ok ls at hls
    obtain ⟨all, hall, hF⟩ := C99_leashes hR F
    rw [hF] at hls; cases hls
    obtain ⟨ns, hs, R, _⟩ := Chains.reachable_rep hR
    obtain ⟨ls', hls', hnd, _⟩ := R.leashes
    rw [show Chains.leashes (exec l0 ops1).db = .ok all from hall] at hls'; cases hls'
    exact ⟨all, _, hall, rfl, leash_rows hf ops1 dbs hd env ((List.filter_sublist.map _).nodup hnd) hloop⟩

/-- The lists of peers lack exactly the peers that are missed. -/
theorem C104_peers_partial {lib : Lib} {reg : Registry} (R : Peers.Reachable lib reg) (d : Dates) (c : Cond) (env : Env) {l : List Peer} :
    (d.peersRd c lib env reg = .ok l → ∃ all, Peers.Peers lib env reg = .ok all ∧
      l.Perm (all.filter (fun p => !misses c p.addr.slice)) ∧ l.Pairwise (fun p q => Peers.byName lib q p = false)) ∧
    (d.friendlyRd c lib env reg = .ok l → ∃ all, Peers.FriendlyPeers lib env reg = .ok all ∧
      l.Perm (all.filter (fun p => !misses c p.addr.slice)) ∧ l.Pairwise (fun p q => Peers.byName lib q p = false)) := by
  have henc : ∀ l l', d.encode l = .ok l' → l = l' := by
    intro l l' h
    unfold Dates.encode at h
    split at h
    · cases h; rfl
    · cases h
  constructor
  · intro h
    obtain ⟨l', h1, h2⟩ := Resp.after_ok h
    have := henc _ _ h2
    subst this
    cases c with
    | closed => cases h1
    | opened F =>
      obtain ⟨⟨all, l'', g1, g2, g3⟩, _⟩ := Peers.C101_lists_partial R F env
      rw [show Peers.Rd.Peers F lib env reg = .ok l' from h1] at g2
      cases g2
      exact ⟨all, g1, g3⟩
  · intro h
    obtain ⟨l', h1, h2⟩ := Resp.after_ok h
    have := henc _ _ h2
    subst this
    cases c with
    | closed => cases h1
    | opened F =>
      obtain ⟨_, all, l'', g1, g2, g3⟩ := Peers.C101_lists_partial R F env
      rw [show Peers.Rd.FriendlyPeers F lib env reg = .ok l' from h1] at g2
      cases g2
      exact ⟨all, g1, g3⟩

/-- In the status the numbers of short and long forks are those of a store without the missed peers, the numbers of peers and of
friendly peers count those that are not missed, and the number of connections is right. -/
theorem C104_status_partial {g : ProtoBlock} {l : Linkage} {lib : Lib} (h : Reachable g l) {r1 r2 r3 : Registry} (R1 : Peers.Reachable lib r1)
    (R2 : Peers.Reachable lib r2) (c0 c1 c2 c3 : Cond) : ∃ l', Lacking g c0 l l' ∧
    ∀ (e0 e1 e2 e3 : Env) (st : Status), statusRd c0 c1 c2 c3 lib e0 e1 e2 e3 l.db r1 r2 r3 = .ok st →
      ∃ stats all friends conns, Chains.StatsOf e0 l'.db = .ok stats ∧ st.short = stats.short ∧ st.long = stats.long ∧
        Peers.Peers lib e1 r1 = .ok all ∧ st.all = (all.filter (fun p => !misses c1 p.addr.slice)).length ∧
        Peers.FriendlyPeers lib e2 r2 = .ok friends ∧ st.friendly = (friends.filter (fun p => !misses c2 p.addr.slice)).length ∧
        Peers.Connections lib e3 r3 = .ok conns ∧ st.connected = conns.length := by
  have key : ∃ l', Lacking g c0 l l' ∧ ∀ env, OrErr (c0.run (fun F => Chains.Rd.StatsOf F env l.db)) (Chains.StatsOf env l'.db) := by
    cases c0 with
    | closed =>
      exact ⟨l, ⟨h, rfl, fun _ => rfl, fun _ => rfl, fun _ _ => rfl, fun _ _ => rfl⟩, fun _ => Or.inr ⟨_, rfl⟩⟩
    | opened F =>
      obtain ⟨l', a1, a2, a3, a4, a5, a6, _, a8, _⟩ := C99_reports_partial h F
      exact ⟨l', ⟨a1, a2, a3, a4, a5, a6⟩, fun env => (a8 env).imp id fun e => ⟨_, e⟩⟩
  obtain ⟨l', hl, hstats⟩ := key
  refine ⟨l', hl, fun e0 e1 e2 e3 st ho => ?_⟩
  unfold statusRd at ho
  obtain ⟨stats, _, hs, ho⟩ := after_orErr_ok (hstats e0) ho
  obtain ⟨all, hall, ho⟩ := Resp.after_ok ho
  obtain ⟨friends, hfr, ho⟩ := Resp.after_ok ho
  obtain ⟨conns, _, hc, ho⟩ := after_orErr_ok (connections_orErr _ _ _ _) ho
  cases ho
  cases c1 with
  | closed => cases hall
  | opened F1 =>
    cases c2 with
    | closed => cases hfr
    | opened F2 =>
      obtain ⟨⟨a1, a2, g1, g2, g3, _⟩, _⟩ := Peers.C101_lists_partial R1 F1 e1
      rw [show Peers.Rd.Peers F1 lib e1 r1 = .ok all from hall] at g2
      cases g2
      obtain ⟨_, b1, b2, k1, k2, k3, _⟩ := Peers.C101_lists_partial R2 F2 e2
      rw [show Peers.Rd.FriendlyPeers F2 lib e2 r2 = .ok friends from hfr] at k2
      cases k2
      exact ⟨stats, a1, b1, conns, hs, rfl, rfl, g1, g3.length_eq, k1, k3.length_eq, hc, rfl⟩

/-- Once the databases are closed there is no answer with data: the status is 400 for a malformed request and 500 for any other.  The
list of connections is answered without the database if there are none. -/
theorem C104_closed (w : Web) (d : Dates) (lib : Lib) (c1 c2 c3 : Cond) (cs : Nat → Cond) (e1 e2 e3 e4 : Env) (db1 db2 db3 : DB)
    (dbs : Nat → DB) (r1 r2 r3 : Registry) (q q' : List Char) :
    ((w.forksRd .closed e1 db1 q).status = some (if w.getPeers q = none then 400 else 500)) ∧
    ((w.forkRd .closed c1 e1 db1 db2 q).status = some (if w.parse q = none then 400 else 500)) ∧
    ((w.forkGeneratorsRd .closed c1 c2 e1 e2 db1 db2 db3 q q').status = some (if w.parse q = none ∨ atoi q' = none then 400 else 500)) ∧
    (w.headsRd .closed cs db1 dbs).status = some 500 ∧ (w.leashesRd .closed cs e1 db1 dbs).status = some 500 ∧
    (statusRd .closed c1 c2 c3 lib e1 e2 e3 e4 db1 r1 r2 r3).status = some 500 ∧
    (d.peersRd .closed lib e1 r1).status = some 500 ∧ (d.friendlyRd .closed lib e1 r1).status = some 500 ∧
    (Peers.Reachable lib r1 → ((d.connectionsRd .closed lib e1 r1).status = some (if r1.connections = [] then 200 else 500)) ∧
      ((w.activeForksRd .closed .closed lib e1 e2 r1 db1 q).status = some (if w.getPeers q = none then 400 else 500))) := by
  refine ⟨?_, ?_, ?_, rfl, rfl, rfl, rfl, rfl, fun R => ?_⟩
  · unfold Web.forksRd
    cases w.getPeers q <;> rfl
  · unfold Web.forkRd
    cases w.parse q <;> rfl
  · unfold Web.forkGeneratorsRd
    cases w.parse q with
    | none => rfl
    | some a => cases atoi q' <;> rfl
  · have hconn : Cond.connections .closed lib e1 r1 = if r1.connections = [] then .ok (e1.sort (Peers.byName lib) []) else
        fail Chains.Rd.readFailed := by
      unfold Cond.connections Peers.Rd.Connections
      have hp := e1.mapOrder_perm r1.connections
      cases hm : e1.mapOrder r1.connections with
      | nil =>
        rw [hm] at hp
        rw [if_pos hp.symm.eq_nil]
        rfl
      | cons x m =>
        obtain ⟨a, cn⟩ := x
        have hne : r1.connections ≠ [] := by
          intro e
          rw [hm, e] at hp
          exact absurd hp.eq_nil (by simp)
        rw [if_neg hne]
        have ha : (a, cn) ∈ r1.connections := by rw [← hp.mem_iff, hm]; simp
        have h4 : Peers.is4 a = true := (R.inv.ipv4 a cn ha).1
        obtain ⟨b, rfl⟩ := Peers.is4_iff.mp h4
        rfl
    constructor
    · unfold Dates.connectionsRd
      rw [hconn]
      by_cases h : r1.connections = []
      · rw [if_pos h, if_pos h]
        have : e1.sort (Peers.byName lib) [] = [] := (e1.sort_perm _ _).eq_nil
        simp [Resp.after, this, Dates.encode, Resp.status]
      · rw [if_neg h, if_neg h]; rfl
    · unfold Web.activeForksRd
      cases w.getPeers q with
      | none => rfl
      | some ps =>
        rw [hconn]
        by_cases h : r1.connections = []
        · rw [if_pos h]; rfl
        · rw [if_neg h]; rfl

/-- On good databases the answers are those of the other properties. -/
theorem C104_good (w : Web) (d : Dates) (lib : Lib) (e1 e2 e3 e4 : Env) (db1 db2 db3 : DB) (dbs : Nat → DB) (r1 r2 r3 : Registry)
    (q q' : List Char) :
    w.forksRd .good e1 db1 q = w.forks e1 db1 q ∧
    w.activeForksRd .good .good lib e1 e2 r1 db1 q = w.activeForks lib e1 e2 r1 db1 q ∧
    w.forkRd .good .good e1 db1 db2 q = w.fork e1 db1 db2 q ∧
    w.forkGeneratorsRd .good .good .good e1 e2 db1 db2 db3 q q' = w.forkGenerators e1 e2 db1 db2 db3 q q' ∧
    w.headsRd .good (fun _ => .good) db1 dbs = w.heads db1 dbs ∧
    w.leashesRd .good (fun _ => .good) e1 db1 dbs = w.leashes e1 db1 dbs ∧
    statusRd .good .good .good .good lib e1 e2 e3 e4 db1 r1 r2 r3 = status lib e1 e2 e3 e4 db1 r1 r2 r3 ∧
    d.peersRd .good lib e1 r1 = d.peers lib e1 r1 ∧ d.friendlyRd .good lib e1 r1 = d.friendly lib e1 r1 ∧
    d.connectionsRd .good lib e1 r1 = d.connections lib e1 r1 := by
  have hn : ∀ k, Faults.none.missed k = false := fun _ => rfl
  have hforks : ∀ env db ps, Cond.good.run (fun F => Chains.Rd.Forks F env db ps) = Chains.Forks env db ps := by
    intro env db ps
    have := (Chains.Rd.safe_Forks Faults.none env db ps).exact
    rwa [unseen_delivered hn] at this
  have hfork : ∀ env db a, Cond.good.run (fun F => Chains.Rd.ForkOf F env db a) = Chains.ForkOf env db a := by
    intro env db a
    have := (Chains.Rd.safe_ForkOf Faults.none env db a).exact
    rwa [unseen_delivered hn] at this
  have hleash : ∀ db a, Cond.good.run (fun F => Chains.Rd.HasLeash F db a) = HasLeash db a :=
    fun db a => (Chains.Rd.safe_HasLeash Faults.none db a).exact
  have hnum : ∀ db id, Cond.good.run (fun F => Chains.Rd.getNumOfBlockID F db id) = Chains.getNumOfBlockID db id :=
    fun db id => (Chains.Rd.safe_getNum Faults.none db id).exact
  have hgen : ∀ env db id n, Cond.good.run (fun F => Chains.Rd.ForkGenerators F env db id n) = Chains.ForkGenerators env db id n :=
    fun env db id n => (Chains.Rd.safe_ForkGenerators Faults.none db env id n).exact
  have hblock : ∀ db id, Cond.good.run (fun F => Chains.Rd.BlockOf F db id) = BlockOf db id :=
    fun db id => (Chains.Rd.safe_BlockOf Faults.none db id).exact
  have hstats : Cond.good.run (fun F => Chains.Rd.StatsOf F e1 db1) = Chains.StatsOf e1 db1 := by
    have := (Chains.Rd.safe_StatsOf Faults.none e1 db1).exact
    rwa [unseen_delivered hn] at this
  have hah : Cond.good.run (fun F => Chains.Rd.ActiveHeads F db1) = Chains.ActiveHeads db1 := (activeHeads_delivered hn db1).exact
  have hls : Cond.good.run (fun F => Chains.Rd.Leashes F db1) = Leashes db1 := leashes_delivered hn db1
  have hconn : ∀ env r, Cond.good.connections lib env r = Peers.Connections lib env r := by
    intro env r
    have h : ∀ m, Peers.Rd.connectionsLoop Faults.none r.db m = Peers.connectionsLoop r.db m := by
      intro m
      induction m with
      | nil => rfl
      | cons x m ih =>
        obtain ⟨a, c⟩ := x
        have hp : Peers.Rd.peer Faults.none r.db a = Peers.peer r.db a := by
          rcases Peers.Rd.peer_safe Faults.none r.db a with h | ⟨⟨k, _, hk⟩, _⟩
          · exact h
          · cases hk
        unfold Peers.Rd.connectionsLoop Peers.connectionsLoop
        rw [hp, ih]
    show Peers.Rd.Connections Faults.none lib env r = _
    unfold Peers.Rd.Connections Peers.Connections
    rw [h]
  have hpeers : ∀ env r, Cond.good.run (fun F => Peers.Rd.Peers F lib env r) = Peers.Peers lib env r := by
    intro env r
    show Peers.Rd.Peers Faults.none lib env r = _
    unfold Peers.Rd.Peers Peers.Peers Peers.Rd.peers
    rw [filter_delivered hn]
  have hfriends : ∀ env r, Cond.good.run (fun F => Peers.Rd.FriendlyPeers F lib env r) = Peers.FriendlyPeers lib env r := by
    intro env r
    show Peers.Rd.FriendlyPeers Faults.none lib env r = _
    unfold Peers.Rd.FriendlyPeers Peers.FriendlyPeers Peers.Rd.peers
    rw [filter_delivered hn]
  have hh : ∀ (hs : List Head) (i : Nat), headInfosRd (fun _ => .good) dbs i hs = headInfos dbs i hs := by
    intro hs
    induction hs with
    | nil => intro i; rfl
    | cons h hs ih => intro i; unfold headInfosRd headInfos; rw [hblock, ih]
  have hl : ∀ (m : List (BlockID × List Addr)) (i : Nat), leashInfosRd (fun _ => .good) dbs i m = leashInfos dbs i m := by
    intro m
    induction m with
    | nil => intro i; rfl
    | cons x m ih => obtain ⟨k, v⟩ := x; intro i; unfold leashInfosRd leashInfos; rw [hblock, ih]
  simp only [Web.forksRd, Web.forks, Web.activeForksRd, Web.activeForks, Web.forkRd, Web.fork, Web.forkGeneratorsRd, Web.forkGenerators,
    Web.generatorsRd, Web.generators, Web.headsRd, Web.heads, Web.leashesRd, Web.leashes, statusRd, status, Dates.peersRd, Dates.peers,
    Dates.friendlyRd, Dates.friendly, Dates.connectionsRd, Dates.connections, hforks, hfork, hleash, hnum, hgen, hstats, hah, hls, hconn,
    hpeers, hfriends, hh, hl, and_self, and_true]
  exact ⟨by cases w.getPeers q <;> rfl, by cases w.getPeers q <;> rfl, by cases w.parse q <;> rfl,
    by cases w.parse q <;> cases atoi q' <;> rfl⟩

/-- the iterator delivers nothing -/
def nothing : Faults := { bad := fun _ => false, missed := fun _ => true }

/-- Answers with status 200 that are wrong.  The iteration over the leashes fails at the second peer: the report of the forks calls the
fork of the first peer the longest.  It fails at the first: the lists of leashes and heads are empty, and the fork of a peer that has a
leash is a fork without a block, of height 0 and without peers, said to be the longest. -/
theorem C104_wrong : Reachable Chains.Ex.g0 twoForks ∧
    (match exWeb.forks Chains.Ex.env twoForks.db [] with
      | .ok fs => fs.map (fun f => (f.headBlock, f.longest))
      | _ => []) = [(Chains.Ex.bid 5, true), (Chains.Ex.bid 2, false)] ∧
    (match exWeb.forksRd (.opened stopped) Chains.Ex.env twoForks.db [] with
      | .ok fs => fs.map (fun f => (f.headBlock, f.longest))
      | _ => []) = [(Chains.Ex.bid 2, true)] ∧
    exWeb.leashesRd (.opened nothing) (fun _ => .good) Chains.Ex.env twoForks.db (fun _ => twoForks.db) = .ok [] ∧
    exWeb.headsRd (.opened nothing) (fun _ => .good) twoForks.db (fun _ => twoForks.db) = .ok [] ∧
    (match exWeb.forkRd .good (.opened nothing) Chains.Ex.env twoForks.db twoForks.db ['1'] with
      | .ok f => some (f.headBlock, f.peers, f.longest,
          decide (f.headHeight = 0 ∧ f.peersCount = 0 ∧ f.lastCommonBlock = Chains.zeroID ∧ f.length = 0))
      | _ => none) = some (Chains.zeroID, [], true, true) ∧
    (match exDates.peersRd (.opened Peers.failing) Peers.Ex.lib Chains.Ex.env Peers.two with
      | .ok l => l.map (·.addr)
      | _ => []) = [Peers.Ex.ip 1 1 1 1] :=
  ⟨⟨Chains.Ex.l0, _, Chains.Ex.fresh, by decide +kernel, rfl⟩, by decide +kernel, by decide +kernel, by decide +kernel, by decide +kernel,
    by decide +kernel, by decide +kernel⟩

/-- a disk on which the leash of one peer cannot be read delivers every entry; the reports do not depend on that leash, a request for
that peer fails, and a request for the other peer does not -/
example : Delivers (.opened badLeash) ∧
    (exWeb.forksRd (.opened badLeash) Chains.Ex.env twoForks.db []).status = some 200 ∧
    (exWeb.forkRd (.opened badLeash) .good Chains.Ex.env twoForks.db twoForks.db ['1']).status = some 500 ∧
    (exWeb.forkRd (.opened badLeash) .closed Chains.Ex.env twoForks.db twoForks.db ['2']).status = some 500 ∧
    (exWeb.forkRd (.opened badLeash) .good Chains.Ex.env twoForks.db twoForks.db ['2']).status = some 200 ∧
    (exWeb.forkRd (.opened badLeash) .good Chains.Ex.env twoForks.db twoForks.db ['7']).status = some 404 :=
  ⟨fun F h => by cases h; exact fun _ => rfl, by decide +kernel, by decide +kernel, by decide +kernel, by decide +kernel, by decide +kernel⟩

/-- the leash of the second peer is missed -/
def second : Faults := { bad := fun _ => false, missed := fun k => decide (k = Chains.addrKey (Chains.Ex.ip 2)) }

/-- the reports of heads and leashes when the second leash is missed: one head of two, one leash of two -/
example : ((match exWeb.headsRd (.opened second) (fun _ => .good) twoForks.db (fun _ => twoForks.db) with
      | .ok r => r.map (·.id)
      | _ => []) = [Chains.Ex.bid 2]) ∧
    ((match exWeb.leashesRd (.opened second) (fun _ => .good) Chains.Ex.env twoForks.db (fun _ => twoForks.db) with
      | .ok r => r.map (fun x => (x.blockID, x.peers))
      | _ => []) = [(Chains.Ex.bid 2, [Chains.Ex.ip 1])]) ∧
    ((match statusRd (.opened second) (.opened Peers.failing) (.opened Peers.failing) .good Peers.Ex.lib Chains.Ex.env Chains.Ex.env
        Chains.Ex.env Chains.Ex.env twoForks.db Peers.two Peers.two Peers.two with
      | .ok st => some (st.all, st.friendly, st.connected)
      | _ => none) = some (1, 1, 2)) :=
  ⟨by decide +kernel, by decide +kernel, by decide +kernel⟩

end Verif.Props
