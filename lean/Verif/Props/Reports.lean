import Verif.Props.Api
import Verif.Props.Blocks
/-
Properties C70-C72: the reports about heads, leashes and the status.
-/

set_option autoImplicit false

namespace Verif.Props

open Verif
open Verif.Chains (Addr BytesN BlockID DB Env Fork Leash Head Linkage ProtoBlock LeashOf HasLeash Leashes Heads ActiveHeads Forks
  BlockOf getBlockByID BlockRec)
open Verif.Chains.Spec (Op Fresh Stored Reachable exec inserts Readable)
open Verif.Peers (Conn Registry Lib Peer PeerOf is4)
open Verif.Services

/-- the stores the later calls of a handler read from, when the first call reads the store after `ops1` -/
def Later (l0 : Linkage) (ops1 : List Op) (dbs : Nat → DB) : Prop :=
  ∀ i, ∃ ops2, inserts (ops1 ++ ops2) + 2 < 2 ^ 32 ∧ dbs i = (exec l0 (ops1 ++ ops2)).db

/-! ### C70 -/

/-- the rows that the loop of `heads` makes from a list of heads -/
theorem head_rows {g : ProtoBlock} {l0 : Linkage} (hf : Fresh g l0) (ops1 : List Op) (hb : inserts ops1 + 2 < 2 ^ 32) (dbs : Nat → DB)
    (hd : Later l0 ops1 dbs) : ∀ (i : Nat) (ah : List Head) (r : List HeadInfo), (∀ x, x ∈ ah → Stored (exec l0 ops1).db x.blockID) → headInfos dbs i ah = .ok r →
      r.map (fun h => (h.number, h.id)) = ah.map (fun h => (h.num, h.blockID)) ∧
      ∀ h, h ∈ r → ∃ rec, getBlockByID (exec l0 ops1).db h.id = .ok rec ∧ h.height = rec.height ∧ h.score = rec.score ∧
        h.timestamp = rec.timestamp := by
    have hR : Reachable g (exec l0 ops1) := ⟨l0, ops1, hf, hb, rfl⟩
    obtain ⟨ns, hs, R, _⟩ := Chains.reachable_rep hR
    intro i ah
    induction ah generalizing i with
    | nil => intro r _ h; cases h; simp
    | cons x xs ih =>
      intro r hst h
      rw [headInfos] at h
      obtain ⟨b, hbk, h⟩ := go_bind_eq_ok.mp h
      obtain ⟨r', hr', h⟩ := go_bind_eq_ok.mp h
      cases h
      obtain ⟨ops2, hi, e⟩ := hd i
      obtain ⟨_, hsame, _⟩ := C01_blocks_permanent hf ops1 ops2 hi x.blockID (hst x (by simp))
      rw [e, hsame] at hbk
      obtain ⟨_, _, rec, hrec, e1, e2, _, e4⟩ := R.BlockOf_ok hbk
      obtain ⟨q1, q2⟩ := ih (i + 1) r' (fun y hy => hst y (by simp [hy])) hr'
      refine ⟨by simp [q1], ?_⟩
      intro h hm
      rcases List.mem_cons.mp hm with rfl | hm
      · exact ⟨rec, hrec, e1, e2, e4⟩
      · exact q2 h hm

/-- The heads reported are the stored blocks without successor that some listed peer is on, each once, with the data of the block,
also when blocks arrive while the report is made. -/
theorem C70_heads {g : ProtoBlock} {l0 : Linkage} (hf : Fresh g l0) (ops1 : List Op) (hb : inserts ops1 + 2 < 2 ^ 32) (dbs : Nat → DB)
    (hd : Later l0 ops1 dbs) (w : Web) {r : List HeadInfo} (ho : w.heads (exec l0 ops1).db dbs = .ok r) :
    (r.map (·.id)).Nodup ∧
    (∃ hd ls, Heads (exec l0 ops1).db = .ok hd ∧ Leashes (exec l0 ops1).db = .ok ls ∧
      ∀ n id, (∃ h, h ∈ r ∧ h.number = n ∧ h.id = id) ↔ { num := n, blockID := id } ∈ hd ∧ ∃ p, { addr := p, blockID := id } ∈ ls) ∧
    ∀ h, h ∈ r → ∃ rec, getBlockByID (exec l0 ops1).db h.id = .ok rec ∧ h.height = rec.height ∧ h.score = rec.score ∧
      h.timestamp = rec.timestamp := by
  have hR : Reachable g (exec l0 ops1) := ⟨l0, ops1, hf, hb, rfl⟩
  unfold Web.heads at ho
  obtain ⟨ah, hah, ho⟩ := Resp.after_ok ho
  obtain ⟨r', hloop, ho⟩ := Resp.after_ok ho
  obtain ⟨rfl, _⟩ := Web.encode_ok ho
  obtain ⟨hd', ls, ah', h1, h2, h3, hsub, hmem⟩ := C11_active_heads hR
  rw [hah] at h3; cases h3
  obtain ⟨hd2, g1, _, g3, g4⟩ := C10_heads hf ops1 hb
  rw [h1] at g1; cases g1
  have hst : ∀ x, x ∈ ah → Stored (exec l0 ops1).db x.blockID := by
    intro x hx
    exact ((g4 x.blockID).mp (List.mem_map.mpr ⟨x, ((hmem x).mp hx).1, rfl⟩)).1
  obtain ⟨q1, q2⟩ := head_rows hf ops1 hb dbs hd 0 ah r hst hloop
  have hids : r.map (·.id) = ah.map (·.blockID) := by
    have := congrArg (List.map Prod.snd) q1
    simpa [List.map_map, Function.comp_def] using this
  refine ⟨?_, ⟨hd', ls, h1, h2, ?_⟩, q2⟩
  · rw [hids]; exact (hsub.map _).nodup g3
  · intro n id
    have e1 : (∃ h, h ∈ r ∧ h.number = n ∧ h.id = id) ↔ (n, id) ∈ r.map (fun h => (h.number, h.id)) := by
      rw [List.mem_map]
      constructor
      · rintro ⟨h, hm, rfl, rfl⟩; exact ⟨h, hm, rfl⟩
      · rintro ⟨h, hm, e⟩; cases e; exact ⟨h, hm, rfl, rfl⟩
    have e2 : (n, id) ∈ ah.map (fun h => (h.num, h.blockID)) ↔ { num := n, blockID := id } ∈ ah := by
      rw [List.mem_map]
      constructor
      · rintro ⟨h, hm, e⟩; cases e; exact hm
      · intro hm; exact ⟨_, hm, rfl⟩
    rw [e1, q1, e2, hmem]

/-- The report is given if the active heads are readable and their times can be encoded.  Missing: heads dated in the far future
(`C70_year`). -/
theorem C70_answers_partial {g : ProtoBlock} {l0 : Linkage} (hf : Fresh g l0) (ops1 : List Op) (hb : inserts ops1 + 2 < 2 ^ 32) (dbs : Nat → DB)
    (hd : Later l0 ops1 dbs) (w : Web)
    (hgood : ∀ ls p id, Leashes (exec l0 ops1).db = .ok ls → { addr := p, blockID := id } ∈ ls → Stored (exec l0 ops1).db id →
      Readable (exec l0 ops1).db id ∧ ∀ r, getBlockByID (exec l0 ops1).db id = .ok r → w.encodes r.timestamp.toNat = true) :
    ∃ r, w.heads (exec l0 ops1).db dbs = .ok r := by
  have hR : Reachable g (exec l0 ops1) := ⟨l0, ops1, hf, hb, rfl⟩
  obtain ⟨hd', ls, ah, h1, h2, h3, hsub, hmem⟩ := C11_active_heads hR
  obtain ⟨hd2, g1, _, g3, g4⟩ := C10_heads hf ops1 hb
  rw [h1] at g1; cases g1
  have hst : ∀ x, x ∈ ah → Stored (exec l0 ops1).db x.blockID ∧ Readable (exec l0 ops1).db x.blockID ∧
      ∀ r, getBlockByID (exec l0 ops1).db x.blockID = .ok r → w.encodes r.timestamp.toNat = true := by
    intro x hx
    have hs := ((g4 x.blockID).mp (List.mem_map.mpr ⟨x, ((hmem x).mp hx).1, rfl⟩)).1
    obtain ⟨p, hp⟩ := ((hmem x).mp hx).2
    exact ⟨hs, hgood ls p _ h2 hp hs⟩
  obtain ⟨ns, hs, R, _⟩ := Chains.reachable_rep hR
  have hall : ∀ (i : Nat) (ah : List Head), (∀ x, x ∈ ah → Stored (exec l0 ops1).db x.blockID ∧ Readable (exec l0 ops1).db x.blockID ∧
      ∀ r, getBlockByID (exec l0 ops1).db x.blockID = .ok r → w.encodes r.timestamp.toNat = true) →
      ∃ r, headInfos dbs i ah = .ok r ∧ ∀ h, h ∈ r → w.encodes h.timestamp.toNat = true := by
    intro i ah
    induction ah generalizing i with
    | nil => intro _; exact ⟨[], rfl, by simp⟩
    | cons x xs ih =>
      intro hst
      obtain ⟨s1, s2, s3⟩ := hst x (by simp)
      obtain ⟨b, hbk⟩ := R.BlockOf_readable s2
      obtain ⟨_, _, rec, hrec, _, _, _, e4⟩ := R.BlockOf_ok hbk
      obtain ⟨ops2, hi, e⟩ := hd i
      obtain ⟨_, hsame, _⟩ := C01_blocks_permanent hf ops1 ops2 hi x.blockID s1
      rw [← hsame, ← e] at hbk
      obtain ⟨r', q1, q2⟩ := ih (i + 1) (fun y hy => hst y (by simp [hy]))
      rw [headInfos, hbk, go_bind_ok, q1, go_bind_ok]
      refine ⟨_, rfl, ?_⟩
      intro h hm
      rcases List.mem_cons.mp hm with rfl | hm
      · simp only [e4]; exact s3 rec hrec
      · exact q2 h hm
  obtain ⟨r, q1, q2⟩ := hall 0 ah hst
  refine ⟨r, ?_⟩
  unfold Web.heads
  rw [h3]
  simp only [Resp.after, q1]
  apply Web.encode_all
  intro t ht
  obtain ⟨h, hm, rfl⟩ := List.mem_map.mp ht
  exact q2 h hm

/-- One head dated in the far future and the report fails. -/
theorem C70_year : Reachable Chains.Ex.g0 farStore ∧ exWeb.heads farStore.db (fun _ => farStore.db) = .failed ∧
    (exWeb.heads Chains.Ex.l1.db (fun _ => Chains.Ex.l1.db)).status = some 200 :=
  ⟨C56_year_witness.1, by decide +kernel, by decide +kernel⟩

/-- Peers 10.0.0.1 and 10.0.0.2 are on blocks 2 and 4; block 2 has got a successor, block 5, so only block 4 is reported. -/
example : (match exWeb.heads Chains.Ex.l1.db (fun _ => Chains.Ex.l1.db) with
    | .ok r => r.map (fun h => (h.id, h.height.toNat))
    | _ => []) = [(Chains.Ex.bid 4, 3)] := by decide +kernel

/-! ### C71 -/

/-- the rows that the loop of `leashes` makes from a list of leashes -/
theorem leash_rows {g : ProtoBlock} {l0 : Linkage} (hf : Fresh g l0) (ops1 : List Op) (dbs : Nat → DB)
    (hd : Later l0 ops1 dbs) (env : Env) {ls : List Leash} (hnd : (ls.map (·.addr)).Nodup) {r' : List LeashInfo}
    (hloop : leashInfos dbs 0 (env.mapOrder (Chains.groupLeashes ls)) = .ok r') :
    ((env.sort leashLess r').map (·.blockID)).Nodup ∧
      (∀ id, id ∈ (env.sort leashLess r').map (·.blockID) ↔ ∃ p, { addr := p, blockID := id } ∈ ls) ∧
      (∀ x, x ∈ env.sort leashLess r' → (∀ p, p ∈ x.peers ↔ { addr := p, blockID := x.blockID } ∈ ls) ∧ x.peers.Nodup ∧
        (Stored (exec l0 ops1).db x.blockID → ∃ rec, getBlockByID (exec l0 ops1).db x.blockID = .ok rec ∧
          x.height = rec.height ∧ x.score = rec.score ∧ x.timestamp = rec.timestamp ∧ x.generator = rec.generator)) ∧
      (env.sort leashLess r').Pairwise (fun a b => b.score < a.score ∨ (b.score = a.score ∧ b.peers.length ≤ a.peers.length)) := by
  have hall : ∀ (i : Nat) (m : List (BlockID × List Addr)) (r : List LeashInfo), leashInfos dbs i m = .ok r →
      r.map (fun x => (x.blockID, x.peers)) = m ∧
      ∀ x, x ∈ r → Stored (exec l0 ops1).db x.blockID → ∃ rec, getBlockByID (exec l0 ops1).db x.blockID = .ok rec ∧
        x.height = rec.height ∧ x.score = rec.score ∧ x.timestamp = rec.timestamp ∧ x.generator = rec.generator := by
    intro i m
    induction m generalizing i with
    | nil => intro r h; cases h; simp
    | cons kv m ih =>
      obtain ⟨k, v⟩ := kv
      intro r h
      rw [leashInfos] at h
      obtain ⟨b, hbk, h⟩ := go_bind_eq_ok.mp h
      obtain ⟨r', hr', h⟩ := go_bind_eq_ok.mp h
      cases h
      obtain ⟨ops2, hi, e⟩ := hd i
      rw [e] at hbk
      obtain ⟨ns2, hs2, R2, _⟩ := Chains.reachable_rep (g := g) (l := exec l0 (ops1 ++ ops2)) ⟨l0, _, hf, hi, rfl⟩
      obtain ⟨hid, _, rec, hrec, e1, e2, e3, e4⟩ := R2.BlockOf_ok hbk
      obtain ⟨q1, q2⟩ := ih (i + 1) r' hr'
      refine ⟨by simp [q1, hid], ?_⟩
      intro x hm
      rcases List.mem_cons.mp hm with rfl | hm
      · intro hst
        simp only [hid] at hst ⊢
        obtain ⟨_, _, hsame⟩ := C01_blocks_permanent hf ops1 ops2 hi k hst
        rw [hsame] at hrec
        exact ⟨rec, hrec, e1, e2, e4, e3⟩
      · exact q2 x hm
  obtain ⟨q1, q2⟩ := hall 0 _ r' hloop
  have hperm := env.sort_perm leashLess r'
  have hkeys : (r'.map (·.blockID)) = (env.mapOrder (Chains.groupLeashes ls)).map (·.1) := by
    have := congrArg (List.map Prod.fst) q1
    simpa [List.map_map, Function.comp_def] using this
  have hentry : ∀ k v, (k, v) ∈ r'.map (fun x => (x.blockID, x.peers)) ↔ v = Chains.Spec.peersOn ls k ∧ v ≠ [] := by
    intro k v
    rw [q1, (env.mapOrder_perm _).mem_iff, Chains.mem_groupLeashes]
  have hon : ∀ k p, p ∈ Chains.Spec.peersOn ls k ↔ { addr := p, blockID := k } ∈ ls := by
    intro k p
    unfold Chains.Spec.peersOn
    simp only [List.mem_map, List.mem_filter, decide_eq_true_eq]
    constructor
    · rintro ⟨⟨a', i'⟩, ⟨hm, rfl⟩, rfl⟩; exact hm
    · intro hm; exact ⟨_, ⟨hm, rfl⟩, rfl⟩
  refine ⟨?_, ?_, ?_, ?_⟩
  · rw [(hperm.map _).nodup_iff, hkeys, ((env.mapOrder_perm _).map _).nodup_iff]
    exact Chains.groupLeashes_nodup ls
  · intro id
    rw [(hperm.map _).mem_iff, List.mem_map]
    constructor
    · rintro ⟨x, hx, rfl⟩
      obtain ⟨hv, hne⟩ := (hentry x.blockID x.peers).mp (List.mem_map.mpr ⟨x, hx, rfl⟩)
      obtain ⟨p, hp⟩ := List.exists_mem_of_ne_nil _ hne
      rw [hv] at hp
      exact ⟨p, (hon _ _).mp hp⟩
    · rintro ⟨p, hp⟩
      have hm := (hentry id (Chains.Spec.peersOn ls id)).mpr ⟨rfl, List.ne_nil_of_mem ((hon id p).mpr hp)⟩
      obtain ⟨x, hx, e⟩ := List.mem_map.mp hm
      exact ⟨x, hx, congrArg Prod.fst e⟩
  · intro x hx
    have hx := hperm.mem_iff.mp hx
    obtain ⟨hv, _⟩ := (hentry x.blockID x.peers).mp (List.mem_map.mpr ⟨x, hx, rfl⟩)
    refine ⟨fun p => by rw [hv]; exact hon _ p, ?_, q2 x hx⟩
    rw [hv]
    exact (List.Sublist.map _ List.filter_sublist).nodup hnd
  · refine (env.sort_sorted leashLess r' leashLess_strictWeak).imp ?_
    intro a b h
    unfold leashLess at h
    split at h
    · rename_i e
      right
      exact ⟨e, by simpa using h⟩
    · rename_i e
      left
      have : ¬ a.score < b.score := by simpa using h
      omega

/-- The leashes reported are the listed ones: each block some listed peer is on appears once, with exactly the peers on it and with the
data of the block; blocks with more score come first, of blocks with the same score those with more peers.  Also when blocks arrive while
the report is made. -/
theorem C71_leashes {g : ProtoBlock} {l0 : Linkage} (hf : Fresh g l0) (ops1 : List Op) (hb : inserts ops1 + 2 < 2 ^ 32) (dbs : Nat → DB)
    (hd : Later l0 ops1 dbs) (w : Web) (env : Env) {r : List LeashInfo} (ho : w.leashes env (exec l0 ops1).db dbs = .ok r) :
    ∃ ls, Leashes (exec l0 ops1).db = .ok ls ∧ (r.map (·.blockID)).Nodup ∧
      (∀ id, id ∈ r.map (·.blockID) ↔ ∃ p, { addr := p, blockID := id } ∈ ls) ∧
      (∀ x, x ∈ r → (∀ p, p ∈ x.peers ↔ { addr := p, blockID := x.blockID } ∈ ls) ∧ x.peers.Nodup ∧
        (Stored (exec l0 ops1).db x.blockID → ∃ rec, getBlockByID (exec l0 ops1).db x.blockID = .ok rec ∧
          x.height = rec.height ∧ x.score = rec.score ∧ x.timestamp = rec.timestamp ∧ x.generator = rec.generator)) ∧
      r.Pairwise (fun a b => b.score < a.score ∨ (b.score = a.score ∧ b.peers.length ≤ a.peers.length)) := by
  have hR : Reachable g (exec l0 ops1) := ⟨l0, ops1, hf, hb, rfl⟩
  unfold Web.leashes at ho
  obtain ⟨ls, hls, ho⟩ := Resp.after_ok ho
  obtain ⟨r', hloop, ho⟩ := Resp.after_ok ho
  obtain ⟨rfl, _⟩ := Web.encode_ok ho
  obtain ⟨ns, hs, R, _⟩ := Chains.reachable_rep hR
  obtain ⟨ls', hls', hnd, _⟩ := R.leashes
  rw [show Chains.leashes (exec l0 ops1).db = .ok ls from hls] at hls'; cases hls'
  exact ⟨ls, hls, leash_rows hf ops1 dbs hd env hnd hloop⟩

/-- The report is given if every block a listed peer is on is stored, readable and of a time that can be encoded; no comparison of
branches is needed.  Missing: blocks dated in the far future (`C71_year`). -/
theorem C71_answers_partial {g : ProtoBlock} {l0 : Linkage} (hf : Fresh g l0) (ops1 : List Op) (hb : inserts ops1 + 2 < 2 ^ 32) (dbs : Nat → DB)
    (hd : Later l0 ops1 dbs) (w : Web) (env : Env)
    (hgood : ∀ ls p id, Leashes (exec l0 ops1).db = .ok ls → { addr := p, blockID := id } ∈ ls →
      Readable (exec l0 ops1).db id ∧ ∀ r, getBlockByID (exec l0 ops1).db id = .ok r → w.encodes r.timestamp.toNat = true) :
    ∃ r, w.leashes env (exec l0 ops1).db dbs = .ok r := by
  have hR : Reachable g (exec l0 ops1) := ⟨l0, ops1, hf, hb, rfl⟩
  obtain ⟨ns, hs, R, _⟩ := Chains.reachable_rep hR
  obtain ⟨ls, hls, _⟩ := R.leashes
  have hls' : Leashes (exec l0 ops1).db = .ok ls := hls
  have hall : ∀ (i : Nat) (m : List (BlockID × List Addr)), (∀ k v, (k, v) ∈ m → Readable (exec l0 ops1).db k ∧
      ∀ r, getBlockByID (exec l0 ops1).db k = .ok r → w.encodes r.timestamp.toNat = true) →
      ∃ r, leashInfos dbs i m = .ok r ∧ ∀ x, x ∈ r → w.encodes x.timestamp.toNat = true := by
    intro i m
    induction m generalizing i with
    | nil => intro _; exact ⟨[], rfl, by simp⟩
    | cons kv m ih =>
      obtain ⟨k, v⟩ := kv
      intro hst
      obtain ⟨s2, s3⟩ := hst k v (by simp)
      obtain ⟨b, hbk⟩ := R.BlockOf_readable s2
      obtain ⟨_, hs1, rec, hrec, _, _, _, e4⟩ := R.BlockOf_ok hbk
      obtain ⟨ops2, hi, e⟩ := hd i
      obtain ⟨_, hsame, _⟩ := C01_blocks_permanent hf ops1 ops2 hi k hs1
      rw [← hsame, ← e] at hbk
      obtain ⟨r', q1, q2⟩ := ih (i + 1) (fun k v hm => hst k v (by simp [hm]))
      rw [leashInfos, hbk, go_bind_ok, q1, go_bind_ok]
      refine ⟨_, rfl, ?_⟩
      intro h hm
      rcases List.mem_cons.mp hm with rfl | hm
      · simp only [e4]; exact s3 rec hrec
      · exact q2 h hm
  obtain ⟨r, q1, q2⟩ := hall 0 (env.mapOrder (Chains.groupLeashes ls)) (by
    intro k v hm
    obtain ⟨hv, hne⟩ := (Chains.mem_groupLeashes _ _ _).mp ((env.mapOrder_perm _).mem_iff.mp hm)
    rw [hv] at hne
    obtain ⟨⟨p, _⟩, hp, rfl⟩ := List.mem_map.mp (Chains.peersOn_ne_nil.mp hne)
    exact hgood ls p _ hls' hp)
  refine ⟨env.sort leashLess r, ?_⟩
  unfold Web.leashes
  rw [hls']
  simp only [Resp.after, q1]
  apply Web.encode_all
  intro t ht
  obtain ⟨h, hm, rfl⟩ := List.mem_map.mp ht
  exact q2 h hm

/-- One peer on a block dated in the far future and the report fails for everyone. -/
theorem C71_year : Reachable Chains.Ex.g0 farStore ∧ exWeb.leashes Chains.Ex.env farStore.db (fun _ => farStore.db) = .failed :=
  ⟨C56_year_witness.1, by decide +kernel⟩

example : (match exWeb.leashes Chains.Ex.env Chains.Ex.l1.db (fun _ => Chains.Ex.l1.db) with
    | .ok r => r.map (fun h => (h.blockID, h.peers))
    | _ => []) = [(Chains.Ex.bid 2, [Chains.Ex.ip 1]), (Chains.Ex.bid 4, [Chains.Ex.ip 2])] := by decide +kernel

/-! ### C73 -/

/-- The list of peers contains every stored peer exactly once, ordered by name. -/
theorem C73_peers {lib : Lib} {r : Registry} (h : Peers.Reachable lib r) (env : Env) :
    ∃ l, Peers.Peers lib env r = .ok l ∧ (∀ p, p ∈ l ↔ is4 p.addr = true ∧ PeerOf r p.addr = .ok p) ∧ (l.map (·.addr)).Nodup ∧
      l.Pairwise (fun p q => bytesLt (lib.upper q.name) (lib.upper p.name) = false) := by
  have I := h.inv
  obtain ⟨ps, h1, _, h3, h4⟩ := Peers.peers_good I.good
  have hs := env.sort_perm (Peers.byName lib) ps
  refine ⟨env.sort (Peers.byName lib) ps, by simp [Peers.Peers, h1], fun p => ?_, ?_, env.sort_sorted _ _ (Peers.byName_strictWeak lib)⟩
  · rw [hs.mem_iff, h3]
    constructor
    · rintro ⟨b, v, hv, rfl⟩
      exact ⟨rfl, I.peerOf.mpr ⟨v, hv, rfl⟩⟩
    · rintro ⟨ha, hp⟩
      obtain ⟨b, hb⟩ := Peers.is4_iff.mp ha
      rw [hb] at hp
      obtain ⟨v, hv, rfl⟩ := I.peerOf.mp hp
      exact ⟨b, v, hv, rfl⟩
  · rw [(hs.map _).nodup_iff]; exact h4

/-- what the `append`, `suggest` and `register` calls of the examples have stored -/
example : (Peers.Peers Peers.Ex.lib Chains.Ex.env (Ex.after Ex.joined).l.reg).map (·.map (·.addr)) =
    .ok [Loading.Ex.peer, Loading.Ex.peer3] := by decide +kernel

/-! ### C72 -/

/-- The status gives the numbers of short and long forks, of stored peers, of peers in the state "connected" and of registered
connections, if the forks can be computed.  `s1` to `s3` are the states in which the registry is read.  Missing: stores without
leashes, where there is no answer (`C72_no_forks`), and far branches. -/
theorem C72_status_partial {lib : Lib} {s1 s2 s3 : Prog} (R1 : Reached lib s1) (R2 : Reached lib s2) (R3 : Reached lib s3)
    (env0 env1 env2 env3 : Env) (db : DB) {fs : List Fork} (hf : Forks env0 db [] = .ok fs) :
    ∃ (st : Status) (all friends : List Peer), status lib env0 env1 env2 env3 db s1.l.reg s2.l.reg s3.l.reg = .ok st ∧
      st.short = (fs.filter (fun f => f.length ≤ 5)).length ∧ st.long = (fs.filter (fun f => 5 < f.length)).length ∧
      st.all = all.length ∧ (all.map (·.addr)).Nodup ∧ (∀ p : Peer, p ∈ all ↔ is4 p.addr = true ∧ PeerOf s1.l.reg p.addr = .ok p) ∧
      st.friendly = friends.length ∧ (friends.map (·.addr)).Nodup ∧
      (∀ p : Peer, p ∈ friends ↔ is4 p.addr = true ∧ PeerOf s2.l.reg p.addr = .ok p ∧ p.state = .connected) ∧
      st.connected = s3.l.reg.connections.length := by
  obtain ⟨stats, hst, _, hlong, hshort⟩ := C20_stats env0 db hf
  obtain ⟨all, ha, hall, hand, _⟩ := C73_peers R1.inv.loader.inv.reg env1
  obtain ⟨friends, hfr, hfall, hfnd, _⟩ := Peers.C39_list R2.inv.loader.inv.reg env2
  have hconn : ∃ conns, Peers.Connections lib env3 s3.l.reg = .ok conns ∧ conns.length = s3.l.reg.connections.length := by
    obtain ⟨conns, hc, _⟩ := C63_connections R3 env3
    refine ⟨conns, hc, ?_⟩
    obtain ⟨ps, h1, h2, h3⟩ := Peers.connectionsLoop_ok R3.inv.loader.inv.reg.inv (env3.mapOrder s3.l.reg.connections)
      (fun x hx => (env3.mapOrder_perm _).mem_iff.mp hx) R3.inv.covered
    simp only [Peers.Connections, h1, go_bind_ok, Except.ok.injEq] at hc
    rw [← hc, (env3.sort_perm _ _).length_eq]
    have := congrArg List.length h2
    simp only [List.length_map] at this
    rw [this, (env3.mapOrder_perm _).length_eq]
  obtain ⟨conns, hc, hlen⟩ := hconn
  refine ⟨⟨stats.short, stats.long, all.length, friends.length, conns.length⟩, all, friends, ?_, hshort, hlong, rfl, hand, hall, rfl, hfnd, hfall, hlen⟩
  simp only [status, hst, ha, hfr, hc, Resp.after]

/-- The status depends on the forks: if `Forks` fails, so does the request.  In particular a program that has not got a block from anybody
answers every request for its status with 500. -/
theorem C72_no_forks {lib : Lib} (env0 env1 env2 env3 : Env) {g : ProtoBlock} {l : Linkage} (h : Reachable g l) (r1 r2 r3 : Registry)
    (hls : Leashes l.db = .ok []) : status lib env0 env1 env2 env3 l.db r1 r2 r3 = .panicked := by
  have := (C18_panics env0 [] h [] hls (fun p id hs => by cases hs.1)).2 rfl
  simp only [status, this, Resp.after, goPanic]

example : Reachable Chains.Ex.g0 Chains.Ex.l0 ∧ Leashes Chains.Ex.l0.db = .ok [] ∧
    (Forks Chains.Ex.env Chains.Ex.l1.db []).isOk = true ∧
    status Peers.Ex.lib Chains.Ex.env Chains.Ex.env Chains.Ex.env Chains.Ex.env Chains.Ex.l1.db (Ex.after Ex.joined).l.reg
      (Ex.after Ex.joined).l.reg (Ex.after Ex.joined).l.reg = .ok ⟨2, 0, 2, 2, 2⟩ :=
  ⟨⟨Chains.Ex.l0, [], Chains.Ex.fresh, by decide, rfl⟩, by decide +kernel, by decide +kernel, by decide +kernel⟩

end Verif.Props
