import Verif.Services.Examples
import Verif.Services.MessageLemmas
import Verif.Props.Registry
import Verif.Props.Dialing
/-
Properties C63-C69: what the program does with messages and notices from peers.
-/

set_option autoImplicit false

namespace Verif.Props

open Verif
open Verif.Chains (Addr BytesN BlockID ProtoBlock LeashOf getLeash)
open Verif.Chains.Spec (Stored)
open Verif.Peers (Conn Registry Lib AddrPort Config PeerOf second is4 Connections)
open Verif.Loading (Ctx Loader)
open Verif.KV (Fate)
open Verif.Services

variable {lib : Lib} {s s' : Prog}

/-! ### C63 -/

/-- While the program runs, `Connections` always answers, and lists each registered connection once, with the stored record
of its peer, ordered by name. -/
theorem C63_connections (R : Reached lib s) (env : Chains.Env) :
    ∃ l, Connections lib env s.l.reg = .ok l ∧
      (∀ a c, (∃ p, p ∈ l ∧ p.addr = a ∧ p.conn = some c) ↔ (a, c) ∈ s.l.reg.connections) ∧
      (∀ p, p ∈ l → PeerOf s.l.reg p.addr = .ok { p with conn := none } ∧ p.conn ≠ none) ∧
      (l.map (·.addr)).Nodup ∧
      l.Pairwise (fun p q => bytesLt (lib.upper q.name) (lib.upper p.name) = false) := by
  have I := R.inv.loader.inv.reg.inv
  have hperm := env.mapOrder_perm s.l.reg.connections
  obtain ⟨ps, h1, h2, h3⟩ := Peers.connectionsLoop_ok I (env.mapOrder s.l.reg.connections)
    (fun x hx => hperm.mem_iff.mp hx) R.inv.covered
  have hs := env.sort_perm (Peers.byName lib) ps
  refine ⟨env.sort (Peers.byName lib) ps, ?_, ?_, ?_, ?_, ?_⟩
  · simp [Connections, h1]
  · intro a c
    rw [← hperm.mem_iff]
    have hiff : (a, some c) ∈ ps.map (fun p => (p.addr, p.conn)) ↔ (a, c) ∈ env.mapOrder s.l.reg.connections := by
      rw [h2]
      constructor
      · intro hm
        obtain ⟨⟨a', c'⟩, hx, e⟩ := List.mem_map.mp hm
        simp at e
        rw [← e.1, ← e.2]; exact hx
      · exact fun hm => List.mem_map.mpr ⟨(a, c), hm, rfl⟩
    rw [← hiff, List.mem_map]
    constructor
    · rintro ⟨p, hp, rfl, hc⟩; exact ⟨p, hs.mem_iff.mp hp, by rw [hc]⟩
    · rintro ⟨p, hp, e⟩; simp at e; exact ⟨p, hs.mem_iff.mpr hp, e.1, e.2⟩
  · intro p hp
    have hp := hs.mem_iff.mp hp
    refine ⟨h3 p hp, ?_⟩
    have : (p.addr, p.conn) ∈ ps.map (fun p => (p.addr, p.conn)) := List.mem_map.mpr ⟨p, hp, rfl⟩
    rw [h2] at this
    obtain ⟨x, _, e⟩ := List.mem_map.mp this
    have : p.conn = some x.2 := (Prod.mk.inj e).2.symm
    rw [this]; simp
  · rw [(hs.map _).nodup_iff]
    have : ps.map (·.addr) = (env.mapOrder s.l.reg.connections).map (·.1) := by
      have := congrArg (List.map Prod.fst) h2
      rw [List.map_map, List.map_map] at this
      exact this
    rw [this, (hperm.map _).nodup_iff]
    exact I.nodup
  · exact env.sort_sorted (Peers.byName lib) ps (Peers.byName_strictWeak lib)

/-- two peers are connected -/
example : (Connections Peers.Ex.lib Chains.Ex.env (Ex.after Ex.joined).l.reg).map (·.map (·.addr)) =
    .ok [Loading.Ex.peer, Loading.Ex.peer3] := by decide +kernel

/-! ### C64 -/

/-- The loader takes packages in the order in which they were sent, each of them once; at most one is on its way. -/
theorem C64_order (R : Reached lib s) :
    s.taken <+: s.sent ∧ s.sent.length ≤ s.taken.length + 1 ∧ (s.dist = .ready → s.sent = s.taken) := by
  have hf := R.inv.fifo
  refine ⟨⟨_, hf.symm⟩, ?_, ?_⟩
  · rw [hf, List.length_append]
    cases s.dist <;> simp [Dist.pending]
  · intro h; rw [hf, h]; simp [Dist.pending]

/-- Until the termination signal a package on its way can always be taken. -/
theorem C64_taken (R : Reached lib s) (hc : s.cancelled = false) {p : Pkg} (hd : s.dist = .sending p) (c : Ctx) :
    s.step lib (.take c) = some (do
      let l' ← takePkg c s.l p
      .ok { s with l := l', dist := .ready, taken := s.taken ++ [p] }) := by
  obtain ⟨_, h2, _, h4⟩ := R.life.before hc
  simp [Prog.step, guarded, h4, hd, h2]

/-- the event of the loader that a package stands for -/
def Delivered : Pkg → Loading.Op
  | .ids a ids => .ids a ids
  | .block a b => .block a (some b)

/-- When a package is taken, the loader gets exactly what was sent, together with the address of the sender. -/
theorem C64_delivered {p : Pkg} (hd : s.dist = .sending p) (c : Ctx) (h : s.step lib (.take c) = some (.ok s')) :
    Loading.step lib s.l ⟨c, Delivered p⟩ = .ok s'.l := by
  obtain ⟨_, hc⟩ := step_case h
  cases hc with
  | handled hd' => rw [hd] at hd'; cases hd'
  | take _ p' l' hd' _ ht =>
    rw [hd] at hd'; cases hd'
    cases p <;> exact ht

-- the ids announced by 10.0.0.2 reach the loader
example : (Ex.after (Ex.joined ++ [.message (Loading.Ex.ctx 5) Ex.p2 (.blockIds [Chains.Ex.bid 1])])).dist =
    .sending (.ids Loading.Ex.peer [Chains.Ex.bid 1]) := by decide +kernel

/-- the block ids that a message hands to the loader: those of a list of ids, if there are any, and those of a list of
signatures, even if there are none -/
def Announces : Message → List BlockID → Prop
  | .blockIds ids, l => ids ≠ [] ∧ l = ids
  | .signatures sigs, l => l = sigs.map (fun x => ⟨x.1, Or.inr x.2⟩)
  | _, _ => False

/-- A list of block ids or signatures goes to the loader as it is, under the address of its sender, and does nothing else. -/
theorem C64_ids (hm : s.main ≠ .exited) (hd : s.dist = .ready) (c : Ctx) (p : Sender) (m : Message) {a : Addr} (ha : p.remote = some a)
    {l : List BlockID} (h : Announces m l) :
    s.step lib (.message c p m) = some (.ok { s with sent := s.sent ++ [.ids a l], dist := .sending (.ids a l) }) := by
  rw [step_handling hm hd (.message c p m), receive_eq]
  cases m with
  | blockIds ids =>
    obtain ⟨h1, rfl⟩ := h
    simp [handleMessage, handleBlockIDs, ha, h1, handled_ok]
  | signatures sigs =>
    subst h
    simp only [handleMessage, handleSignatures, ha, handled_ok]
    simp [idFromSignature]
  | _ => exact h.elim

example : Announces (.signatures []) [] ∧ Announces (.blockIds [Chains.Ex.bid 1]) [Chains.Ex.bid 1] :=
  ⟨rfl, by simp, rfl⟩

/-- packages of two peers -/
example : (Ex.after (Ex.joined ++ [.message (Loading.Ex.ctx 5) Ex.p2 (.blockIds [Chains.Ex.bid 1]), .take (Loading.Ex.ctx 6),
      .message (Loading.Ex.ctx 7) Ex.p3 (.blockIds [Chains.Ex.bid 2])])).taken = [.ids Loading.Ex.peer [Chains.Ex.bid 1]] ∧
    (Ex.after (Ex.joined ++ [.message (Loading.Ex.ctx 5) Ex.p2 (.blockIds [Chains.Ex.bid 1]), .take (Loading.Ex.ctx 6),
      .message (Loading.Ex.ctx 7) Ex.p3 (.blockIds [Chains.Ex.bid 2])])).sent =
      [.ids Loading.Ex.peer [Chains.Ex.bid 1], .ids Loading.Ex.peer3 [Chains.Ex.bid 2]] := by decide +kernel

/-! ### C65 -/

/-- A block from a peer: when it or its parent is known it is stored and the leash of its sender is moved to it, otherwise the
store stays as it is; in both cases the block goes to the loader. -/
theorem C65_block {g : ProtoBlock} {n : Nat} (A : Alive lib g n s) (hm : s.main ≠ .exited) (hd : s.dist = .ready) (c : Ctx)
    (h0 : c.fates 0 = .ok) (h1 : c.fates 1 = .ok) (p : Sender) {a : Addr} (ha : p.remote = some a) (m : Message) {b : ProtoBlock}
    (hb : m = .block (some b) ∨ m = .pbBlock (some b)) (hg : b.generator ≠ none) (hbt : b.baseTarget.toNat < 2 ^ 63) :
    ∃ s', s.step lib (.message c p m) = some (.ok s') ∧ s'.sent = s.sent ++ [.block a b] ∧ s'.dist = .sending (.block a b) ∧
      s'.l.reg = s.l.reg ∧ s'.out = s.out ∧
      (Stored s.l.link.db b.id ∨ Stored s.l.link.db b.parent →
        Stored s'.l.link.db b.id ∧ LeashOf s'.l.link a = .ok b.id ∧
        ∀ a', a'.plain ≠ a.plain → LeashOf s'.l.link a' = LeashOf s.l.link a') ∧
      (¬ Stored s.l.link.db b.id → ¬ Stored s.l.link.db b.parent → s'.l = s.l) := by
  have S := A.running.serving.reachable
  have hr : receive lib c s.l p m = handleBlock c s.l p (some b) := by
    rw [receive_eq]
    rcases hb with rfl | rfl <;> rfl
  rw [step_handling hm hd (.message c p m), hr]
  unfold handleBlock
  rw [ha, h0, h1]
  simp only
  by_cases hk : Stored s.l.link.db b.id ∨ Stored s.l.link.db b.parent
  · have hok := (C02_accept_iff S b a hg hbt).mpr hk
    have hst := C02_accepted_stored S b a .ok .ok hok
    rw [hok]
    refine ⟨_, rfl, rfl, rfl, rfl, by simp, fun _ => ⟨hst.1, hst.2, ?_⟩, fun h1 h2 => absurd hk (not_or.mpr ⟨h1, h2⟩)⟩
    intro a' ha'
    exact (C07_isolation S (.putBlock b a .ok .ok) a b.id rfl a' ha').1
  · have hk' := not_or.mp hk
    rw [C02_orphan_refused S b a .ok .ok hk'.1 hk'.2]
    exact ⟨_, rfl, rfl, rfl, rfl, by simp, fun h => absurd h hk, fun _ _ => rfl⟩

/-- A block that does not decode does nothing. -/
theorem C65_undecodable (hm : s.main ≠ .exited) (hd : s.dist = .ready) (c : Ctx) (p : Sender) (m : Message)
    (hb : m = .block none ∨ m = .pbBlock none) : s.step lib (.message c p m) = some (.ok s) := by
  have hr : receive lib c s.l p m = .ok { l := s.l } := by
    rw [receive_eq]
    rcases hb with rfl | rfl <;> rfl
  rw [step_handling hm hd (.message c p m), hr, handled_ok]
  obtain ⟨⟩ := s
  cases hd
  simp

/-- a block on the genesis and an orphan -/
example : Stored (Ex.after Ex.joined).l.link.db (Chains.Ex.blk 1 0).parent ∧ ¬ Stored (Ex.after Ex.joined).l.link.db (Chains.Ex.blk 5 4).parent ∧
    ¬ Stored (Ex.after Ex.joined).l.link.db (Chains.Ex.blk 5 4).id ∧ (Chains.Ex.blk 1 0).generator ≠ none ∧
    (Chains.Ex.blk 5 4).generator ≠ none ∧ (Chains.Ex.blk 1 0).baseTarget.toNat < 2 ^ 63 ∧ Alive Peers.Ex.lib Chains.Ex.g0 7 (Ex.after Ex.joined) := by
  refine ⟨?_, ?_, ?_, by decide, by decide, by decide, Ex.alive_joined 7 (by decide)⟩ <;> unfold Stored <;> decide +kernel

/-! ### C66 -/

/-- A request for peers is answered, to the one who asked, with the addresses of exactly the peers in the Connected state;
nothing else changes. -/
theorem C66_peers (R : Reached lib s) (hm : s.main ≠ .exited) (hd : s.dist = .ready) (c : Ctx) (p : Sender) :
    ∃ l, s.step lib (.message c p .getPeers) = some (.ok { s with out := s.out ++ [.peersTo p.conn l] }) ∧
      (∀ b port, (b, port) ∈ l ↔ ∃ q, PeerOf s.l.reg (.v4 b) = .ok q ∧ q.state = .connected ∧ q.port = port) ∧
      (l.map (·.1)).Nodup := by
  have RR := R.inv.loader.inv.reg
  obtain ⟨fs, h1, h2, h3, _⟩ := Peers.C39_list RR c.env
  obtain ⟨xs, h5, h6⟩ := Peers.tcpAddrs_ok fs (fun q hq => ((h2 q).mp hq).1)
  have hmem : ∀ b port, (b, port) ∈ xs ↔ ∃ q, q ∈ fs ∧ q.addr = .v4 b ∧ q.port = port := by
    intro b port
    have : (b, port) ∈ xs ↔ some (b, port) ∈ xs.map some := by simp
    rw [this, h6, List.mem_map]
    constructor
    · rintro ⟨q, hq, e⟩
      obtain ⟨b', hb'⟩ := Peers.is4_iff.mp ((h2 q).mp hq).1
      simp [Peers.tcpAddr, hb', Peers.as4, Except.toOption] at e
      exact ⟨q, hq, by rw [hb', e.1], e.2⟩
    · rintro ⟨q, hq, e1, e2⟩
      exact ⟨q, hq, by simp [Peers.tcpAddr, e1, e2, Peers.as4, Except.toOption]⟩
  refine ⟨xs, ?_, ?_, ?_⟩
  · rw [step_handling hm hd (.message c p .getPeers), receive_eq]
    simp [handleMessage, handleGetPeers, h1, h5, handled_ok, hd]
  · intro b port
    rw [hmem]
    constructor
    · rintro ⟨q, hq, e1, e2⟩
      obtain ⟨_, h, h'⟩ := (h2 q).mp hq
      exact ⟨q, e1 ▸ h, h', e2⟩
    · rintro ⟨q, e1, e2, e3⟩
      have ha : q.addr = .v4 b := (RR.inv.good.peer_ok e1).1
      exact ⟨q, (h2 q).mpr ⟨by rw [ha]; rfl, by rw [ha]; exact e1, e2⟩, ha, e3⟩
  · have := tcpAddrs_addr fs xs (fun q hq => ((h2 q).mp hq).1) h5
    have h7 : (xs.map (fun x => Addr.v4 x.1)).Nodup := by rw [this]; exact h3
    rw [List.Nodup, List.pairwise_map] at h7 ⊢
    exact h7.imp (fun h e => h (by rw [e]))

example : (Ex.after (Ex.joined ++ [.message (Loading.Ex.ctx 5) Ex.p3 .getPeers])).out =
    [.peersTo Ex.p3.conn [(⟨[10, 0, 0, 2], rfl⟩, 0), (⟨[10, 0, 0, 3], rfl⟩, 0)]] := by decide +kernel

/-! ### C67 -/

/-- The notice that a connection failed, when that connection is the registered one of its address: it is closed, exactly
this connection is dropped from the registry, and the store, the loader and the other connections are not touched, even if
the write of the record fails.

Missing: a connection that is not the registered one of its address; there the claim is false (`C67_replaced`). -/
theorem C67_broken_partial (R : Reached lib s) (hm : s.main ≠ .exited) (hd : s.dist = .ready) (c : Ctx) (p : Sender) {a : Addr}
    (ha : p.remote = some a) (hp : (a, p.conn) ∈ s.l.reg.connections) :
    ∃ s', s.step lib (.broken c p) = some (.ok s') ∧ s'.out = s.out ++ [.close p.conn] ∧
      (∀ x, x ∈ s'.l.reg.connections ↔ x ∈ s.l.reg.connections ∧ x ≠ (a, p.conn)) ∧
      s'.l = { s.l with reg := s'.l.reg } ∧ s'.sent = s.sent ∧ s'.dist = .ready ∧
      ∀ a', is4 a' = true → a' ≠ a → PeerOf s'.l.reg a' = PeerOf s.l.reg a' := by
  have I := R.inv.loader.inv.reg.inv
  obtain ⟨b, rfl⟩ := Peers.is4_iff.mp (I.ipv4 _ _ hp).1
  have hv := R.inv.covered b _ hp
  obtain ⟨v, hv⟩ := Option.ne_none_iff_exists'.mp hv
  have hpe : Peers.peer s.l.reg.db (.v4 b) = .ok (v.toPeer (.v4 b)) := I.peerOf.mpr ⟨v, hv, rfl⟩
  have hnp := unregister_not_panic (f := c.fates 0) (now := c.now) (r := s.l.reg) (a := .v4 b) (by simp)
  have hst : s.step lib (.broken c p) = some (s.handled (.ok
      { l := { s.l with reg := (Peers.UnregisterPeer (c.fates 0) c.now s.l.reg (.v4 b)).1 }, out := [.close p.conn] })) := by
    rw [step_handling hm hd (.broken c p)]
    unfold handleInternalError
    rw [ha]
    simp only
    rw [noPanic_ok hnp]
  rw [handled_ok] at hst
  refine ⟨_, hst, rfl, ?_, rfl, by simp, rfl, ?_⟩
  · intro x
    simp only [Peers.UnregisterPeer, hpe]
    rw [Peers.mem_delConn]
    obtain ⟨a', c'⟩ := x
    constructor
    · rintro ⟨h1, h2⟩; exact ⟨h1, fun e => h2 (Prod.mk.inj e).1⟩
    · rintro ⟨h1, h2⟩
      refine ⟨h1, fun e => h2 ?_⟩
      cases e
      rw [unique_conn I.nodup h1 hp]
  · intro a' h4' hne
    obtain ⟨b', rfl⟩ := Peers.is4_iff.mp h4'
    simp only [Peers.UnregisterPeer, hpe, PeerOf]
    rcases Peers.putPeer_db (c.fates 0) s.l.reg.db { v.toPeer (.v4 b) with nextAttempt := Peers.roundSec (c.now + Peers.delay), conn := none } with
      h | ⟨b1, hb1, _, _, h⟩
    · rw [h]
    · cases hb1
      rw [h, (I.good.put b _).peer_v4, I.good.peer_v4, Peers.view_put, if_neg (fun e => hne (by rw [e]))]

example : (Loading.Ex.peer, Ex.p2.conn) ∈ (Ex.after Ex.joined).l.reg.connections := by decide +kernel

/-- The claim is false for a connection that was replaced: the peer opens a second connection, and then the first one breaks.
The second connection is dropped from the registry, though it is not closed. -/
theorem C67_replaced :
    let p' : Sender := ⟨⟨99, Ex.p2.conn.handshake⟩, some Loading.Ex.peer⟩
    let s := Ex.after (Ex.joined ++ [.suggest .ok (5 * second) Loading.Ex.peer, .connected (Loading.Ex.ctx 6) p'])
    let s' := Ex.after (Ex.joined ++ [.suggest .ok (5 * second) Loading.Ex.peer, .connected (Loading.Ex.ctx 6) p',
      .broken (Loading.Ex.ctx 7) Ex.p2])
    (Loading.Ex.peer, p'.conn) ∈ s.l.reg.connections ∧ s'.l.reg.connections = [(Loading.Ex.peer3, Ex.p3.conn)] ∧
    s'.out = [.close Ex.p2.conn] := by decide +kernel

/-! ### C68 -/

/-- the number that big-endian bytes stand for -/
def beValue : Bytes → Nat
  | [] => 0
  | b :: l => b.toNat * 256 ^ l.length + beValue l

/-- A score message: the score on record for its sender becomes the announced number, and nothing else changes. -/
theorem C68_score (R : Reached lib s) (hm : s.main ≠ .exited) (hd : s.dist = .ready) (c : Ctx) (hc : c.fates 0 = .ok) (p : Sender)
    {a : Addr} (ha : p.remote = some a) (h4 : is4 a = true) {q : Peers.Peer} (hq : PeerOf s.l.reg a = .ok q) (sc : Bytes) :
    ∃ db', s.step lib (.message c p (.score sc)) = some (.ok { s with l := { s.l with reg := { s.l.reg with db := db' } } }) ∧
      PeerOf { s.l.reg with db := db' } a = .ok { q with score := some (beValue sc) } ∧
      ∀ a', is4 a' = true → a' ≠ a → PeerOf { s.l.reg with db := db' } a' = PeerOf s.l.reg a' := by
  have hv : ∀ l : Bytes, setBytes l = beValue l := by
    intro l
    induction l with
    | nil => rfl
    | cons x l ih => rw [setBytes, List.foldl_cons, foldl_bytes, ih]; simp [beValue]
  obtain ⟨db', h1, h2, h3⟩ := Peers.C37_update R.inv.loader.inv.reg h4 hq (setBytes sc)
  refine ⟨db', ?_, by rw [← hv]; exact h2, h3⟩
  rw [step_handling hm hd (.message c p (.score sc)), receive_eq]
  simp [handleMessage, handleScore, ha, hc, h1, noPanic, handled_ok, hd]

/-- A score message of a peer that is not on record, or has no IPv4 address, does nothing; neither does one whose write fails. -/
theorem C68_ignored (R : Reached lib s) (hm : s.main ≠ .exited) (hd : s.dist = .ready) (c : Ctx) (p : Sender) (sc : Bytes)
    (h : p.remote = none ∨ ∃ a, p.remote = some a ∧ a ≠ .zero ∧
      ((∀ q, PeerOf s.l.reg a ≠ .ok q) ∨ is4 a = false ∨ c.fates 0 = .fail)) :
    s.step lib (.message c p (.score sc)) = some (.ok s) := by
  rw [step_handling hm hd (.message c p (.score sc)), receive_eq]
  have key : handleScore c s.l p sc = .ok { l := s.l } := by
    unfold handleScore
    rcases h with h | ⟨a, ha, hz, h⟩
    · rw [h]
    · rw [ha]
      obtain ⟨h1, _⟩ := Peers.C37_refused R.inv.loader.inv.reg (c.fates 0) a (setBytes sc) h
      simp only [h1]
      rw [noPanic_ok (updateScore_not_panic hz)]
  rw [show handleMessage lib c s.l p (.score sc) = handleScore c s.l p sc from rfl, key, handled_ok]
  obtain ⟨⟩ := s
  cases hd
  simp

example : beValue [1, 2, 3] = 66051 ∧
    (PeerOf (Ex.after (Ex.joined ++ [.message (Loading.Ex.ctx 5) Ex.p2 (.score [1, 2, 3])])).l.reg Loading.Ex.peer).map (·.score) =
      .ok (some 66051) := by decide +kernel

/-! ### C69 -/

/-- what the content of a message or notice must satisfy -/
def Safe : Ev → Prop
  | .message _ p (.block (some b)) => p.remote ≠ some .zero ∧ b.baseTarget.toNat < 2 ^ 63
  | .message _ p (.pbBlock (some b)) => p.remote ≠ some .zero ∧ b.baseTarget.toNat < 2 ^ 63
  | .message _ p _ => p.remote ≠ some .zero
  | .connected _ p => p.remote ≠ some .zero ∧ p.conn.handshake.appName ≠ []
  | .broken _ p => p.remote ≠ some .zero
  | .ping _ => True
  | _ => False

/-- No message or notice stops the distributor, if the base target of a block fits in 63 bits and a handshake names an
application: whatever is sent and whatever the outcome of the writes, the program goes on.

Missing: other base targets and empty names, where the claim is false (`C69_base_target`, `C69_app_name`). -/
theorem C69_survives_partial {g : ProtoBlock} {n : Nat} (A : Alive lib g n s) (hm : s.main ≠ .exited) (hd : s.dist = .ready) {e : Ev}
    {r : Go Handled} (h : Handling lib s e r) (hs : Safe e) : ∃ s', s.step lib e = some (.ok s') := by
  rw [step_handling hm hd h]
  suffices ∃ x, r = .ok x by
    obtain ⟨x, rfl⟩ := this
    exact ⟨_, rfl⟩
  have S := A.running.serving.reachable
  have RR := A.reached.inv.loader.inv.reg
  have block : ∀ c p (b : Option ProtoBlock), (∀ b', b = some b' → b'.baseTarget.toNat < 2 ^ 63) →
      ∃ x, handleBlock c s.l p b = .ok x := by
    intro c p b hb
    unfold handleBlock
    cases b with
    | none => exact ⟨_, rfl⟩
    | some b =>
      cases p.remote with
      | none => exact ⟨_, rfl⟩
      | some a =>
        have := putBlock_not_panic S (hb b rfl) (c.fates 0) (c.fates 1) a
        simp only
        split
        · rename_i h; exact absurd h this
        all_goals exact ⟨_, rfl⟩
  cases h with
  | message c p m =>
    rw [receive_eq]
    cases m with
    | getPeers =>
      obtain ⟨fs, h1, h2, h3, _⟩ := Peers.C39_list RR c.env
      obtain ⟨xs, h5, h6⟩ := Peers.tcpAddrs_ok fs (fun q hq => ((h2 q).mp hq).1)
      simp only [handleMessage, handleGetPeers, h1, h5, go_bind_ok]
      exact ⟨_, rfl⟩
    | peers ps => exact ⟨_, noPanic_ok (append_not_panic RR.inv.good _)⟩
    | signatures sigs =>
      simp only [handleMessage, handleSignatures]
      split <;> exact ⟨_, rfl⟩
    | blockIds ids =>
      simp only [handleMessage, handleBlockIDs]
      split
      · exact ⟨_, rfl⟩
      · split <;> exact ⟨_, rfl⟩
    | block b =>
      cases b with
      | none => exact block c p none (by simp)
      | some b => exact block c p (some b) (fun b' e => by cases e; exact hs.2)
    | pbBlock b =>
      cases b with
      | none => exact block c p none (by simp)
      | some b => exact block c p (some b) (fun b' e => by cases e; exact hs.2)
    | score sc =>
      simp only [handleMessage, handleScore]
      split
      · exact ⟨_, rfl⟩
      · rename_i a ha
        exact ⟨_, noPanic_ok (updateScore_not_panic (fun e => hs (by rw [ha, e])))⟩
    | microBlockInv inv =>
      simp only [handleMessage, handleMicroBlockInv]
      split
      · exact ⟨_, rfl⟩
      · exact ⟨_, rfl⟩
      · exact ⟨_, noPanic_ok (putMicro_not_panic S _ _ _ _)⟩
    | _ => exact ⟨_, rfl⟩
  | connected c p hj =>
    unfold handleConnected
    split
    · exact ⟨_, rfl⟩
    · rename_i a ha
      exact ⟨_, noPanic_ok (register_not_panic (fun e => hs.1 (by rw [ha, e])) hs.2)⟩
  | broken c p =>
    unfold handleInternalError
    split
    · exact ⟨_, rfl⟩
    · rename_i a ha
      exact ⟨_, noPanic_ok (unregister_not_panic (fun e => hs (by rw [ha, e])))⟩
  | ping c => exact ⟨_, rfl⟩

/-- The claim is false: one block on a known parent with a base target that does not fit in 63 bits stops the program. -/
theorem C69_base_target :
    (Ex.after Ex.joined).step Peers.Ex.lib
      (.message (Loading.Ex.ctx 5) Ex.p2 (.block (some { Chains.Ex.blk 1 0 with baseTarget := 0x8000000000000000 }))) = some goPanic := by
  rw [step_handling (by decide +kernel) (by decide +kernel) (.message _ _ _)]
  have : (receive Peers.Ex.lib (Loading.Ex.ctx 5) (Ex.after Ex.joined).l Ex.p2
      (.block (some { Chains.Ex.blk 1 0 with baseTarget := 0x8000000000000000 }))).map (fun _ => ()) = goPanic := by decide +kernel
  revert this
  generalize receive _ _ _ _ _ = r
  cases r with
  | ok x => intro h; cases h
  | error e => intro h; cases h; rfl

/-- And so does a handshake without a name of the application. -/
theorem C69_app_name :
    let p : Sender := ⟨⟨99, { Ex.p2.conn.handshake with appName := [] }⟩, some Loading.Ex.peer⟩
    (Ex.after [.suggest .ok (1 * second) Loading.Ex.peer]).step Peers.Ex.lib (.connected (Loading.Ex.ctx 5) p) = some goPanic := by
  intro p
  rw [step_handling (by decide +kernel) (by decide +kernel) (.connected _ _ (by decide +kernel))]
  have : (handleConnected Peers.Ex.lib (Loading.Ex.ctx 5) (Ex.after [.suggest .ok (1 * second) Loading.Ex.peer]).l p).map (fun _ => ()) = goPanic := by
    decide +kernel
  revert this
  generalize handleConnected _ _ _ _ = r
  cases r with
  | ok x => intro h; cases h
  | error e => intro h; cases h; rfl

example : Safe (.message (Loading.Ex.ctx 5) Ex.p2 (.block (some (Chains.Ex.blk 1 0)))) ∧ Safe (.connected (Loading.Ex.ctx 5) Ex.p2) := by
  constructor <;> constructor <;> decide

end Verif.Props
