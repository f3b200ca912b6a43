import Verif.Services.Examples
import Verif.Services.NoticeLemmas
import Verif.Props.Dialing
import Verif.Props.Blocks
import Verif.Props.Leashes
/-
Properties C77-C81: what the program does with new connections, announced
addresses, micro-blocks, and its own timer.
-/

set_option autoImplicit false

namespace Verif.Props

open Verif
open Verif.Chains (Addr BytesN BlockID ProtoBlock MicroInv LeashOf getLeash)
open Verif.Chains.Spec (Stored SameTree)
open Verif.Peers (Conn Registry Lib AddrPort Config PeerOf second is4 isLoopback First Accepted)
open Verif.Loading (Ctx Loader)
open Verif.KV (Fate)
open Verif.Services

variable {lib : Lib} {s s' : Prog}

/-! ### C77 -/

/-- A new connection from a node that qualifies: it becomes the connection of its address, replacing an older one, and no
other connection changes; nothing is sent or closed, and store and loader are not touched. This holds whatever becomes of
the write of the record. -/
theorem C77_joins (R : Reached lib s) (hm : s.main ≠ .exited) (hd : s.dist = .ready) (c : Ctx) (p : Sender) {a : Addr}
    (ha : p.remote = some a) (hj : a ∈ s.joined) (acc : Accepted lib s.l.reg a p.conn p.conn.handshake) :
    ∃ s', s.step lib (.connected c p) = some (.ok s') ∧
      (∀ x, x ∈ s'.l.reg.connections ↔ x = (a, p.conn) ∨ (x ∈ s.l.reg.connections ∧ x.1 ≠ a)) ∧
      (∀ a', a' ∈ s'.l.reg.pending ↔ a' ∈ s.l.reg.pending ∧ a' ≠ a) ∧
      (∀ a', is4 a' = true → a' ≠ a → PeerOf s'.l.reg a' = PeerOf s.l.reg a') ∧
      s'.l = { s.l with reg := s'.l.reg } ∧ s'.out = s.out ∧ s'.sent = s.sent ∧ s'.dist = .ready := by
  have G := R.inv.loader.inv.reg.inv.good
  rw [step_handling hm hd (.connected c p (by intro x hx; rw [ha] at hx; cases hx; exact hj))]
  unfold handleConnected
  rw [ha]
  simp only
  cases Peers.register_outcome (lib := lib) (f := c.fates 0) (now := c.now) (a := a) (np := p.conn) (h := p.conn.handshake) G with
  | hostile rej => exact absurd acc rej
  | refused rej => exact absurd acc rej
  | accepted _ eq =>
    rw [eq]
    simp only
    rw [noPanic_ok (putPeer_not_panic _ _ _), handled_ok]
    refine ⟨_, rfl, fun x => Peers.mem_setConn, fun a' => by simp [Peers.delPending], ?_, rfl, by simp, by simp, rfl⟩
    intro a' h4 hne
    exact putPeer_other G _ _ h4 (fun e => hne e.symm)

/-- With a name in UTF-8 and a successful write, the record of the node then holds what its handshake says: name, version
and nonce, the declared port if the declared address is the one it connected from, and no port otherwise; it counts as
connected and keeps the score that was on record. -/
theorem C77_record (R : Reached lib s) (hm : s.main ≠ .exited) (hd : s.dist = .ready) (c : Ctx) (hc : c.fates 0 = .ok) (p : Sender)
    {a : Addr} (ha : p.remote = some a) (hj : a ∈ s.joined) (acc : Accepted lib s.l.reg a p.conn p.conn.handshake)
    (hn : Peers.validUTF8 p.conn.handshake.nodeName = true) :
    ∃ s' q, s.step lib (.connected c p) = some (.ok s') ∧ PeerOf s'.l.reg a = .ok q ∧ q.state = .connected ∧
      q.name = p.conn.handshake.nodeName ∧ q.version = p.conn.handshake.version ∧ q.nonce = p.conn.handshake.nonce ∧
      (∀ ap, p.conn.handshake.declared = .addrPort ap → ap.addr = a → q.port = ap.port) ∧
      ((∀ ap, p.conn.handshake.declared = .addrPort ap → ap.addr ≠ a) → q.port = 0) ∧
      q.nextAttempt = Peers.roundSec c.now ∧
      (∀ q', PeerOf s.l.reg a = .ok q' → q.score = q'.score) := by
  have G := R.inv.loader.inv.reg.inv.good
  obtain ⟨b, hb⟩ := Peers.is4_iff.mp acc.ipv4
  subst hb
  rw [step_handling hm hd (.connected c p (by intro x hx; rw [ha] at hx; cases hx; exact hj))]
  unfold handleConnected
  rw [ha]
  simp only
  cases Peers.register_outcome (lib := lib) (f := c.fates 0) (now := c.now) (a := .v4 b) (np := p.conn) (h := p.conn.handshake) G with
  | hostile rej => exact absurd acc rej
  | refused rej => exact absurd acc rej
  | accepted _ eq =>
    rw [eq]
    simp only
    rw [noPanic_ok (putPeer_not_panic _ _ _), handled_ok]
    have hput : Peers.putPeer (c.fates 0) s.l.reg.db (Peers.acceptedPeer s.l.reg c.now (.v4 b) p.conn p.conn.handshake) =
        (KV.put s.l.reg.db b.1 (.record (Peers.acceptedPeer s.l.reg c.now (.v4 b) p.conn p.conn.handshake).toValue), .ok ()) := by
      have h1 : Peers.validUTF8 (Peers.acceptedPeer s.l.reg c.now (.v4 b) p.conn p.conn.handshake).name = true := hn
      have h2 : (Peers.acceptedPeer s.l.reg c.now (.v4 b) p.conn p.conn.handshake).addr = .v4 b := rfl
      simp [Peers.putPeer, h1, h2, is4, Peers.keyBytes, hc, KV.write, KV.applyBatch, KV.applyOp]
    refine ⟨_, (Peers.acceptedPeer s.l.reg c.now (.v4 b) p.conn p.conn.handshake).toValue.toPeer (.v4 b), rfl, ?_, rfl, rfl, rfl, rfl,
      ?_, ?_, rfl, ?_⟩
    · simp only [PeerOf, hput]
      rw [(G.put b _).peer_v4, Peers.view_put, if_pos rfl]
    · intro ap h1 h2
      show Peers.portOf (.v4 b) p.conn.handshake = _
      simp [Peers.portOf, h1, h2]
    · intro h
      show Peers.portOf (.v4 b) p.conn.handshake = _
      unfold Peers.portOf
      split
      · rename_i ap h1
        exact if_neg (h ap h1)
      · rfl
    · intro q' hq'
      show (Peers.onFile s.l.reg (.v4 b)).score = _
      unfold Peers.onFile
      rw [hq']

/-- A new connection from a node that does not qualify changes no connection and no record of any other node, and its own
node does not become one that counts as connected. -/
theorem C77_refused (R : Reached lib s) (hm : s.main ≠ .exited) (hd : s.dist = .ready) (c : Ctx) (p : Sender) {a : Addr}
    (ha : p.remote = some a) (hj : a ∈ s.joined) (rej : ¬ Accepted lib s.l.reg a p.conn p.conn.handshake)
    (hs : s.step lib (.connected c p) = some (.ok s')) :
    s'.l.reg.connections = s.l.reg.connections ∧ s'.l = { s.l with reg := s'.l.reg } ∧ s'.sent = s.sent ∧ s'.dist = .ready ∧
      (∀ a', is4 a' = true → a' ≠ a → PeerOf s'.l.reg a' = PeerOf s.l.reg a') ∧
      (∀ q, is4 a = true → PeerOf s'.l.reg a = .ok q → q.state = .connected → PeerOf s.l.reg a = .ok q) := by
  have G := R.inv.loader.inv.reg.inv.good
  rw [step_handling hm hd (.connected c p (by intro x hx; rw [ha] at hx; cases hx; exact hj))] at hs
  obtain ⟨x, hx, rfl⟩ := handled_eq (Option.some.inj hs)
  unfold handleConnected at hx
  rw [ha] at hx
  simp only at hx
  obtain ⟨rfl, hnp⟩ := noPanic_eq hx
  cases Peers.register_outcome (lib := lib) (f := c.fates 0) (now := c.now) (a := a) (np := p.conn) (h := p.conn.handshake) G with
  | accepted acc => exact absurd acc rej
  | refused _ cl e eq =>
    rw [eq]
    exact ⟨rfl, rfl, by simp, rfl, fun _ _ _ => rfl, fun q _ h _ => h⟩
  | hostile _ h4 eq =>
    rw [eq]
    obtain ⟨b, rfl⟩ := Peers.is4_iff.mp h4
    refine ⟨rfl, rfl, by simp, rfl, ?_, ?_⟩
    · intro a' h4' hne
      refine putPeer_other G _ _ h4' ?_
      show (Peers.onFile s.l.reg (.v4 b)).addr ≠ a'
      rcases onFile_addr G (b := b) with h | h
      · rw [h]; exact fun e => hne e.symm
      · rw [h]; rintro rfl; cases h4'
    · intro q _ hq hst
      unfold PeerOf at hq ⊢
      rcases Peers.putPeer_db (c.fates 0) s.l.reg.db (Peers.hostilePeer (Peers.onFile s.l.reg (.v4 b)) p.conn) with
        h | ⟨b1, hb1, _, _, h⟩
      · simp only [h] at hq; exact hq
      · simp only [h] at hq
        rw [(G.put b1 _).peer_v4, Peers.view_put] at hq
        by_cases hb : b = b1
        · rw [if_pos hb] at hq
          cases hq; cases hst
        · rw [if_neg hb] at hq
          rw [G.peer_v4]; exact hq

/-- the node 10.0.0.2 qualifies, and a node of another network does not -/
example : Accepted Peers.Ex.lib (Ex.after [.suggest .ok (1 * second) Loading.Ex.peer]).l.reg Loading.Ex.peer Ex.p2.conn
      Ex.p2.conn.handshake ∧
    ¬ Accepted Peers.Ex.lib (Ex.after [.suggest .ok (1 * second) Loading.Ex.peer]).l.reg Loading.Ex.peer ⟨5, Peers.Ex.badHs⟩
      Peers.Ex.badHs ∧
    Loading.Ex.peer ∈ (Ex.after [.suggest .ok (1 * second) Loading.Ex.peer]).joined :=
  ⟨⟨by decide +kernel, by decide +kernel, by decide +kernel, by decide +kernel, Or.inl rfl⟩,
    fun h => absurd h.network (by decide +kernel), by decide +kernel⟩

/-- a node that declares the address it connects from is on record with its port -/
example : (PeerOf (Ex.after [.suggest .ok (1 * second) Loading.Ex.peer,
      .connected (Loading.Ex.ctx 2) ⟨⟨5, { Peers.Ex.hs 65 with declared := .addrPort ⟨Loading.Ex.peer, 6868⟩ }⟩, some Loading.Ex.peer⟩]).l.reg
      Loading.Ex.peer).map (fun q => (q.port, q.state)) = .ok (6868, .connected) := by decide +kernel

/-! ### C78 -/

/-- A new connection that is refused is closed, and nothing else is closed or sent.

Missing: connections from our own address and those that declare an address that does not parse; they are refused but stay
open (`C78_own_address`, `C78_unparsable`). -/
theorem C78_closed_partial (R : Reached lib s) (hm : s.main ≠ .exited) (hd : s.dist = .ready) (c : Ctx) (p : Sender) {a : Addr}
    (ha : p.remote = some a) (hj : a ∈ s.joined) (rej : ¬ Accepted lib s.l.reg a p.conn p.conn.handshake)
    (hown : a ≠ s.l.reg.declared) (hdec : p.conn.handshake.declared ≠ .unparsable)
    (hs : s.step lib (.connected c p) = some (.ok s')) : s'.out = s.out ++ [.close p.conn] := by
  have G := R.inv.loader.inv.reg.inv.good
  rw [step_handling hm hd (.connected c p (by intro x hx; rw [ha] at hx; cases hx; exact hj))] at hs
  obtain ⟨x, hx, rfl⟩ := handled_eq (Option.some.inj hs)
  unfold handleConnected at hx
  rw [ha] at hx
  simp only at hx
  obtain ⟨rfl, hnp⟩ := noPanic_eq hx
  simp only [refused_closes G rej hown hdec hnp, if_true]

/-- the hypotheses are met by the node of another network, which is closed -/
example : (Ex.after [.suggest .ok (1 * second) Loading.Ex.peer,
    .connected (Loading.Ex.ctx 2) ⟨⟨5, Peers.Ex.badHs⟩, some Loading.Ex.peer⟩]).out = [.close ⟨5, Peers.Ex.badHs⟩] ∧
    Loading.Ex.peer ≠ Ex.start.l.reg.declared ∧ Peers.Ex.badHs.declared ≠ .unparsable := by decide +kernel

/-- The claim is false for a connection from our own address: it is refused and stays open. -/
theorem C78_own_address :
    let own := Peers.Ex.ip 10 0 0 1
    let s := Ex.after [.suggest .ok (1 * second) own, .connected (Loading.Ex.ctx 2) ⟨Peers.Ex.conn 65, some own⟩]
    own ∈ s.joined ∧ s.l.reg.connections = [] ∧ s.out = [] := by decide +kernel

/-- And for a connection whose handshake declares an address that does not parse. -/
theorem C78_unparsable :
    let h : Peers.Handshake := { Peers.Ex.hs 65 with declared := .unparsable }
    let s := Ex.after [.suggest .ok (1 * second) Loading.Ex.peer, .connected (Loading.Ex.ctx 2) ⟨⟨5, h⟩, some Loading.Ex.peer⟩]
    Loading.Ex.peer ∈ s.joined ∧ s.l.reg.connections = [] ∧ s.out = [] := by decide +kernel

/-! ### C79 -/

/-- A list of addresses from a peer. `added` are the addresses that become known: each is the first mention in the list of an
IPv4, non-loopback, foreign address that was not known; it is stored as an unknown peer with its port. No other record
changes, and nothing but the records does. When no write fails every such address is added. -/
theorem C79_addresses (R : Reached lib s) (hm : s.main ≠ .exited) (hd : s.dist = .ready) (c : Ctx) (p : Sender)
    (l : List (Option AddrPort)) :
    ∃ (db' : Peers.DB) (added : List AddrPort),
      s.step lib (.message c p (.peers l)) = some (.ok { s with l := { s.l with reg := { s.l.reg with db := db' } } }) ∧
      (added.map (·.addr)).Nodup ∧
      (∀ ap, ap ∈ added → First l ap ∧ is4 ap.addr = true ∧ isLoopback ap.addr = false ∧ ap.addr ≠ s.l.reg.declared ∧
        PeerOf s.l.reg ap.addr = fail .notFound ∧
        PeerOf { s.l.reg with db := db' } ap.addr =
          .ok ⟨ap.addr, ap.port, 0, [], ⟨0, 0, 0⟩, .unknown, Peers.zeroTime, none, none⟩) ∧
      (∀ a, is4 a = true → (∀ ap, ap ∈ added → ap.addr ≠ a) → PeerOf { s.l.reg with db := db' } a = PeerOf s.l.reg a) ∧
      ((∀ i, c.fates i = .ok) → ∀ ap, First l ap → is4 ap.addr = true → isLoopback ap.addr = false →
        ap.addr ≠ s.l.reg.declared → PeerOf s.l.reg ap.addr = fail .notFound → ap ∈ added) := by
  obtain ⟨db', added, n, h1, h2, h3, h4, _, _, h7⟩ :=
    Peers.C32_append R.inv.loader.inv.reg c.fates ((l.filterMap id).map some)
  refine ⟨db', added, ?_, h2, ?_, h4, ?_⟩
  · rw [step_handling hm hd (.message c p (.peers l)), receive_eq]
    simp [handleMessage, handlePeers, h1, noPanic, handled_ok, hd]
  · intro ap hap
    obtain ⟨g1, g2⟩ := h3 ap hap
    exact ⟨first_parsed.mp g1, g2⟩
  · intro hf ap g1
    exact h7 hf ap (first_parsed.mpr g1)

/-- of three addresses in a message one is unparsable and one is known -/
example : (PeerOf (Ex.after (Ex.joined ++ [.message (Loading.Ex.ctx 5) Ex.p2
      (.peers [none, some ⟨Loading.Ex.peer, 1⟩, some ⟨Peers.Ex.ip 9 9 9 9, 7⟩])])).l.reg (Peers.Ex.ip 9 9 9 9)).map (·.port) = .ok 7 ∧
    PeerOf (Ex.after Ex.joined).l.reg (Peers.Ex.ip 9 9 9 9) = fail .notFound := by decide +kernel

/-! ### C80 -/

/-- The announcement of a micro-block. When its block is known, the leash of the sender moves to it and no block changes. When
it is new and its reference is a known block other than the genesis block, it is stored, and the leash of the sender moves to it.
Otherwise nothing changes. Nothing goes to the loader, and the leashes of the other peers stay where they are. -/
theorem C80_micro {g : ProtoBlock} {n : Nat} (A : Alive lib g n s) (hm : s.main ≠ .exited) (hd : s.dist = .ready) (c : Ctx)
    (h0 : c.fates 0 = .ok) (h1 : c.fates 1 = .ok) (p : Sender) {a : Addr} (ha : p.remote = some a) (inv : MicroInv) :
    ∃ s', s.step lib (.message c p (.microBlockInv (some inv))) = some (.ok s') ∧ s'.sent = s.sent ∧ s'.dist = .ready ∧
      s'.out = s.out ∧ s'.l.reg = s.l.reg ∧
      (∀ a', a'.plain ≠ a.plain → LeashOf s'.l.link a' = LeashOf s.l.link a') ∧
      (Stored s.l.link.db inv.totalBlockID → LeashOf s'.l.link a = .ok inv.totalBlockID ∧ SameTree s.l.link.db s'.l.link.db) ∧
      (¬ Stored s.l.link.db inv.totalBlockID → Stored s.l.link.db inv.reference → inv.reference ≠ g.id →
        Stored s'.l.link.db inv.totalBlockID ∧ LeashOf s'.l.link a = .ok inv.totalBlockID) ∧
      (¬ Stored s.l.link.db inv.totalBlockID → (¬ Stored s.l.link.db inv.reference ∨ inv.reference = g.id) → s'.l = s.l) := by
  have S := A.running.serving.reachable
  rw [step_handling hm hd (.message c p _), receive_eq]
  simp only [handleMessage, handleMicroBlockInv, ha, h0, h1]
  rw [noPanic_ok (putMicro_not_panic S _ _ _ _), handled_ok]
  refine ⟨_, rfl, by simp, rfl, by simp, rfl, ?_, ?_, ?_, ?_⟩
  · intro a' ha'
    exact (C07_isolation S (.putMicro inv a .ok .ok) a inv.totalBlockID rfl a' ha').1
  · intro hst
    obtain ⟨_, k2, k3, _⟩ := C05_known_micro S inv a .ok hst
    refine ⟨?_, k2⟩
    have := k3 a
    rw [if_pos rfl] at this
    simp only [LeashOf, this]
  · intro hn hr hg
    have hok := (C22_micro_accept_iff S inv a hn).mpr ⟨hr, hg⟩
    obtain ⟨r, rr, k1, _, _, k4⟩ := C22_micro_inherits S inv a .ok .ok hn hok
    exact ⟨stored_of_record k1, k4⟩
  · intro hn h
    obtain ⟨k1, k2⟩ := C22_micro_refused S inv a .ok .ok hn
    rcases h with h | h
    · rw [k1 h]
    · rw [k2 h]

/-- An announcement that cannot be used (its fields do not decode) does nothing, and neither does one without an address. -/
theorem C80_unusable (hm : s.main ≠ .exited) (hd : s.dist = .ready) (c : Ctx) (p : Sender) (inv : Option MicroInv)
    (h : inv = none ∨ p.remote = none) : s.step lib (.message c p (.microBlockInv inv)) = some (.ok s) := by
  have hr : receive lib c s.l p (.microBlockInv inv) = .ok { l := s.l } := by
    rw [receive_eq]
    simp only [handleMessage, handleMicroBlockInv]
    rcases h with rfl | h
    · cases p.remote <;> rfl
    · rw [h]
  rw [step_handling hm hd (.message c p _), hr, handled_ok]
  obtain ⟨⟩ := s
  cases hd
  simp

/-- a micro-block on block 1, which is known after it was announced -/
example : Stored (Ex.after (Ex.joined ++ [.message (Loading.Ex.ctx 5) Ex.p2 (.block (some (Chains.Ex.blk 1 0))),
      .take (Loading.Ex.ctx 6), .message (Loading.Ex.ctx 7) Ex.p3 (.microBlockInv (some ⟨Chains.Ex.bid 7, Chains.Ex.bid 1⟩))])).l.link.db
      (Chains.Ex.bid 7) ∧
    LeashOf (Ex.after (Ex.joined ++ [.message (Loading.Ex.ctx 5) Ex.p2 (.block (some (Chains.Ex.blk 1 0))),
      .take (Loading.Ex.ctx 6), .message (Loading.Ex.ctx 7) Ex.p3 (.microBlockInv (some ⟨Chains.Ex.bid 7, Chains.Ex.bid 1⟩))])).l.link
      Loading.Ex.peer3 = .ok (Chains.Ex.bid 7) := by
  constructor
  · unfold Stored; decide +kernel
  · decide +kernel

/-! ### C81 -/

/-- When the timer of the distributor fires, a request for peers is sent on every registered connection, once, and nothing else
happens. -/
theorem C81_ping (hm : s.main ≠ .exited) (hd : s.dist = .ready) (c : Ctx) :
    ∃ l : List Conn, s.step lib (.ping c) = some (.ok { s with out := s.out ++ l.map .ping }) ∧
      l.Perm (s.l.reg.connections.map (·.2)) := by
  refine ⟨Peers.Broadcast c.env s.l.reg, ?_, (c.env.mapOrder_perm _).map _⟩
  rw [step_handling hm hd (.ping c), handled_ok]
  simp [pingConnections, hd]

example : (Ex.after (Ex.joined ++ [.ping (Loading.Ex.ctx 5)])).out.length = 2 := by decide +kernel

end Verif.Props
