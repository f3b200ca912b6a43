import Verif.Services.Examples
import Verif.Services.NoticeLemmas
import Verif.Peers.Hostile
import Verif.Props.Dialing
/-
Property C85: nodes that do not fit become hostile.
-/

set_option autoImplicit false

namespace Verif.Props

open Verif
open Verif.Chains (Addr BytesN)
open Verif.Peers (Conn Registry Lib Peer PeerOf second is4 TakeAvailableAddresses SuggestVersion)
open Verif.Loading (Ctx)
open Verif.KV (Fate)
open Verif.Services

variable {lib : Lib} {s : Prog}

/-! ### C85 -/

/-- A connection from a node of another network, or with a version two or more minor versions from the one on record, is
closed and its record becomes hostile: it keeps port, nonce, score and date of the next attempt, takes the version of the
handshake, and is named `node(application)`. From then on no address to dial is one of that node and it is offered
no version.

Missing: nodes whose names are not UTF-8 (`C85_not_marked`). -/
theorem C85_marked_partial (R : Reached lib s) (hm : s.main ≠ .exited) (hd : s.dist = .ready) (c : Ctx) (hc : c.fates 0 = .ok)
    (p : Sender) {a : Addr} (ha : p.remote = some a) (h4 : is4 a = true) (hj : a ∈ s.joined) (hown : a ≠ s.l.reg.declared)
    (happ : p.conn.handshake.appName ≠ [])
    (hbad : 2 ≤ lib.cmpMinor p.conn.handshake.version (Peers.versionOnRecord s.l.reg a) ∨
      p.conn.handshake.appName.getLast? ≠ some s.l.reg.scheme)
    (hu : Peers.validUTF8 p.conn.handshake.nodeName = true) (hu' : Peers.validUTF8 p.conn.handshake.appName = true) :
    ∃ s' q q', s.step lib (.connected c p) = some (.ok s') ∧ s'.out = s.out ++ [.close p.conn] ∧
      s'.l.reg.connections = s.l.reg.connections ∧ a ∉ s'.l.reg.pending ∧
      PeerOf s.l.reg a = .ok q ∧ PeerOf s'.l.reg a = .ok q' ∧ q'.state = .hostile ∧
      q'.version = p.conn.handshake.version ∧
      q'.name = p.conn.handshake.nodeName ++ [0x28] ++ p.conn.handshake.appName ++ [0x29] ∧
      q'.port = q.port ∧ q'.nonce = q.nonce ∧ q'.score = q.score ∧ q'.nextAttempt = q.nextAttempt ∧
      (∀ now l, (TakeAvailableAddresses now s'.l.reg).2 = .ok l → ∀ ap, ap ∈ l → ap.addr ≠ a) ∧
      (∀ f now v, (SuggestVersion f now s'.l.reg a).2 ≠ .ok v) := by
  have I := R.inv
  have G := I.loader.inv.reg.inv.good
  obtain ⟨b, rfl⟩ := Peers.is4_iff.mp h4
  obtain ⟨v, hv⟩ := Option.ne_none_iff_exists'.mp (I.joined b hj)
  have hq : PeerOf s.l.reg (.v4 b) = .ok (v.toPeer (.v4 b)) := by
    unfold PeerOf; rw [G.peer_v4, hv]
  have hver : Peers.versionOnRecord s.l.reg (.v4 b) = (v.toPeer (.v4 b)).version := by
    unfold Peers.versionOnRecord; rw [hq]
  rw [hver] at hbad
  have hname : Peers.validUTF8 (Peers.hostilePeer (v.toPeer (.v4 b)) p.conn).name = true :=
    Peers.validUTF8_append _ (Peers.validUTF8_append _ (Peers.validUTF8_append _ hu (by decide)) hu') (by decide)
  have hput := Peers.putPeer_through (db := s.l.reg.db) (p := Peers.hostilePeer (v.toPeer (.v4 b)) p.conn) (b := b) rfl hname
  have hreg := Peers.register_hostile (lib := lib) (f := .ok) (now := c.now) (h := p.conn.handshake) h4 hown hq happ hbad
  rw [hput] at hreg
  have hstep := step_handling hm hd (.connected (lib := lib) c p (by intro x hx; rw [ha] at hx; cases hx; exact hj))
  unfold handleConnected at hstep
  rw [ha] at hstep
  simp only at hstep
  rw [hc, hreg] at hstep
  simp only at hstep
  rw [noPanic_ok (by intro h; cases h), handled_ok] at hstep
  have hR := R.reaches (.step .refl _ hstep)
  have hq' : PeerOf { s.l.reg with pending := Peers.delPending s.l.reg.pending (.v4 b), db := KV.put s.l.reg.db b.1 (.record (Peers.hostilePeer (v.toPeer (.v4 b)) p.conn).toValue) } (.v4 b) =
      .ok ((Peers.hostilePeer (v.toPeer (.v4 b)) p.conn).toValue.toPeer (.v4 b)) := by
    unfold PeerOf
    rw [(G.put b _).peer_v4, Peers.view_put, if_pos rfl]
  refine ⟨_, _, _, hstep, by simp, rfl, by simp [Peers.delPending], hq, hq', rfl, rfl, rfl, rfl, rfl, rfl, rfl, ?_, ?_⟩
  · intro now l hl
    exact Peers.C33_not_dialled hR.inv.loader.inv.reg hq' rfl now hl
  · intro f now w
    have := Peers.C33_no_version hq' rfl f now
    intro h
    simp only at h
    rw [this] at h
    cases h

/-- the node 10.0.0.2 connects from another network -/
example :
    let s := Ex.after [.suggest .ok (1 * second) Loading.Ex.peer]
    let s' := Ex.after [.suggest .ok (1 * second) Loading.Ex.peer,
      .connected (Loading.Ex.ctx 2) ⟨⟨5, Peers.Ex.badHs⟩, some Loading.Ex.peer⟩]
    s.main ≠ .exited ∧ s.dist = .ready ∧ Loading.Ex.peer ∈ s.joined ∧ Loading.Ex.peer ≠ s.l.reg.declared ∧
    Peers.Ex.badHs.appName ≠ [] ∧ Peers.Ex.badHs.appName.getLast? ≠ some s.l.reg.scheme ∧
    Peers.validUTF8 Peers.Ex.badHs.nodeName = true ∧ Peers.validUTF8 Peers.Ex.badHs.appName = true ∧
    (PeerOf s'.l.reg Loading.Ex.peer).map (·.state) = .ok .hostile := by decide +kernel

/-- The claim is false for a node of another network with a name that is not UTF-8: the connection is closed, but its
record does not become hostile, and it is dialled again and offered a version. -/
theorem C85_not_marked :
    let h : Peers.Handshake := { Peers.Ex.badHs with nodeName := [255] }
    let s := Ex.after [.respawn (1 * second) false, .suggest .ok (1 * second) Loading.Ex.peer,
      .connected (Loading.Ex.ctx 2) ⟨⟨5, h⟩, some Loading.Ex.peer⟩]
    Loading.Ex.peer ∈ s.joined ∧ s.dialled = [⟨Loading.Ex.peer, 6868⟩] ∧ s.out = [.close ⟨5, h⟩] ∧
    h.appName.getLast? ≠ some s.l.reg.scheme ∧
    (PeerOf s.l.reg Loading.Ex.peer).map (·.state) = .ok .unknown ∧
    ((TakeAvailableAddresses (1000 * second) s.l.reg).2.map fun l => l.map (·.addr)) = .ok [Loading.Ex.peer] := by decide +kernel

/-- `MarkAsHostile` with an IPv4 address and a successful write: the record of the address is hostile and has no port, the
address is released, nothing else changes. The record is made if there was none. -/
theorem C85_mark {r : Registry} (R : Peers.Reachable lib r) (b : BytesN 4) :
    ∃ r' q', Peers.MarkAsHostile .ok r (some (.v4 b)) = (r', .ok ()) ∧ PeerOf r' (.v4 b) = .ok q' ∧
      q'.state = .hostile ∧ q'.port = 0 ∧ (∀ q, PeerOf r (.v4 b) = .ok q → q' = { q with state := .hostile, port := 0 }) ∧
      (∀ b', b' ≠ b → PeerOf r' (.v4 b') = PeerOf r (.v4 b')) ∧
      (∀ a', a' ∈ r'.pending ↔ a' ∈ r.pending ∧ a' ≠ .v4 b) ∧ r'.connections = r.connections := by
  have G := R.inv.good
  unfold Peers.MarkAsHostile
  simp only
  rw [G.peer_v4]
  have rest : ∀ q : Peer, Peers.validUTF8 q.name = true → (∀ q0, PeerOf r (.v4 b) = .ok q0 → q = q0 ∧ q0.addr = .v4 b ∧ q0.conn = none) →
      ∃ r' q', (({ r with pending := Peers.delPending r.pending (.v4 b), db := (Peers.putPeer .ok r.db { q with addr := .v4 b, port := 0, state := .hostile }).1 } : Registry),
        (Peers.putPeer .ok r.db { q with addr := .v4 b, port := 0, state := .hostile }).2) = (r', .ok ()) ∧ PeerOf r' (.v4 b) = .ok q' ∧
      q'.state = .hostile ∧ q'.port = 0 ∧ (∀ q, PeerOf r (.v4 b) = .ok q → q' = { q with state := .hostile, port := 0 }) ∧
      (∀ b', b' ≠ b → PeerOf r' (.v4 b') = PeerOf r (.v4 b')) ∧
      (∀ a', a' ∈ r'.pending ↔ a' ∈ r.pending ∧ a' ≠ .v4 b) ∧ r'.connections = r.connections := by
    intro q hq h0
    rw [Peers.putPeer_through (p := { q with addr := .v4 b, port := 0, state := .hostile }) (b := b) rfl hq]
    refine ⟨_, ({ q with addr := .v4 b, port := 0, state := .hostile } : Peer).toValue.toPeer (.v4 b), rfl, ?_, rfl, rfl, ?_, ?_,
      fun a' => by simp [Peers.delPending], rfl⟩
    · unfold PeerOf
      rw [(G.put b _).peer_v4, Peers.view_put, if_pos rfl]
    · intro q1 h1
      obtain ⟨rfl, ha, hc⟩ := h0 q1 h1
      cases q
      simp only at ha hc
      subst ha hc
      rfl
    · intro b' hb
      unfold PeerOf
      rw [(G.put b _).peer_v4, G.peer_v4, Peers.view_put, if_neg hb]
  cases hv : Peers.view r.db b with
  | none =>
    refine rest Peer.zero rfl (fun q0 h => ?_)
    unfold PeerOf at h
    rw [G.peer_v4, hv] at h
    cases h
  | some v =>
    have hp : PeerOf r (.v4 b) = .ok (v.toPeer (.v4 b)) := by unfold PeerOf; rw [G.peer_v4, hv]
    refine rest _ (R.inv.names b v hv) (fun q0 h => ?_)
    rw [hp] at h
    cases h
    exact ⟨rfl, rfl, rfl⟩

/-- a peer we wait for is marked; an unknown one is stored as hostile -/
example :
    let r := Peers.Ex.run [Peers.Ex.at_ 1 (.suggest .ok (Peers.Ex.ip 1 1 1 1))]
    (PeerOf (Peers.MarkAsHostile .ok r (some (Peers.Ex.ip 1 1 1 1))).1 (Peers.Ex.ip 1 1 1 1)).map (·.state) = .ok .hostile ∧
    (PeerOf (Peers.MarkAsHostile .ok r (some (Peers.Ex.ip 1 1 1 2))).1 (Peers.Ex.ip 1 1 1 2)).map (·.state) = .ok .hostile := by
  decide +kernel

end Verif.Props
