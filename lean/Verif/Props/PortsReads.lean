import Verif.Services.PortsReads
import Verif.Services.FaultyEx
/-
Property C88, with failing reads and with the loader at work.
-/

set_option autoImplicit false

namespace Verif.Services.Fine

open Verif
open Verif.Chains (Addr Linkage)
open Verif.Peers (Registry Lib AddrPort Config PeerOf NewRegistry is4 isLoopback second)
open Verif.Loading.Fine (Disk)
open Verif.KV (Fate)

variable {lib : Lib} {r : Registry} {D : Disk} {cfg : Config} {fs : Nat → Fate} {seeds : List (Option AddrPort)}
  {lk : Linkage} {listener : Bool} {es : List Ev} {tr : List Loading.Fine.Answer} {s : Sys}

/-- The program dials no address that nobody named, whatever reads and writes fail and whatever the loader is doing. -/
theorem C88_dialled_reads (R : Peers.Reachable lib r) (P : Path lib (Sys.start D cfg r.db fs seeds lk listener) es tr s) (ap : AddrPort)
    (h : ap ∈ s.dialled) :
    (∃ p, PeerOf (NewRegistry cfg r.db) ap.addr = .ok p ∧ p.port = ap.port) ∨ some ap ∈ seeds ∨
      (∃ D c p l, Ev.message D c p (.peers l) ∈ es ∧ some ap ∈ l) ∨
      ∃ D c p, Ev.connected D c p ∈ es ∧ p.remote = some ap.addr ∧ p.conn.handshake.declared = .addrPort ap := by
  rcases ((Dials.path R P).1.dialled ap h).1 with h | h | ⟨e, he, h | h⟩
  · exact Or.inl h
  · exact Or.inr (Or.inl h)
  · obtain ⟨D, c, p, l, rfl, hm⟩ := h; exact Or.inr (Or.inr (Or.inl ⟨D, c, p, l, he, hm⟩))
  · obtain ⟨D, c, p, rfl, hr, hd⟩ := h; exact Or.inr (Or.inr (Or.inr ⟨D, c, p, he, hr, hd⟩))

/-- It dials IPv4 addresses only, never the own machine by a loopback address, never the declared address of its own, and never port 0. -/
theorem C88_never_reads (R : Peers.Reachable lib r) (P : Path lib (Sys.start D cfg r.db fs seeds lk listener) es tr s) (ap : AddrPort)
    (h : ap ∈ s.dialled) : is4 ap.addr = true ∧ isLoopback ap.addr = false ∧ ap.addr ≠ cfg.declared ∧ ap.port ≠ 0 := by
  obtain ⟨_, h1, h2, h3, h4⟩ := (Dials.path R P).1.dialled ap h
  exact ⟨h1, h3, h4, h2⟩

/-- The port on record for a peer comes from the same sources. -/
theorem C88_port_reads (R : Peers.Reachable lib r) (P : Path lib (Sys.start D cfg r.db fs seeds lk listener) es tr s) (a : Addr)
    (h4 : is4 a = true) (p : Peers.Peer) (h : PeerOf s.world.sh.reg a = .ok p) :
    p.port = 0 ∨ (∃ q, PeerOf (NewRegistry cfg r.db) a = .ok q ∧ q.port = p.port) ∨ some ⟨a, p.port⟩ ∈ seeds ∨
      (∃ D c q l, Ev.message D c q (.peers l) ∈ es ∧ some ⟨a, p.port⟩ ∈ l) ∨
      ∃ D c q, Ev.connected D c q ∈ es ∧ q.remote = some a ∧ q.conn.handshake.declared = .addrPort ⟨a, p.port⟩ := by
  obtain ⟨b, rfl⟩ := Peers.is4_iff.mp h4
  obtain ⟨K, Rs⟩ := Dials.path R P
  obtain ⟨v, hv, rfl⟩ := Rs.inv.peerOf.mp h
  by_cases hp : v.port = 0
  · exact Or.inl hp
  · right
    rcases K.port b v hv hp with h | h | ⟨e, he, h | h⟩
    · exact Or.inl h
    · exact Or.inr (Or.inl h)
    · obtain ⟨D, c, p, l, rfl, hm⟩ := h; exact Or.inr (Or.inr (Or.inl ⟨D, c, p, l, he, hm⟩))
    · obtain ⟨D, c, p, rfl, hr, hd⟩ := h; exact Or.inr (Or.inr (Or.inr ⟨D, c, p, he, hr, hd⟩))

/-! ### a concrete execution -/

/-- peer 10.0.0.3 names its port in the handshake, names 9.9.9.9 in a list of peers and 8.8.8.8 in another one while no record can be read, and is
lost; the loader works in between; nobody is dialled while no record can be read -/
def Ex.named : List Ev :=
  let p3 : Sender := ⟨{ Peers.Ex.conn 66 with handshake :=
    { (Peers.Ex.conn 66).handshake with declared := .addrPort ⟨Loading.Ex.peer3, 6870⟩ } }, some Loading.Ex.peer3⟩
  [.suggest .good .ok (3 * second) Loading.Ex.peer3, .connected .good (Loading.Ex.ctx 4) p3, .timer (Loading.Ex.ctx 5),
    .message .good (Loading.Ex.ctx 5) p3 (.peers [none, some ⟨Peers.Ex.ip 9 9 9 9, 7⟩, some ⟨Peers.Ex.ip 127 0 0 1, 8⟩]),
    .message Ex.noPeers (Loading.Ex.ctx 5) p3 (.peers [some ⟨Peers.Ex.ip 8 8 8 8, 9⟩]), .go Ex.noBlocks,
    .broken .good (Loading.Ex.ctx 6) p3, .respawn Ex.noPeers (699 * second) false, .respawn .good (700 * second) false]

example : Peers.Reachable Peers.Ex.lib (Peers.Ex.run []) ∧
    ∃ tr s, Path Peers.Ex.lib (Sys.start .good Peers.Ex.cfg (Peers.Ex.run []).db Peers.Ex.ok [some ⟨Loading.Ex.peer, 6868⟩] Chains.Ex.l0 false)
      Ex.named tr s ∧ s.dialled = [⟨Peers.Ex.ip 9 9 9 9, 7⟩, ⟨Loading.Ex.peer, 6868⟩, ⟨Loading.Ex.peer3, 6870⟩] := by
  have key : (Ex.after Ex.named).any (fun s => decide (s.dialled =
      [⟨Peers.Ex.ip 9 9 9 9, 7⟩, ⟨Loading.Ex.peer, 6868⟩, ⟨Loading.Ex.peer3, 6870⟩])) = true := by decide +kernel
  refine ⟨⟨_, [], rfl⟩, ?_⟩
  cases hs : Ex.after Ex.named with
  | none => rw [hs] at key; cases key
  | some s =>
    rw [hs] at key
    obtain ⟨tr, ht⟩ := Ex.after_path hs
    exact ⟨tr, s, ht, of_decide_eq_true key⟩

end Verif.Services.Fine
