import Verif.Services.Ports
import Verif.Services.Examples
/-
Property C88: where the addresses that the program dials come from.
-/

set_option autoImplicit false

namespace Verif.Props

open Verif
open Verif.Chains (Addr Linkage)
open Verif.Peers (Registry Lib AddrPort Config PeerOf NewRegistry is4 isLoopback second)
open Verif.Services
open Verif.KV (Fate)

variable {lib : Lib} {cfg : Config} {r : Registry} {fs : Nat → Fate} {seeds : List (Option AddrPort)} {lk : Linkage} {lsn : Bool}
  {es : List Ev} {s : Prog}

/-! ### C88 -/

/-- The program dials no address that nobody named.  Every address and port it dials was on record when it was started, is one
of the seed peers, was in a list of peers that somebody sent, or was declared in the handshake of a connection from that very
address. -/
theorem C88_dialled (R : Peers.Reachable lib r) (P : Path lib (Prog.start cfg r.db fs seeds lk lsn) es s) (ap : AddrPort)
    (h : ap ∈ s.dialled) :
    (∃ p, PeerOf (NewRegistry cfg r.db) ap.addr = .ok p ∧ p.port = ap.port) ∨ some ap ∈ seeds ∨
      (∃ c p l, Ev.message c p (.peers l) ∈ es ∧ some ap ∈ l) ∨
      ∃ c p, Ev.connected c p ∈ es ∧ p.remote = some ap.addr ∧ p.conn.handshake.declared = .addrPort ap := by
  rcases ((Dials.path R P).dialled ap h).1 with h | h | ⟨e, he, h | h⟩
  · exact Or.inl h
  · exact Or.inr (Or.inl h)
  · obtain ⟨c, p, l, rfl, hm⟩ := h; exact Or.inr (Or.inr (Or.inl ⟨c, p, l, he, hm⟩))
  · obtain ⟨c, p, rfl, hr, hd⟩ := h; exact Or.inr (Or.inr (Or.inr ⟨c, p, he, hr, hd⟩))

/-- It dials IPv4 addresses only, never the own machine by a loopback address, never the declared address of its own, and never
port 0. -/
theorem C88_never (R : Peers.Reachable lib r) (P : Path lib (Prog.start cfg r.db fs seeds lk lsn) es s) (ap : AddrPort)
    (h : ap ∈ s.dialled) : is4 ap.addr = true ∧ isLoopback ap.addr = false ∧ ap.addr ≠ cfg.declared ∧ ap.port ≠ 0 := by
  obtain ⟨_, h1, h2, h3, h4⟩ := (Dials.path R P).dialled ap h
  exact ⟨h1, h3, h4, h2⟩

/-- The port on record for a peer comes from the same sources; a peer that connected without naming its port, and that nobody
else named, has none. -/
theorem C88_port (R : Peers.Reachable lib r) (P : Path lib (Prog.start cfg r.db fs seeds lk lsn) es s) (a : Addr) (h4 : is4 a = true)
    (p : Peers.Peer) (h : PeerOf s.l.reg a = .ok p) :
    p.port = 0 ∨ (∃ q, PeerOf (NewRegistry cfg r.db) a = .ok q ∧ q.port = p.port) ∨ some ⟨a, p.port⟩ ∈ seeds ∨
      (∃ c q l, Ev.message c q (.peers l) ∈ es ∧ some ⟨a, p.port⟩ ∈ l) ∨
      ∃ c q, Ev.connected c q ∈ es ∧ q.remote = some a ∧ q.conn.handshake.declared = .addrPort ⟨a, p.port⟩ := by
  obtain ⟨b, rfl⟩ := Peers.is4_iff.mp h4
  obtain ⟨v, hv, rfl⟩ := (path_reached R P).inv.loader.inv.reg.inv.peerOf.mp h
  by_cases hp : v.port = 0
  · exact Or.inl hp
  · right
    rcases (Dials.path R P).port b v hv hp with h | h | ⟨e, he, h | h⟩
    · exact Or.inl h
    · exact Or.inr (Or.inl h)
    · obtain ⟨c, p, l, rfl, hm⟩ := h; exact Or.inr (Or.inr (Or.inl ⟨c, p, l, he, hm⟩))
    · obtain ⟨c, p, rfl, hr, hd⟩ := h; exact Or.inr (Or.inr (Or.inr ⟨c, p, he, hr, hd⟩))

/-- peer 10.0.0.3 names its port in the handshake, names 9.9.9.9 in a list of peers, and is lost -/
def named : List Ev :=
  let p3 : Sender := ⟨{ Peers.Ex.conn 66 with handshake :=
    { (Peers.Ex.conn 66).handshake with declared := .addrPort ⟨Loading.Ex.peer3, 6870⟩ } }, some Loading.Ex.peer3⟩
  [.suggest .ok (3 * second) Loading.Ex.peer3, .connected (Loading.Ex.ctx 4) p3,
    .message (Loading.Ex.ctx 5) p3 (.peers [none, some ⟨Peers.Ex.ip 9 9 9 9, 7⟩, some ⟨Peers.Ex.ip 127 0 0 1, 8⟩]),
    .broken (Loading.Ex.ctx 6) p3, .respawn (700 * second) false]

/-- the seed peer, the peer in the list and the peer that named itself are dialled -/
example : Path Peers.Ex.lib Ex.start named ((Ex.run Peers.Ex.lib Ex.start named).getD Ex.start) ∧
    ((Ex.run Peers.Ex.lib Ex.start named).map fun s => s.dialled) =
      some [⟨Peers.Ex.ip 9 9 9 9, 7⟩, ⟨Loading.Ex.peer, 6868⟩, ⟨Loading.Ex.peer3, 6870⟩] := by
  refine ⟨Ex.run_path ?_, by decide +kernel⟩
  cases h : Ex.run Peers.Ex.lib Ex.start named with
  | none => exact absurd (congrArg Option.isSome h) (by decide +kernel)
  | some s => rfl

end Verif.Props
