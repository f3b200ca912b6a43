import Verif.Services.PortsReads
import Verif.Services.MessageLemmas
import Verif.Services.FaultyEx
import Verif.Props.ReadsPeers
import Verif.Props.Registry
/-
Property C101 for the lists that are sent to other peers.
-/

set_option autoImplicit false

namespace Verif.Services.Fine

open Verif
open Verif.Chains (Addr Linkage)
open Verif.Peers (Registry Lib AddrPort Config PeerOf second)
open Verif.Loading (Ctx)
open Verif.Loading.Fine (Disk)
open Verif.KV (Fate)

variable {lib : Lib} {r : Registry} {D : Disk} {cfg : Config} {fs : Nat → Fate} {seeds : List (Option AddrPort)}
  {lk : Linkage} {listener : Bool} {es : List Ev} {tr : List Loading.Fine.Answer} {s : Sys}

/-- A request for peers is answered, to the one who asked, whatever reads failed before and whatever the loader is doing.  The answer lists every
address once; it has the addresses and ports of exactly the peers in the Connected state except those whose entries the iterator missed.  Nothing
else changes.

Missing for the full claim: that no peer is left out without notice, see `C101_wrong`. -/
theorem C101_answer_partial (R : Peers.Reachable lib r) (P : Path lib (Sys.start D cfg r.db fs seeds lk listener) es tr s)
    (hm : s.main ≠ .exited) (hd : s.dist = .ready) (D' : Disk) (c : Ctx) (p : Sender) :
    ∃ s' l, s.step lib (.message D' c p .getPeers) = some (.ok s') ∧ s'.out = s.out ++ [.peersTo p.conn l] ∧
      s'.world.sh = s.world.sh ∧ s'.world.own = s.world.own ∧ s'.sent = s.sent ∧ s'.dist = .ready ∧
      (∀ b port, (b, port) ∈ l ↔
        D'.peers.missed b.1 = false ∧ ∃ q, PeerOf s.world.sh.reg (.v4 b) = .ok q ∧ q.state = .connected ∧ q.port = port) ∧
      (l.map (·.1)).Nodup := by
  have RR := (Dials.path R P).2
  obtain ⟨l0, h1, h2, h3, _⟩ := Peers.C39_list RR c.env
  obtain ⟨_, l1, fs, g1, g2, g3, _⟩ := Peers.C101_lists_partial RR D'.peers c.env
  rw [h1] at g1
  cases g1
  have h2' : ∀ q, q ∈ fs ↔ q ∈ l0 ∧ D'.peers.missed q.addr.slice = false := by
    intro q
    rw [g3.mem_iff, List.mem_filter]
    simp
  have hnd : (fs.map (·.addr)).Nodup := ((g3.map _).nodup_iff).mpr (h3.sublist (List.filter_sublist.map _))
  have hv4 : ∀ q, q ∈ fs → Peers.is4 q.addr = true := fun q hq => ((h2 q).mp ((h2' q).mp hq).1).1
  obtain ⟨xs, h5, h6⟩ := Peers.tcpAddrs_ok fs hv4
  have hmem : ∀ b port, (b, port) ∈ xs ↔ ∃ q, q ∈ fs ∧ q.addr = .v4 b ∧ q.port = port := by
    intro b port
    have : (b, port) ∈ xs ↔ some (b, port) ∈ xs.map some := by simp
    rw [this, h6, List.mem_map]
    constructor
    · rintro ⟨q, hq, e⟩
      obtain ⟨b', hb'⟩ := Peers.is4_iff.mp (hv4 q hq)
      simp [Peers.tcpAddr, hb', Peers.as4, Except.toOption] at e
      exact ⟨q, hq, by rw [hb', e.1], e.2⟩
    · rintro ⟨q, hq, e1, e2⟩
      exact ⟨q, hq, by simp [Peers.tcpAddr, e1, e2, Peers.as4, Except.toOption]⟩
  have hs : s.step lib (.message D' c p .getPeers) = some (s.handled (.ok { sh := s.world.sh, out := [.peersTo p.conn xs] })) := by
    unfold Sys.step
    rw [if_neg hm]
    simp only [guarded, hd, decide_true, if_true, receive_eq]
    simp only [handleMessage, handleGetPeers, g2, h5]
    rfl
  refine ⟨_, xs, hs.trans (congrArg some rfl), rfl, rfl, rfl, List.append_nil _, rfl, ?_, ?_⟩
  · intro b port
    rw [hmem]
    constructor
    · rintro ⟨q, hq, e1, e2⟩
      obtain ⟨k1, k2⟩ := (h2' q).mp hq
      obtain ⟨_, h, h'⟩ := (h2 q).mp k1
      rw [e1] at k2
      exact ⟨k2, q, e1 ▸ h, h', e2⟩
    · rintro ⟨k, q, e1, e2, e3⟩
      have ha : q.addr = .v4 b := (RR.inv.good.peer_ok e1).1
      exact ⟨q, (h2' q).mpr ⟨(h2 q).mpr ⟨by rw [ha]; rfl, by rw [ha]; exact e1, e2⟩, by rw [ha]; exact k⟩, ha, e3⟩
  · have := tcpAddrs_addr fs xs hv4 h5
    have h7 : (xs.map (fun x => Addr.v4 x.1)).Nodup := by rw [this]; exact hnd
    rw [List.Nodup, List.pairwise_map] at h7 ⊢
    exact h7.imp (fun h e => h (by rw [e]))

/-! ### a concrete execution -/

/-- the iterator finds nothing -/
def Ex.blind : Disk := ⟨.none, ⟨fun _ => false, fun _ => true⟩⟩

/-- the peer 10.0.0.2, which is connected and is being synchronised, asks for peers: while records can be read, and while the iterator finds none -/
def Ex.asked : List Ev :=
  Ex.joined ++ [.timer (Loading.Ex.ctx 100), .go .good, .message .good (Loading.Ex.ctx 101) Services.Ex.p2 .getPeers, .go .good,
    .message Ex.blind (Loading.Ex.ctx 102) Services.Ex.p2 .getPeers]

example : Peers.Reachable Peers.Ex.lib (Peers.Ex.run []) ∧
    ∃ tr s, Path Peers.Ex.lib (Sys.start .good Peers.Ex.cfg (Peers.Ex.run []).db Peers.Ex.ok [some ⟨Loading.Ex.peer, 6868⟩] Chains.Ex.l0 false)
      Ex.asked tr s ∧ s.main ≠ .exited ∧ s.dist = .ready ∧
      s.out = [.peersTo Services.Ex.p2.conn [(⟨[10, 0, 0, 2], rfl⟩, 0)], .peersTo Services.Ex.p2.conn []] := by
  have key : (Ex.after Ex.asked).any (fun s => decide (s.main ≠ .exited) && decide (s.dist = .ready) && decide (s.out =
      [.peersTo Services.Ex.p2.conn [(⟨[10, 0, 0, 2], rfl⟩, 0)], .peersTo Services.Ex.p2.conn []])) = true := by decide +kernel
  refine ⟨⟨_, [], rfl⟩, ?_⟩
  cases hs : Ex.after Ex.asked with
  | none => rw [hs] at key; cases key
  | some s =>
    rw [hs] at key
    obtain ⟨tr, ht⟩ := Ex.after_path hs
    simp only [Option.any_some, Bool.and_eq_true, decide_eq_true_eq] at key
    exact ⟨tr, s, ht, key.1.1, key.1.2, key.2⟩

end Verif.Services.Fine
