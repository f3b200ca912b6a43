import Verif.Services.ClosedReads
import Verif.Services.FaultyEx
/-
Property C136, with failing reads and with the loader at work.
-/

set_option autoImplicit false

namespace Verif.Services.Fine

open Verif
open Verif.Chains (Addr)
open Verif.Peers (Conn Lib Registry second)
open Verif.Loading.Fine (Disk)
open Verif.KV (Fate)

variable {lib : Lib} {r : Registry} {D : Disk} {cfg : Peers.Config} {fs : Nat → Fate} {seeds : List (Option Peers.AddrPort)}
  {lk : Chains.Linkage} {listener : Bool} {es : List Ev} {tr : List Loading.Fine.Answer} {s : Sys}

/-- After a connection has been closed, no ping is sent to it, whatever reads and writes fail and whatever the loader is doing: all that is needed
is that the record of a peer can be read at the moment when its connection breaks.  Without that the claim is false (`C136_failed_read`).

Missing: that nothing else is sent to it; there the claim is false (`C136_list`, `C136_loader`). -/
theorem C136_reads_partial (R : Peers.Reachable lib r) (h : Path lib (Sys.start D cfg r.db fs seeds lk listener) es tr s) (O : Orderly es)
    (G : Legible es) : ∀ o1 cn o2, s.out = o1 ++ .close cn :: o2 → Out.ping cn ∉ o2 :=
  (apart R h O G).1.spared

/-- Under the same conditions every connection on the list, from which the loader picks the peer to synchronise with, is open, came up with the
address it is listed under, and is the connection of a peer that has a record. -/
theorem C136_listed_reads_partial (R : Peers.Reachable lib r) (h : Path lib (Sys.start D cfg r.db fs seeds lk listener) es tr s)
    (O : Orderly es) (G : Legible es) {a : Addr} {cn : Conn} (hm : (a, cn) ∈ s.world.sh.reg.connections) :
    Out.close cn ∉ s.out ∧ (∃ D c p, Ev.connected D c p ∈ es ∧ p.conn = cn ∧ p.remote = some a) ∧
      ∃ q, Peers.peer s.world.sh.reg.db a = .ok q := by
  obtain ⟨A, I⟩ := apart R h O G
  refine ⟨A.listedOpen a cn hm, A.listed a cn hm, ?_⟩
  obtain ⟨b, rfl⟩ := Peers.is4_iff.mp (I.reg.inv.ipv4 _ _ hm).1
  obtain ⟨v, hv⟩ := Option.ne_none_iff_exists'.mp (I.covered b _ hm)
  rw [I.reg.inv.good.peer_v4, hv]
  exact ⟨_, rfl⟩

/-! ### where the claim is false -/

/-- the timer of the loader fires, the loader reads the list of connections, and then the only connection breaks -/
def Ex.snapped : List Ev := Ex.joined ++ [.timer (Loading.Ex.ctx 100), .go .good, .broken .good (Loading.Ex.ctx 101) Services.Ex.p2]

/-- While the loader is choosing a peer the connections may change: it begins a synchronisation over a connection that has been closed, though no
read and no write fails.  (If the loader could not be interrupted, this would be impossible: `C136_begun_partial`.) -/
theorem C136_begun_late : ∃ tr x tr' y,
    Path Peers.Ex.lib Ex.begin Ex.snapped tr x ∧ x.out = [.close Services.Ex.p2.conn] ∧ x.world.sh.reg.connections = [] ∧
    x.world.own.active = false ∧ x.world.own.out = [] ∧
    Path Peers.Ex.lib Ex.begin (Ex.snapped ++ Ex.go 4) tr' y ∧ y.world.own.active = true ∧
    y.world.own.out.map (·.to) = [Services.Ex.p2.conn] := by
  have k1 : (Ex.after Ex.snapped).any (fun x => decide (x.out = [.close Services.Ex.p2.conn]) && x.world.sh.reg.connections.isEmpty &&
      !x.world.own.active && x.world.own.out.isEmpty) = true := by decide +kernel
  have k2 : (Ex.after (Ex.snapped ++ Ex.go 4)).any (fun y => y.world.own.active &&
      decide (y.world.own.out.map (·.to) = [Services.Ex.p2.conn])) = true := by decide +kernel
  cases h1 : Ex.after Ex.snapped with
  | none => rw [h1] at k1; cases k1
  | some x =>
    cases h2 : Ex.after (Ex.snapped ++ Ex.go 4) with
    | none => rw [h2] at k2; cases k2
    | some y =>
      rw [h1] at k1
      rw [h2] at k2
      obtain ⟨tr, p1⟩ := Ex.after_path h1
      obtain ⟨tr', p2⟩ := Ex.after_path h2
      simp only [Option.any_some, Bool.and_eq_true, decide_eq_true_eq, List.isEmpty_iff, Bool.not_eq_true'] at k1 k2
      exact ⟨tr, x, tr', y, p1, k1.1.1.1, k1.1.1.2, k1.1.2, k1.2, p2, k2.1, k2.2⟩

/-! ### a concrete execution -/

/-- a peer is connected; another one cannot be added since no record can be read; the loader asks the first one for ids and is in the middle of its
work when the connection breaks, before and after which pings are sent; blocks cannot be read then -/
def Ex.severed : List Ev :=
  Ex.joined ++ [.suggest Ex.noPeers .ok (4 * second) Loading.Ex.peer3, .timer (Loading.Ex.ctx 100), .go .good, .go .good,
    .ping (Loading.Ex.ctx 101), .broken Ex.noBlocks (Loading.Ex.ctx 102) Services.Ex.p2, .go Ex.noBlocks, .ping (Loading.Ex.ctx 103)]

theorem Ex.severed_orderly : Orderly Ex.severed := by
  refine ⟨by decide +kernel, ?_, ?_⟩
  · intro D c p D' c' p' h1 h2 _
    simp only [Ex.severed, Ex.joined, List.cons_append, List.nil_append, List.mem_cons, List.not_mem_nil, or_false, reduceCtorEq, false_or,
      Ev.connected.injEq, Ev.broken.injEq] at h1 h2
    obtain ⟨_, _, rfl⟩ := h2
    obtain ⟨_, _, rfl⟩ := h1
    rfl
  · intro pre D c p post e
    rcases pre with _ | ⟨_, _ | ⟨_, _ | ⟨_, _ | ⟨_, _ | ⟨_, _ | ⟨_, _ | ⟨_, _ | ⟨_, _ | ⟨_, _ | ⟨_, _ | ⟨_, pre⟩⟩⟩⟩⟩⟩⟩⟩⟩⟩⟩ <;>
      first
        | (cases e; done)
        | (cases e; decide +kernel)
        | (have := congrArg List.length e; simp [Ex.severed, Ex.joined] at this)

example : Peers.Reachable Peers.Ex.lib (Peers.Ex.run []) ∧ Orderly Ex.severed ∧ Legible Ex.severed ∧
    ∃ tr s, Path Peers.Ex.lib (Sys.start .good Peers.Ex.cfg (Peers.Ex.run []).db Peers.Ex.ok [some ⟨Loading.Ex.peer, 6868⟩] Chains.Ex.l0 false)
      Ex.severed tr s ∧ s.out = [.ping Services.Ex.p2.conn, .close Services.Ex.p2.conn] := by
  refine ⟨⟨_, [], rfl⟩, Ex.severed_orderly, ?_, ?_⟩
  · intro D c p hm k
    simp only [Ex.severed, Ex.joined, List.cons_append, List.nil_append, List.mem_cons, List.not_mem_nil, or_false, reduceCtorEq, false_or,
      Ev.broken.injEq] at hm
    obtain ⟨rfl, _⟩ := hm
    rfl
  · have key : (Ex.after Ex.severed).any (fun s => decide (s.out = [.ping Services.Ex.p2.conn, .close Services.Ex.p2.conn])) = true := by
      decide +kernel
    cases hs : Ex.after Ex.severed with
    | none => rw [hs] at key; cases key
    | some s =>
      rw [hs] at key
      obtain ⟨tr, ht⟩ := Ex.after_path hs
      exact ⟨tr, s, ht, of_decide_eq_true key⟩

end Verif.Services.Fine
