import Verif.Services.Kept
import Verif.Services.FaultyEx
/-
Property C137: a peer does not lose its connection by what others do or by a failing disk.
-/

set_option autoImplicit false

namespace Verif.Services.Fine

open Verif
open Verif.Chains (Addr)
open Verif.Peers (Conn Lib Registry second)
open Verif.Loading (Ctx)
open Verif.Loading.Fine (Disk)
open Verif.KV (Fate)

variable {lib : Lib} {r : Registry} {D : Disk} {cfg : Peers.Config} {fs : Nat → Fate} {seeds : List (Option Peers.AddrPort)}
  {lk : Chains.Linkage} {listener : Bool} {es es' : List Ev} {tr tr' : List Loading.Fine.Answer} {s s' : Sys} {a : Addr} {cn : Conn}

/-- The connection that is listed for an address does not change, and none appears, as long as no connection of this address comes up or breaks and
no dial of this address fails: whatever the other peers and the loader do, and whatever reads and writes fail. -/
theorem C137_kept (h : Path lib s es tr s')
    (h1 : ∀ D c p, Ev.connected D c p ∈ es → p.remote ≠ some a) (h2 : ∀ D c p, Ev.broken D c p ∈ es → p.remote ≠ some a)
    (h3 : ∀ D f now, Ev.giveUp D f now a ∉ es) :
    (a, cn) ∈ s'.world.sh.reg.connections ↔ (a, cn) ∈ s.world.sh.reg.connections := by
  refine keep_path h (fun e he ht => ?_) cn
  cases e with
  | connected D c p => exact h1 D c p he ht
  | broken D c p => exact h2 D c p he ht
  | giveUp D f now a' => have : a' = a := ht; subst this; exact h3 D f now he
  | _ => exact ht

/-- A listed connection gets a ping whenever the timer of the pings fires. -/
theorem C137_pinged (hm : s.main ≠ .exited) (hd : s.dist = .ready) (hc : (a, cn) ∈ s.world.sh.reg.connections) (c : Ctx) :
    ∃ s' more, s.step lib (.ping c) = some (.ok s') ∧ s'.out = s.out ++ more ∧ Out.ping cn ∈ more ∧
      s'.world.sh = s.world.sh ∧ s'.dist = .ready := by
  have hs : s.step lib (.ping c) = some (s.handled (.ok (pingConnections c s.world.sh))) := by
    unfold Sys.step
    rw [if_neg hm]
    simp only [guarded, hd, decide_true, if_true]
  refine ⟨_, (pingConnections c s.world.sh).out, hs.trans (congrArg some rfl), rfl, ?_, rfl, rfl⟩
  refine List.mem_map.mpr ⟨cn, ?_, rfl⟩
  unfold Peers.Broadcast
  exact List.mem_map.mpr ⟨(a, cn), (c.env.mapOrder_perm _).mem_iff.mpr hc, rfl⟩

/-- A connection is not closed as long as it is not reported to have come up or broken, whatever happens to others and whatever reads and
writes fail. -/
theorem C137_open (R : Peers.Reachable lib r) (h0 : Path lib (Sys.start D cfg r.db fs seeds lk listener) es tr s) (h : Path lib s es' tr' s')
    (hc : Out.close cn ∉ s.out) (h1 : ∀ D c p, Ev.connected D c p ∈ es' → p.conn ≠ cn) (h2 : ∀ D c p, Ev.broken D c p ∈ es' → p.conn ≠ cn) :
    Out.close cn ∉ s'.out := by
  intro hm
  rcases open_path ((Recorded.start R D cfg fs seeds lk listener).path h0) h hm with h | ⟨D, c, p, h | h, e⟩
  · exact hc h
  · exact h1 D c p h e
  · exact h2 D c p h e

/-- The record of a peer whose connection is listed is never lost, though reads and writes fail. -/
theorem C137_record (R : Peers.Reachable lib r) (h : Path lib (Sys.start D cfg r.db fs seeds lk listener) es tr s)
    (hm : (a, cn) ∈ s.world.sh.reg.connections) : ∃ q, Peers.peer s.world.sh.reg.db a = .ok q := by
  have I := (Recorded.start R D cfg fs seeds lk listener).path h
  obtain ⟨b, rfl⟩ := Peers.is4_iff.mp (I.reg.inv.ipv4 _ _ hm).1
  obtain ⟨v, hv⟩ := Option.ne_none_iff_exists'.mp (I.covered b _ hm)
  rw [I.reg.inv.good.peer_v4, hv]
  exact ⟨_, rfl⟩

/-- A listed connection came up with the address it is listed under, and since then neither a connection of this address broke nor a dial of it
failed, unless the record of the peer could not be read at that moment. -/
theorem C137_listed (R : Peers.Reachable lib r) (h : Path lib (Sys.start D cfg r.db fs seeds lk listener) es tr s)
    (hm : (a, cn) ∈ s.world.sh.reg.connections) :
    ∃ pre D c p post, es = pre ++ .connected D c p :: post ∧ p.remote = some a ∧ p.conn = cn ∧
      (∀ D c p, Ev.broken D c p ∈ post → p.remote = some a → ∃ k, D.peers.bad k = true) ∧
      ∀ D f now, Ev.giveUp D f now a ∈ post → ∃ k, D.peers.bad k = true :=
  came_up (Recorded.start R D cfg fs seeds lk listener) (appendLoop_connections fs _ _ _) h hm

/-! ### a concrete execution -/

/-- another peer is dialled, connects, sends a score that cannot be stored, breaks while no record can be read, and a dial of it fails; meanwhile
the loader works and cannot read any blocks -/
def Ex.turmoil : List Ev :=
  [.suggest .good .ok (4 * second) Loading.Ex.peer3, .connected .good (Loading.Ex.ctx 5) Services.Ex.p3,
    .message Ex.noPeers (Loading.Ex.ctx 6) Services.Ex.p3 (.score (be64 5)), .timer (Loading.Ex.ctx 100), .go Ex.noBlocks, .go Ex.noBlocks,
    .broken Ex.noPeers (Loading.Ex.ctx 101) Services.Ex.p3, .go Ex.noBlocks, .ping (Loading.Ex.ctx 102)]

example :
    ∃ tr tr' x y, Peers.Reachable Peers.Ex.lib (Peers.Ex.run []) ∧
      Path Peers.Ex.lib (Sys.start .good Peers.Ex.cfg (Peers.Ex.run []).db Peers.Ex.ok [some ⟨Loading.Ex.peer, 6868⟩] Chains.Ex.l0 false)
        Ex.joined tr x ∧
      Path Peers.Ex.lib x Ex.turmoil tr' y ∧ Out.close Services.Ex.p2.conn ∉ x.out ∧
      (∀ D c p, Ev.connected D c p ∈ Ex.turmoil → p.remote ≠ some Loading.Ex.peer ∧ p.conn ≠ Services.Ex.p2.conn) ∧
      (∀ D c p, Ev.broken D c p ∈ Ex.turmoil → p.remote ≠ some Loading.Ex.peer ∧ p.conn ≠ Services.Ex.p2.conn) ∧
      (∀ D f now, Ev.giveUp D f now Loading.Ex.peer ∉ Ex.turmoil) ∧
      (Loading.Ex.peer, Services.Ex.p2.conn) ∈ x.world.sh.reg.connections ∧ y.main ≠ .exited ∧ y.dist = .ready ∧
      Out.close Services.Ex.p3.conn ∈ y.out ∧ Out.ping Services.Ex.p2.conn ∈ y.out := by
  have k1 : (Ex.run Peers.Ex.lib Ex.begin Ex.joined).any (fun x => (Ex.run Peers.Ex.lib x.2 Ex.turmoil).any (fun y =>
      decide (Out.close Services.Ex.p2.conn ∉ x.2.out) && decide ((Loading.Ex.peer, Services.Ex.p2.conn) ∈ x.2.world.sh.reg.connections) &&
      decide (y.2.main ≠ .exited) && decide (y.2.dist = .ready) && decide (Out.close Services.Ex.p3.conn ∈ y.2.out) &&
      decide (Out.ping Services.Ex.p2.conn ∈ y.2.out))) = true := by decide +kernel
  cases h1 : Ex.run Peers.Ex.lib Ex.begin Ex.joined with
  | none => rw [h1] at k1; cases k1
  | some x =>
    obtain ⟨tr, x⟩ := x
    rw [h1, Option.any_some] at k1
    cases h2 : Ex.run Peers.Ex.lib x Ex.turmoil with
    | none => simp only [h2] at k1; cases k1
    | some y =>
      obtain ⟨tr', y⟩ := y
      simp only [h2, Option.any_some, Bool.and_eq_true, decide_eq_true_eq] at k1
      refine ⟨tr, tr', x, y, ⟨_, [], rfl⟩, Ex.run_path h1, Ex.run_path h2, k1.1.1.1.1.1, ?_, ?_, ?_, k1.1.1.1.1.2, k1.1.1.1.2, k1.1.1.2, k1.1.2, k1.2⟩
      · intro D c p hm
        simp only [Ex.turmoil, List.mem_cons, List.not_mem_nil, or_false, reduceCtorEq, false_or, Ev.connected.injEq] at hm
        obtain ⟨_, _, rfl⟩ := hm
        exact ⟨by decide +kernel, by decide +kernel⟩
      · intro D c p hm
        simp only [Ex.turmoil, List.mem_cons, List.not_mem_nil, or_false, reduceCtorEq, false_or, Ev.broken.injEq] at hm
        obtain ⟨_, _, rfl⟩ := hm
        exact ⟨by decide +kernel, by decide +kernel⟩
      · intro D f now hm
        simp [Ex.turmoil] at hm

end Verif.Services.Fine
