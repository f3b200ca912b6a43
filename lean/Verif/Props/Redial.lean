import Verif.Peers.Examples
import Verif.Peers.Redial
import Verif.Props.Dialing
/-
Properties C75 and C76: every usable address is offered for dialling.
-/

set_option autoImplicit false

namespace Verif.Peers

open Verif
open Verif.Chains (Addr BytesN Env)
open Verif.KV (Fate)

variable {lib : Lib} {r : Registry}

/-! ### C75 -/

/-- After a successful `UnregisterPeer` (the peer disconnected, or a dial failed) a peer that is
not hostile and has a port is handed out for dialling again, with its port, by the first
`TakeAvailableAddresses` call made ten minutes later (half a second more because of rounding), or
by an earlier one; whatever other calls are made in between, as long as none of them registers,
unregisters, marks or dials that address and the program is not restarted. -/
theorem C75_again (R : Reachable lib r) {f : Fate} {a : Addr} {t t' : Int} {p : Peer} {es : List Event}
    (hp : PeerOf r a = .ok p) (hs : p.state ≠ .hostile) (hport : p.port ≠ 0) (ha : a ≠ r.declared)
    (hun : (UnregisterPeer f t r a).2 = .ok ())
    (hes : ∀ e, e ∈ es → e.concerns a = false) (ht : t + delay + 500000000 ≤ t') :
    Offered lib (UnregisterPeer f t r a).1 (es ++ [⟨t', .take⟩]) ⟨a, p.port⟩ := by
  have hI : Inv (UnregisterPeer f t r a).1 := R.inv.step (lib := lib) (e := ⟨t, .unregister f a⟩)
  have hp : peer r.db a = .ok p := hp
  have key : ∃ b, a = .v4 b ∧ Free (UnregisterPeer f t r a).1 b p.port (roundSec (t + delay) * second) := by
    revert hun
    unfold UnregisterPeer
    rw [hp]
    intro h
    obtain ⟨b, hb, _, _, hdb⟩ := putPeer_ok h
    have e1 := (R.inv.good.peer_ok hp).1
    have hb : p.addr = .v4 b := hb
    refine ⟨b, e1.symm.trans hb, ⟨({ p with nextAttempt := roundSec (t + delay), conn := none } : Peer).toValue, ?_, hs, rfl,
      Int.le_refl _⟩, hport, ?_, ?_, ?_⟩
    · show view (putPeer f r.db _).1 b = _
      rw [hdb, view_put, if_pos rfl]
    · rw [← hb, e1]; exact ha
    · rintro ⟨c, hm⟩
      exact (mem_delConn.mp hm).2 (hb.symm.trans e1)
    · show Addr.v4 b ∉ delPending r.pending a
      rw [← hb, e1]
      simp [delPending]
  obtain ⟨b, rfl, hF⟩ := key
  refine hF.offered hI hes ?_
  unfold roundSec second
  unfold delay second at *
  omega

/-- The same when the write of the record is refused by the database: the address is free at once,
at the time that is on record. -/
theorem C75_write_failed (R : Reachable lib r) {a : Addr} {t t' : Int} {p : Peer} {es : List Event}
    (hp : PeerOf r a = .ok p) (h4 : is4 a = true) (hs : p.state ≠ .hostile) (hport : p.port ≠ 0) (ha : a ≠ r.declared)
    (hes : ∀ e, e ∈ es → e.concerns a = false) (ht : p.nextAttempt * second ≤ t') :
    Offered lib (UnregisterPeer .fail t r a).1 (es ++ [⟨t', .take⟩]) ⟨a, p.port⟩ := by
  have hI : Inv (UnregisterPeer .fail t r a).1 := R.inv.step (lib := lib) (e := ⟨t, .unregister .fail a⟩)
  obtain ⟨b, rfl⟩ := is4_iff.mp h4
  obtain ⟨v, hv, rfl⟩ := R.inv.peerOf.mp hp
  have hp : peer r.db (.v4 b) = .ok (v.toPeer (.v4 b)) := hp
  refine Free.offered (T := v.nextAttempt * second) hI ?_ hes ht
  unfold UnregisterPeer
  rw [hp]
  refine ⟨⟨v, ?_, hs, rfl, Int.le_refl _⟩, hport, ha, ?_, ?_⟩
  · rcases putPeer_db .fail r.db { v.toPeer (.v4 b) with nextAttempt := roundSec (t + delay), conn := none } with
      h | ⟨_, _, _, hf, _⟩
    · show view (putPeer _ _ _).1 b = _
      rw [h]; exact hv
    · exact absurd rfl hf
  · rintro ⟨c, hm⟩
    exact (mem_delConn.mp hm).2 rfl
  · show Addr.v4 b ∉ delPending r.pending (.v4 b)
    simp [delPending]

/-- The hypotheses are met: a connected peer with a port disconnects at 20 s, another peer comes
and goes, and at 621 s the address is offered. -/
example :
    let r := Ex.run [Ex.seeds, Ex.at_ 10 .take, Ex.at_ 11 (.suggest .ok (Ex.ip 1 1 1 1)),
      Ex.at_ 12 (.unregister .ok (Ex.ip 1 1 1 1))]
    let es := [Ex.at_ 13 (.suggest .ok (Ex.ip 2 2 2 2)), Ex.at_ 14 .take, Ex.at_ 15 (.updateScore .ok (Ex.ip 1 1 1 1) 7)]
    ((PeerOf r (Ex.ip 1 1 1 1)).map (fun p => (p.state, p.port))) = .ok (.unknown, 6868) ∧
    (UnregisterPeer .ok (20 * second) r (Ex.ip 1 1 1 1)).2 = .ok () ∧
    (∀ e, e ∈ es → e.concerns (Ex.ip 1 1 1 1) = false) ∧
    (TakeAvailableAddresses (621 * second)
      (exec Ex.lib (UnregisterPeer .ok (20 * second) r (Ex.ip 1 1 1 1)).1 es)).2 = .ok [⟨Ex.ip 1 1 1 1, 6868⟩] := by
  decide +kernel

/-! ### C76 -/

/-- An address that a peer announces and that is not yet known (IPv4, not loopback, not our own,
with a port, not connected) is handed out by the next `TakeAvailableAddresses` call after it is
added, whatever the time and whatever other calls are made in between, as long as none of them
registers, unregisters, marks or dials that address and the program is not restarted. -/
theorem C76_announced (R : Reachable lib r) {fs : Nat → Fate} {l : List (Option AddrPort)} (hfs : ∀ i, fs i = .ok)
    {ap : AddrPort} (hf : First l ap) (h4 : is4 ap.addr = true) (hl : isLoopback ap.addr = false)
    (hd : ap.addr ≠ r.declared) (hk : PeerOf r ap.addr = fail .notFound) (hport : ap.port ≠ 0)
    (hc : ¬ ∃ c, (ap.addr, c) ∈ r.connections) {es : List Event} {t' : Int}
    (hes : ∀ e, e ∈ es → e.concerns ap.addr = false) (ht : zeroTime * second ≤ t') :
    Offered lib (AppendAddresses fs r l).1 (es ++ [⟨t', .take⟩]) ap := by
  have hI : Inv (AppendAddresses fs r l).1 := R.inv.step (lib := lib) (e := ⟨0, .append fs l⟩)
  obtain ⟨a, port⟩ := ap
  obtain ⟨b, e⟩ := is4_iff.mp h4
  have e : a = .v4 b := e
  subst e
  refine Free.offered (T := zeroTime * second) hI ?_ hes ht
  have hnone := R.inv.peerOf_none.mp hk
  obtain ⟨db', added, k, h, A⟩ := append_spec fs l r 0 R.inv.good
  have hin : (⟨.v4 b, port⟩ : AddrPort) ∈ added := by
    refine A.complete hfs _ hf ?_ ?_
    · simp only [acceptable, Bool.and_eq_true, Bool.not_eq_true', decide_eq_true_eq]
      exact ⟨⟨h4, hl⟩, hd⟩
    · intro b' e; cases e; exact hnone
  unfold AppendAddresses
  rw [h]
  refine ⟨⟨_, A.new _ hin b rfl, by simp [newPeer, Peer.toValue], rfl, Int.le_refl _⟩, hport, hd, hc, ?_⟩
  intro hm
  obtain ⟨b', e, hb⟩ := R.pendingKnown _ hm
  cases e
  exact hb hnone

/-- The hypotheses are met by a fresh announcement; the address is offered although the other
announced address is being dialled. -/
example :
    let r := Ex.run [Ex.seeds, Ex.at_ 10 .take]
    let l := [none, some ⟨Ex.ip 1 1 1 1, 6868⟩, some ⟨Ex.ip 7 7 7 7, 7000⟩]
    PeerOf r (Ex.ip 7 7 7 7) = fail .notFound ∧ r.connections = [] ∧
    (TakeAvailableAddresses (20 * second) (AppendAddresses Ex.ok r l).1).2 = .ok [⟨Ex.ip 7 7 7 7, 7000⟩] := by
  decide +kernel

end Verif.Peers
