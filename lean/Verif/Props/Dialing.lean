import Verif.Peers.Examples
import Verif.Peers.Dial
/-
Properties C29 - C33 and C38: which addresses are dialled.
-/

set_option autoImplicit false

namespace Verif.Peers

open Verif
open Verif.Chains (Addr BytesN Env)
open Verif.KV (Fate)

variable {lib : Lib} {r : Registry}

/-! ### C29 -/

/-- `TakeAvailableAddresses` always answers, and the answer is exactly the set of stored,
non-hostile peers with a port, other than ourselves, whose next attempt time has come, that are
neither connected nor pending; no address occurs twice. -/
theorem C29_available (R : Reachable lib r) (now : Int) :
    ∃ r' l, TakeAvailableAddresses now r = (r', .ok l) ∧
      (∀ ap, ap ∈ l ↔ is4 ap.addr = true ∧ ∃ p, PeerOf r ap.addr = .ok p ∧ p.port = ap.port ∧
        p.state ≠ .hostile ∧ p.port ≠ 0 ∧ ap.addr ≠ r.declared ∧ p.nextAttempt * second ≤ now ∧
        (¬ ∃ c, (ap.addr, c) ∈ r.connections) ∧ ap.addr ∉ r.pending) ∧
      (l.map (·.addr)).Nodup := by
  obtain ⟨l, pend', h1, h2, h3, _⟩ := R.inv.take now
  refine ⟨_, l, h1, ?_, h3⟩
  rintro ⟨a, port⟩
  rw [h2]
  constructor
  · rintro ⟨b, v, hv, ⟨g1, g2, g3, g4, g5⟩, hp, e⟩
    cases e
    exact ⟨rfl, v.toPeer (.v4 b), R.inv.peerOf.mpr ⟨v, hv, rfl⟩, rfl, g1, g2, g3, g4, g5, hp⟩
  · rintro ⟨h4, p, hpo, hport, g1, g2, g3, g4, g5, hp⟩
    obtain ⟨b, e⟩ := is4_iff.mp h4
    have e : a = .v4 b := e
    subst e
    obtain ⟨v, hv, rfl⟩ := R.inv.peerOf.mp hpo
    refine ⟨b, v, hv, ⟨g1, g2, g3, g4, g5⟩, hp, ?_⟩
    have hport : v.port = port := hport
    rw [hport]

/-- Of three announced addresses the loopback one is not stored and the connected one is not
dialled. -/
example : (TakeAvailableAddresses (100 * second)
    (Ex.run [Ex.seeds, Ex.at_ 1 (.suggest .ok (Ex.ip 2 2 2 2)), Ex.at_ 2 (.register .ok (Ex.ip 2 2 2 2) (Ex.conn 65) (Ex.hs 65))])).2
      = .ok [⟨Ex.ip 1 1 1 1, 6868⟩] := by decide +kernel

/-! ### C30 -/

/-- An address handed out for dialling is not handed out again, whatever happens in between,
unless `RegisterPeer`, `UnregisterPeer` or `MarkAsHostile` is called for it or the program is
restarted. -/
theorem C30_not_twice (R : Reachable lib r) {now now' : Int} {r1 : Registry} {l l' : List AddrPort}
    (h : TakeAvailableAddresses now r = (r1, .ok l)) {ap : AddrPort} (hap : ap ∈ l) {es : List Event}
    (hrel : ∀ e, e ∈ es → e.releases ap.addr = false)
    (h' : (TakeAvailableAddresses now' (exec lib r1 es)).2 = .ok l') : ∀ ap', ap' ∈ l' → ap'.addr ≠ ap.addr := by
  obtain ⟨l0, pend', h1, _, _, h4⟩ := R.inv.take now
  rw [h1] at h
  have hr1 := (Prod.mk.inj h).1
  have hl := Except.ok.inj (Prod.mk.inj h).2
  subst hl
  have hI1 : Inv r1 := by
    have := R.inv.step (lib := lib) (e := ⟨now, .take⟩)
    simp only [step, h1] at this
    rw [hr1] at this; exact this
  have hp1 : ap.addr ∈ r1.pending := by
    rw [← hr1]; exact (h4 ap.addr).mpr (Or.inr ⟨ap, hap, rfl⟩)
  have hp2 := pending_exec (lib := lib) hI1 hp1 hrel
  obtain ⟨l2, pend2, g1, g2, _, _⟩ := (hI1.exec (lib := lib) es).take now'
  rw [g1] at h'
  have hl := Except.ok.inj h'
  subst hl
  intro ap' hap' e
  obtain ⟨b, v, _, _, hn, rfl⟩ := (g2 ap').mp hap'
  have e : Addr.v4 b = ap.addr := e
  exact hn (by rw [e]; exact hp2)

/-- After a dial the address is not offered even though other calls happen in between; after
`UnregisterPeer` and ten minutes it is. -/
example :
    (TakeAvailableAddresses (5000 * second) (Ex.run [Ex.seeds, Ex.at_ 10 .take,
      Ex.at_ 11 (.suggest .ok (Ex.ip 1 1 1 1)), Ex.at_ 12 (.unregister .ok (Ex.ip 2 2 2 2)), Ex.seeds])).2
        = .ok [⟨Ex.ip 2 2 2 2, 6868⟩] ∧
    (TakeAvailableAddresses (5000 * second) (Ex.run [Ex.seeds, Ex.at_ 10 .take,
      Ex.at_ 12 (.unregister .ok (Ex.ip 1 1 1 1))])).2 = .ok [⟨Ex.ip 1 1 1 1, 6868⟩] := by decide +kernel

/-! ### C31 -/

/-- After a successful `UnregisterPeer` the address is not dialled for ten minutes (the stored
time is rounded to a second, so half a second may be missing), whatever calls follow, as long as
the peer does not register and the clock does not go back. -/
theorem C31_unregister (R : Reachable lib r) {f : Fate} {a : Addr} {t t' : Int} {es : List Event}
    (hun : (UnregisterPeer f t r a).2 = .ok ())
    (hes : ∀ e, e ∈ es → t ≤ e.now ∧ e.registers a = false)
    (ht : t' + 500000000 ≤ t + delay) {l : List AddrPort}
    (hl : (TakeAvailableAddresses t' (exec lib (UnregisterPeer f t r a).1 es)).2 = .ok l) :
    ∀ ap, ap ∈ l → ap.addr ≠ a := by
  have hI : Inv (UnregisterPeer f t r a).1 := R.inv.step (lib := lib) (e := ⟨t, .unregister f a⟩)
  have hnb : ∃ b, a = .v4 b ∧ NotBefore (UnregisterPeer f t r a).1 b (roundSec (t + delay)) := by
    revert hun
    unfold UnregisterPeer
    cases hp : peer r.db a with
    | error e => intro h; simp at h
    | ok p =>
      intro h
      obtain ⟨b, ha, _, _, hdb⟩ := putPeer_ok h
      have ha : p.addr = .v4 b := ha
      refine ⟨b, (R.inv.good.peer_ok hp).1.symm.trans ha, ?_⟩
      refine ⟨({ p with nextAttempt := roundSec (t + delay), conn := none } : Peer).toValue, ?_, Int.le_refl _⟩
      show view (putPeer f r.db _).1 b = _
      rw [hdb, view_put, if_pos rfl]
  obtain ⟨b, rfl, hnb⟩ := hnb
  exact (hnb.exec hI hes).take (hI.exec es) ht hl

/-- The same after a version has been suggested for a peer that is not known as connected, that
is at the start of every dial of such a peer. -/
theorem C31_suggest (R : Reachable lib r) {f : Fate} {a : Addr} {t t' : Int} {es : List Event} {ver : Version}
    (hun : (SuggestVersion f t r a).2 = .ok ver) (hst : ∀ p, PeerOf r a = .ok p → p.state ≠ .connected)
    (hes : ∀ e, e ∈ es → t ≤ e.now ∧ e.registers a = false)
    (ht : t' + 500000000 ≤ t + delay) {l : List AddrPort}
    (hl : (TakeAvailableAddresses t' (exec lib (SuggestVersion f t r a).1 es)).2 = .ok l) :
    ∀ ap, ap ∈ l → ap.addr ≠ a := by
  have hI : Inv (SuggestVersion f t r a).1 := R.inv.step (lib := lib) (e := ⟨t, .suggest f a⟩)
  have hnb : ∃ b, a = .v4 b ∧ NotBefore (SuggestVersion f t r a).1 b (roundSec (t + delay)) := by
    have put : ∀ q : Peer, q.addr = a → q.nextAttempt = roundSec (t + delay) →
        (do let _ ← (putPeer f r.db q).2; .ok ver : Go Version) = .ok ver →
        ∃ b, a = .v4 b ∧ NotBefore { r with db := (putPeer f r.db q).1 } b (roundSec (t + delay)) := by
      intro q hq hn h
      obtain ⟨u, hu, _⟩ := go_bind_eq_ok.mp h
      obtain ⟨b, ha, _, _, hdb⟩ := putPeer_ok hu
      refine ⟨b, hq.symm.trans ha, q.toValue, ?_, Int.le_of_eq hn.symm⟩
      show view (putPeer f r.db q).1 b = _
      rw [hdb, view_put, if_pos rfl]
    revert hun
    unfold SuggestVersion
    cases hp : peer r.db a with
    | ok p =>
      simp only
      cases hps : p.state with
      | connected => exact absurd hps (hst p hp)
      | hostile => intro h; simp [fail] at h
      | unknown =>
        simp only
        cases hnv : nextVersion r.versions p.version with
        | error e => intro h; simp at h
        | ok ver' =>
          intro h
          have : ver' = ver := by
            obtain ⟨u, _, h2⟩ := go_bind_eq_ok.mp h
            exact Except.ok.inj h2
          subst this
          exact put _ (R.inv.good.peer_ok hp).1 rfl h
    | error e =>
      split
      · cases hbv : bestVersion r.versions with
        | error e => intro h; simp at h
        | ok ver' =>
          intro h
          have : ver' = ver := by
            obtain ⟨u, _, h2⟩ := go_bind_eq_ok.mp h
            exact Except.ok.inj h2
          subst this
          exact put _ rfl rfl h
      · intro h; simp at h
      · rename_i h; simp at h
  obtain ⟨b, rfl, hnb⟩ := hnb
  exact (hnb.exec hI hes).take (hI.exec es) ht hl

/-- The hypotheses are met by a dial that fails: the address comes back after ten minutes and not
before. -/
example :
    let r := Ex.run [Ex.seeds, Ex.at_ 10 .take, Ex.at_ 11 (.suggest .ok (Ex.ip 1 1 1 1))]
    (UnregisterPeer .ok (12 * second) r (Ex.ip 1 1 1 1)).2 = .ok () ∧
    (TakeAvailableAddresses (611 * second) (UnregisterPeer .ok (12 * second) r (Ex.ip 1 1 1 1)).1).2 = .ok [] ∧
    (TakeAvailableAddresses (612 * second) (UnregisterPeer .ok (12 * second) r (Ex.ip 1 1 1 1)).1).2
      = .ok [⟨Ex.ip 1 1 1 1, 6868⟩] := by decide +kernel

/-- The half second is really lost: unregistered at 12.4 s, the address is offered at 612.0 s. -/
theorem C31_rounding :
    let r := Ex.run [Ex.seeds, Ex.at_ 10 .take]
    let r' := (UnregisterPeer .ok (12 * second + 400000000) r (Ex.ip 1 1 1 1)).1
    612 * second < 12 * second + 400000000 + delay ∧
    (TakeAvailableAddresses (612 * second) r').2 = .ok [⟨Ex.ip 1 1 1 1, 6868⟩] := by decide +kernel

/-! ### C32 -/

/-- `AppendAddresses` on any list.  `added` are the addresses it adds: each is the first mention
in the list of an IPv4, non-loopback, foreign address that was not known; each is stored as an
unknown peer with its port; no other record, connection, pending address or setting changes.  The
number returned is the number of added addresses (one less when the last write was applied but
reported as failed).  When no write fails every such address is added. -/
theorem C32_append (R : Reachable lib r) (fs : Nat → Fate) (l : List (Option AddrPort)) :
    ∃ (db' : DB) (added : List AddrPort) (n : Nat), AppendAddresses fs r l = ({ r with db := db' }, .ok n) ∧
      (added.map (·.addr)).Nodup ∧
      (∀ ap, ap ∈ added → First l ap ∧ is4 ap.addr = true ∧ isLoopback ap.addr = false ∧ ap.addr ≠ r.declared ∧
        PeerOf r ap.addr = fail .notFound ∧
        PeerOf { r with db := db' } ap.addr =
          .ok ⟨ap.addr, ap.port, 0, [], ⟨0, 0, 0⟩, .unknown, zeroTime, none, none⟩) ∧
      (∀ a, is4 a = true → (∀ ap, ap ∈ added → ap.addr ≠ a) → PeerOf { r with db := db' } a = PeerOf r a) ∧
      ((∀ i, fs i ≠ .lostAck) → n = added.length) ∧ (n ≤ added.length ∧ added.length ≤ n + 1) ∧
      ((∀ i, fs i = .ok) → ∀ ap, First l ap → is4 ap.addr = true → isLoopback ap.addr = false →
        ap.addr ≠ r.declared → PeerOf r ap.addr = fail .notFound → ap ∈ added) := by
  obtain ⟨db', added, k, h, A⟩ := append_spec fs l r 0 R.inv.good
  refine ⟨db', added, k, by rw [AppendAddresses, h]; simp, A.nodup, ?_, ?_, ?_, ?_, ?_⟩
  · rintro ⟨a, port⟩ hm
    obtain ⟨h1, h2, h3⟩ := A.sound _ hm
    simp only [acceptable, Bool.and_eq_true, Bool.not_eq_true', decide_eq_true_eq] at h2
    obtain ⟨b, e⟩ := is4_iff.mp h2.1.1
    have e : a = .v4 b := e
    subst e
    refine ⟨h1, rfl, h2.1.2, h2.2, R.inv.peerOf_none.mpr (h3 b rfl), ?_⟩
    unfold PeerOf
    simp only [A.good.peer_v4, A.new _ hm b rfl]
    rfl
  · intro a h4 hne
    obtain ⟨b, rfl⟩ := is4_iff.mp h4
    unfold PeerOf
    simp only [A.good.peer_v4, R.inv.good.peer_v4, A.same b hne]
  · intro hl
    rcases A.count with h | ⟨_, i, h⟩
    · exact h.symm
    · exact absurd h (hl i)
  · rcases A.count with h | ⟨h, _⟩ <;> omega
  · rintro hf ⟨a, port⟩ h1 h2 h3 h4 h5
    refine A.complete hf _ h1 ?_ ?_
    · simp only [acceptable, Bool.and_eq_true, Bool.not_eq_true', decide_eq_true_eq]
      exact ⟨⟨h2, h3⟩, h4⟩
    · intro b e
      have e : a = .v4 b := e
      subst e
      exact R.inv.peerOf_none.mp h5

/-- A known peer, a duplicate, garbage, a loopback and our own address are not added. -/
example : (AppendAddresses Ex.ok (Ex.run [Ex.seeds]) [none, some ⟨Ex.ip 1 1 1 1, 9⟩, some ⟨Ex.ip 3 3 3 3, 7⟩,
    some ⟨Ex.ip 127 9 9 9, 1⟩, some ⟨Ex.ip 10 0 0 1, 1⟩, some ⟨Ex.ip 3 3 3 3, 8⟩, some ⟨.zero, 1⟩]).2 = .ok 1 := by
  decide +kernel

/-! ### C33 -/

/-- A peer stored as hostile is not offered for dialling. -/
theorem C33_not_dialled (R : Reachable lib r) {a : Addr} {p : Peer} (hp : PeerOf r a = .ok p)
    (hs : p.state = .hostile) (now : Int) {l : List AddrPort} (hl : (TakeAvailableAddresses now r).2 = .ok l) :
    ∀ ap, ap ∈ l → ap.addr ≠ a := by
  obtain ⟨l0, pend', h1, h2, _, _⟩ := R.inv.take now
  rw [h1] at hl
  have hl := Except.ok.inj hl
  subst hl
  intro ap hap e
  obtain ⟨b, v, hv, hr, _, rfl⟩ := (h2 ap).mp hap
  have e : Addr.v4 b = a := e
  subst e
  obtain ⟨v', hv', rfl⟩ := R.inv.peerOf.mp hp
  rw [hv] at hv'; cases hv'
  exact hr.1 hs

/-- No version is suggested for a hostile peer, so neither `Accept` nor `Connect` goes on, and the
registry does not change. -/
theorem C33_no_version {a : Addr} {p : Peer} (hp : PeerOf r a = .ok p) (hs : p.state = .hostile) (f : Fate) (now : Int) :
    SuggestVersion f now r a = (r, fail (.other "peer is hostile")) := by
  have hp : peer r.db a = .ok p := hp
  simp [SuggestVersion, hp, hs]

/-- Full claim of C33: no history makes a hostile peer non-hostile.  It does not hold
(`C33_revived`), because `RegisterPeer` does not look at the stored state of a known peer.  Proved
here: no history without a `RegisterPeer` call for that address does. -/
theorem C33_stays_hostile_partial (R : Reachable lib r) {b : BytesN 4} {p : Peer} (hp : PeerOf r (.v4 b) = .ok p)
    (hs : p.state = .hostile) {es : List Event} (hreg : ∀ e, e ∈ es → e.registers (.v4 b) = false) :
    ∃ p', PeerOf (exec lib r es) (.v4 b) = .ok p' ∧ p'.state = .hostile := by
  have key : ∀ (r : Registry), Inv r → IsHostile r b → IsHostile (exec lib r es) b := by
    clear R hp
    induction es with
    | nil => exact fun r _ h => h
    | cons e es ih =>
      intro r I h
      exact ih (fun e' h' => hreg e' (List.mem_cons_of_mem _ h')) _ I.step (h.step I (hreg e (by simp)))
  obtain ⟨v, hv, rfl⟩ := R.inv.peerOf.mp hp
  obtain ⟨v', hv', hs'⟩ := key r R.inv ⟨v, hv, hs⟩
  exact ⟨_, (R.inv.exec es).peerOf.mpr ⟨v', hv', rfl⟩, hs'⟩

/-- With the connection manager as the only caller, and no handshake with the peer in flight at
the moment it is stored as hostile, it stays hostile for ever. -/
theorem C33_managed_partial (R : Reachable lib r) {b : BytesN 4} {p : Peer} (hp : PeerOf r (.v4 b) = .ok p)
    (hs : p.state = .hostile) {es : List Event} (hm : Managed lib r es (.v4 b)) :
    ∃ p', PeerOf (exec lib r es) (.v4 b) = .ok p' ∧ p'.state = .hostile := by
  refine C33_stays_hostile_partial R hp hs ?_
  -- no prefix contains a registration
  have key : ∀ n, ∀ es1 es2, es = es1 ++ es2 → es1.length = n → ∀ e, e ∈ es1 → e.registers (.v4 b) = false := by
    intro n
    induction n with
    | zero =>
      intro es1 es2 _ hl e he
      rw [List.length_eq_zero_iff.mp hl] at he; simp at he
    | succ n ih =>
      intro es1 es2 hes hl e he
      have hne : es1 ≠ [] := by intro h; rw [h] at hl; simp at hl
      obtain ⟨es0, x, rfl⟩ : ∃ es0 x, es1 = es0 ++ [x] := ⟨_, _, (List.dropLast_concat_getLast hne).symm⟩
      have hl0 : es0.length = n := by simpa using hl
      have hes0 : es = es0 ++ (x :: es2) := by simpa using hes
      have h0 := ih es0 (x :: es2) hes0 hl0
      rcases List.mem_append.mp he with he | he
      · exact h0 e he
      · simp at he
        subst he
        cases hreg : e.registers (.v4 b) with
        | false => rfl
        | true =>
          obtain ⟨es3, e', es4, f, ver, h3, hop, hok⟩ := hm es0 e es2 hes0 hreg
          obtain ⟨p', hp', hs'⟩ := C33_stays_hostile_partial (es := es3) R hp hs (fun e'' h'' => h0 e'' (by
            rw [h3]; exact List.mem_append.mpr (Or.inl h'')))
          rw [C33_no_version hp' hs'] at hok
          simp [fail] at hok
  intro e he
  exact key es.length es [] (by simp) rfl e he

/-- a `wavesT` handshake on the `wavesW` network -/
def Ex.badHs : Handshake := { Ex.hs 66 with appName := [119, 97, 118, 101, 115, 84] }

/-- A peer becomes hostile by connecting from another network; it is refused and not dialled. -/
example :
    let r := Ex.run [Ex.seeds, Ex.at_ 1 (.suggest .ok (Ex.ip 1 1 1 1)),
      Ex.at_ 2 (.register .ok (Ex.ip 1 1 1 1) ⟨1, Ex.badHs⟩ Ex.badHs), Ex.at_ 3 (.updateScore .ok (Ex.ip 1 1 1 1) 5)]
    (PeerOf r (Ex.ip 1 1 1 1)).map (·.state) = .ok .hostile ∧
    (TakeAvailableAddresses (9000 * second) r).2 = .ok [⟨Ex.ip 2 2 2 2, 6868⟩] := by decide +kernel

/-- The claim of C33 fails: a second handshake that was already under way registers the hostile
peer as connected. -/
theorem C33_revived :
    let r := Ex.run [Ex.at_ 1 (.suggest .ok (Ex.ip 1 1 1 1)), Ex.at_ 1 (.suggest .ok (Ex.ip 1 1 1 1)),
      Ex.at_ 2 (.register .ok (Ex.ip 1 1 1 1) ⟨1, Ex.badHs⟩ Ex.badHs)]
    let r' := step Ex.lib r (Ex.at_ 3 (.register .ok (Ex.ip 1 1 1 1) (Ex.conn 65) (Ex.hs 65)))
    (PeerOf r (Ex.ip 1 1 1 1)).map (·.state) = .ok .hostile ∧
    (PeerOf r' (Ex.ip 1 1 1 1)).map (·.state) = .ok .connected := by decide +kernel

/-! ### C38 -/

/-- Our own address is never among the connections. -/
theorem C38_not_connected (R : Reachable lib r) : ¬ ∃ c, (r.declared, c) ∈ r.connections := by
  rintro ⟨c, h⟩
  exact (R.inv.ipv4 _ c h).2 rfl

/-- A registration from our own address is refused and stores nothing. -/
theorem C38_not_registered (f : Fate) (now : Int) (np : Conn) (h : Handshake) :
    ∃ closed e, RegisterPeer lib f now r r.declared np h =
      ({ r with pending := delPending r.pending r.declared }, closed, fail e) := by
  unfold RegisterPeer
  by_cases h4 : is4 r.declared = true
  · exact ⟨false, .other "connection to itself", by simp [h4]⟩
  · exact ⟨true, .other "not an IPv4 address", by simp [h4]⟩

/-- Our own address is never handed out for dialling. -/
theorem C38_not_dialled (R : Reachable lib r) (now : Int) {l : List AddrPort}
    (hl : (TakeAvailableAddresses now r).2 = .ok l) : ∀ ap, ap ∈ l → ap.addr ≠ r.declared := by
  obtain ⟨l0, pend', h1, h2, _, _⟩ := R.inv.take now
  rw [h1] at hl
  have hl := Except.ok.inj hl
  subst hl
  intro ap hap
  obtain ⟨b, v, hv, hr, _, rfl⟩ := (h2 ap).mp hap
  exact hr.2.2.1

/-- `AppendAddresses` never stores our own address. -/
theorem C38_not_appended (R : Reachable lib r) (fs : Nat → Fate) (l : List (Option AddrPort))
    (h4 : is4 r.declared = true) : PeerOf (AppendAddresses fs r l).1 r.declared = PeerOf r r.declared := by
  obtain ⟨db', added, n, h, _, h2, h3, _⟩ := C32_append R fs l
  rw [h]
  exact h3 _ h4 (fun ap hap => (h2 ap hap).2.2.2.1)

/-- All four hypotheses in one run: our address 10.0.0.1 is announced to us and connects to us. -/
example :
    let r := Ex.run [Ex.at_ 0 (.append Ex.ok [some ⟨Ex.ip 10 0 0 1, 6868⟩, some ⟨Ex.ip 1 1 1 1, 6868⟩]),
      Ex.at_ 1 (.register .ok (Ex.ip 10 0 0 1) (Ex.conn 65) (Ex.hs 65))]
    r.connections = [] ∧ (TakeAvailableAddresses (9000 * second) r).2 = .ok [⟨Ex.ip 1 1 1 1, 6868⟩] := by
  decide +kernel

end Verif.Peers
