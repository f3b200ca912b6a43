import Verif.Services.ConfigLemmas
import Verif.Services.ParamsLemmas
import Verif.Services.MessageLemmas
import Verif.Props.Params
import Verif.Props.Reports
import Verif.Props.Messages
/-
Properties C82 - C84: lists of peers, failed dials, and the configuration at work.
-/

set_option autoImplicit false

namespace Verif.Props

open Verif
open Verif.Chains (Addr BytesN Env Linkage)
open Verif.Peers (Registry Lib Peer PeerOf is4 AddrPort Version second)
open Verif.Loading (Ctx)
open Verif.KV (Fate)
open Verif.Services

variable {lib : Lib} {s : Prog}

/-! ### C82 -/

/-- The list of all peers is answered with status 200 and contains every stored peer exactly once. -/
theorem C82_peers (T : Timely lib s) (d : Dates) (env : Env) :
    ∃ l, d.peers lib env s.l.reg = .ok l ∧ (∀ p, p ∈ l ↔ is4 p.addr = true ∧ PeerOf s.l.reg p.addr = .ok p) ∧ (l.map (·.addr)).Nodup := by
  have R := T.reached.inv.loader.inv.reg
  obtain ⟨l, h1, h2, h3, _⟩ := C73_peers R env
  refine ⟨l, ?_, h2, h3⟩
  have : l.all (fun p => d.encodes p.nextAttempt) = true := by
    rw [List.all_eq_true]
    intro p hp
    obtain ⟨h4, hq⟩ := (h2 p).mp hp
    obtain ⟨b, hb⟩ := Peers.is4_iff.mp h4
    rw [hb] at hq
    obtain ⟨v, hv, rfl⟩ := R.inv.peerOf.mp hq
    obtain ⟨ht1, ht2⟩ := T.onTime b v hv
    exact d.near _ ht1 ht2
  simp only [Dates.peers, h1, Resp.after, Dates.encode, this, if_true]

/-- The list of friendly peers is answered with status 200 and contains exactly the stored peers in state `Connected`, each once. -/
theorem C82_friendly (T : Timely lib s) (d : Dates) (env : Env) :
    ∃ l, d.friendly lib env s.l.reg = .ok l ∧
      (∀ p, p ∈ l ↔ is4 p.addr = true ∧ PeerOf s.l.reg p.addr = .ok p ∧ p.state = .connected) ∧ (l.map (·.addr)).Nodup := by
  have R := T.reached.inv.loader.inv.reg
  obtain ⟨l, h1, h2, h3, _⟩ := Peers.C39_list R env
  refine ⟨l, ?_, h2, h3⟩
  have : l.all (fun p => d.encodes p.nextAttempt) = true := by
    rw [List.all_eq_true]
    intro p hp
    obtain ⟨h4, hq, _⟩ := (h2 p).mp hp
    obtain ⟨b, hb⟩ := Peers.is4_iff.mp h4
    rw [hb] at hq
    obtain ⟨v, hv, rfl⟩ := R.inv.peerOf.mp hq
    obtain ⟨ht1, ht2⟩ := T.onTime b v hv
    exact d.near _ ht1 ht2
  simp only [Dates.friendly, h1, Resp.after, Dates.encode, this, if_true]

/-- The list of connections is answered with status 200 and contains the record of every connected address exactly once. -/
theorem C82_connections (T : Timely lib s) (d : Dates) (env : Env) :
    ∃ l, d.connections lib env s.l.reg = .ok l ∧
      (∀ p, p ∈ l ↔ PeerOf s.l.reg p.addr = .ok p ∧ ∃ c, (p.addr, c) ∈ s.l.reg.connections) ∧ (l.map (·.addr)).Nodup := by
  have R := T.reached.inv.loader.inv.reg
  obtain ⟨l, h1, h2, h3, h4, _⟩ := C63_connections T.reached env
  have hmem : ∀ p, p ∈ l.map (fun p => { p with conn := none }) ↔
      PeerOf s.l.reg p.addr = .ok p ∧ ∃ c, (p.addr, c) ∈ s.l.reg.connections := by
    intro p
    rw [List.mem_map]
    constructor
    · rintro ⟨q, hq, rfl⟩
      obtain ⟨hq1, hq2⟩ := h3 q hq
      refine ⟨hq1, ?_⟩
      cases hc : q.conn with
      | none => exact absurd hc hq2
      | some c => exact ⟨c, (h2 _ c).mp ⟨q, hq, rfl, hc⟩⟩
    · rintro ⟨hp, c, hc⟩
      obtain ⟨q, hq, ha, _⟩ := (h2 _ c).mpr hc
      refine ⟨q, hq, ?_⟩
      have := (h3 q hq).1
      have this' : PeerOf s.l.reg p.addr = .ok { q with conn := none } := ha ▸ this
      rw [hp] at this'
      exact (Except.ok.inj this').symm
  refine ⟨l.map (fun p => { p with conn := none }), ?_, hmem, by rw [List.map_map]; exact h4⟩
  have : (l.map (fun p => { p with conn := none })).all (fun p => d.encodes p.nextAttempt) = true := by
    rw [List.all_eq_true]
    intro p hp
    obtain ⟨hq, c, hc⟩ := (hmem p).mp hp
    obtain ⟨b, hb⟩ := Peers.is4_iff.mp (R.inv.ipv4 _ _ hc).1
    rw [hb] at hq
    obtain ⟨v, hv, rfl⟩ := R.inv.peerOf.mp hq
    obtain ⟨ht1, ht2⟩ := T.onTime b v hv
    exact d.near _ ht1 ht2
  simp only [Dates.connections, h1, Resp.after, Dates.encode, this, if_true]

/-- a library for the examples -/
def exDates : Dates where
  encodes t := decide (t < 253402300800)
  near t _ h := by simp; omega
  far t h := by simp; omega

/-- the examples run with a clock that stays near -/
example : Timely Peers.Ex.lib (Ex.after Ex.joined) :=
  ⟨Peers.Ex.cfg, [], Peers.Ex.cfg, Peers.Ex.ok, [some ⟨Loading.Ex.peer, 6868⟩], Chains.Ex.l0, false, Ex.joined, by simp, Ex.run_path (s := Ex.start) rfl, by
    intro e he t ht
    simp only [Ex.joined, List.mem_cons, List.not_mem_nil, or_false] at he
    rcases he with rfl | rfl | rfl | rfl <;> cases ht <;> unfold Peers.Near <;> decide⟩

/-- Two peers are connected; the three lists; and with a clock that went to the year 10000 there is no list of peers any more. -/
example : (match exDates.peers Peers.Ex.lib Chains.Ex.env (Ex.after Ex.joined).l.reg with
      | .ok l => l.map (·.addr) | _ => []) = [Loading.Ex.peer, Loading.Ex.peer3] ∧
    (match exDates.connections Peers.Ex.lib Chains.Ex.env (Ex.after Ex.joined).l.reg with
      | .ok l => l.map (·.addr) | _ => []) = [Loading.Ex.peer, Loading.Ex.peer3] ∧
    (exDates.peers Peers.Ex.lib Chains.Ex.env (Ex.after [.suggest .ok (253402300800 * second) Loading.Ex.peer]).l.reg).status = some 500 := by
  decide +kernel

/-! ### C83 -/

/-- A dial that fails is only about its own address: all connections of other addresses stay, and if the address itself is not connected, no
connection is lost.  The store, the loader and the channels are not touched.

Missing: that a connection of the address itself stays; there the claim is false (`C83_lost`). -/
theorem C83_failed_partial (R : Reached lib s) {s' : Prog} {f : Fate} {now : Int} {a : Addr} (h : s.step lib (.giveUp f now a) = some (.ok s')) :
    (∀ x, x.1 ≠ a → (x ∈ s'.l.reg.connections ↔ x ∈ s.l.reg.connections)) ∧
    ((∀ c, (a, c) ∉ s.l.reg.connections) → s'.l.reg.connections = s.l.reg.connections) ∧
    s'.l = { s.l with reg := s'.l.reg } ∧ s'.sent = s.sent ∧ s'.dist = s.dist ∧ s'.out = s.out ∧
    ∀ a', is4 a' = true → a' ≠ a → PeerOf s'.l.reg a' = PeerOf s.l.reg a' := by
  have I := R.inv.loader.inv.reg.inv
  have hs : s' = { s with l := { s.l with reg := (Peers.UnregisterPeer f now s.l.reg a).1 } } := by
    unfold Prog.step at h
    split at h
    · cases h
    · obtain ⟨_, h⟩ := guarded_eq h
      dsimp only at h
      split at h
      · cases h
      · cases h; rfl
  subst hs
  refine ⟨?_, ?_, rfl, rfl, rfl, rfl, ?_⟩
  · rintro ⟨a', c⟩ hne
    show (a', c) ∈ (Peers.UnregisterPeer f now s.l.reg a).1.connections ↔ _
    unfold Peers.UnregisterPeer
    cases Peers.peer s.l.reg.db a with
    | error e => exact Iff.rfl
    | ok p =>
      rw [Peers.mem_delConn]
      exact ⟨fun h => h.1, fun h => ⟨h, hne⟩⟩
  · intro hn
    show (Peers.UnregisterPeer f now s.l.reg a).1.connections = _
    unfold Peers.UnregisterPeer
    cases Peers.peer s.l.reg.db a with
    | error e => rfl
    | ok p =>
      show Peers.delConn s.l.reg.connections a = s.l.reg.connections
      unfold Peers.delConn
      rw [List.filter_eq_self]
      rintro ⟨a', c⟩ hm
      have : a' ≠ a := fun e => hn c (e ▸ hm)
      simpa using this
  · intro a' h4 hne
    obtain ⟨b', rfl⟩ := Peers.is4_iff.mp h4
    have hview : Peers.view (Peers.step lib s.l.reg ⟨now, .unregister f a⟩).db b' = Peers.view s.l.reg.db b' := by
      rcases Peers.step_view (lib := lib) (e := ⟨now, .unregister f a⟩) I.good b' with hv | ⟨v, _, w⟩
      · exact hv
      · exfalso
        cases w with
        | left f' op v0 old eq => cases op; exact hne rfl
        | connected f np h op acc name applied eq => cases op
        | shut f np h op rej v0 old name eq => cases op
        | marked f op name eq => cases op
        | scored f s op v0 old eq => cases op
        | first f op old ver best eq => cases op
        | again f op v0 old st ver next eq => cases op
        | added fs l op old port acc mem eq => cases op
    have G' := Peers.step_good (lib := lib) (e := ⟨now, .unregister f a⟩) I.good
    show Peers.peer (Peers.step lib s.l.reg ⟨now, .unregister f a⟩).db _ = Peers.peer s.l.reg.db _
    rw [G'.peer_v4, I.good.peer_v4, hview]

/-- The claim is false for the address that was dialled: the program dials 10.0.0.2; meanwhile 10.0.0.2 connects to the program and
is registered; then the dial fails, and the live connection is dropped from the registry without being closed. -/
theorem C83_lost :
    let es : List Ev := [.respawn (1 * second) false, .suggest .ok (2 * second) Loading.Ex.peer, .suggest .ok (3 * second) Loading.Ex.peer,
      .connected (Loading.Ex.ctx 4) Ex.p2]
    (Loading.Ex.peer, Ex.p2.conn) ∈ (Ex.after es).l.reg.connections ∧
    (Ex.after (es ++ [.giveUp .ok (5 * second) Loading.Ex.peer])).l.reg.connections = [] ∧
    (Ex.after (es ++ [.giveUp .ok (5 * second) Loading.Ex.peer])).out = [] := by decide +kernel

/-- a dial fails that nothing came in the way of -/
example : ((Ex.after [.respawn (1 * second) false, .suggest .ok (2 * second) Loading.Ex.peer, .suggest .ok (3 * second) Loading.Ex.peer3,
      .connected (Loading.Ex.ctx 4) Ex.p3, .giveUp .ok (5 * second) Loading.Ex.peer]).l.reg.connections) = [(Loading.Ex.peer3, Ex.p3.conn)] := by
  decide +kernel

/-! ### C84 -/

/-- Whatever happens after the start: the program is connected with peers of the configured network only, under IPv4 addresses, and never with
the declared address. -/
theorem C84_connections {r : Registry} (R : Peers.Reachable lib r) {o : Opts} {f : Flags} {lk : Linkage} {fs : Nat → Fate} {s0 : Prog}
    (h0 : o.run f r.db fs lk = .ok s0) (hs : Reaches lib s0 s) {a : Addr} {c : Peers.Conn} (hc : (a, c) ∈ s.l.reg.connections) :
    (∃ n, o.network f.network = some n ∧ c.handshake.appName.getLast? = some n.scheme) ∧ is4 a = true ∧
    ∀ da b, o.parse f.declared = some da → Fits da.addr b → o.emptyIP b = false → a ≠ .v4 b := by
  unfold Opts.run at h0
  obtain ⟨p, hp, h0⟩ := go_bind_eq_ok.mp h0
  have h0 := Except.ok.inj h0
  subst h0
  obtain ⟨k1, k2, _, k4⟩ := configured R hs
  have I := ((PInv.start (lib := lib) (o.config p) R fs (p.seeds.map seedOf) lk (o.listens p)).reaches hs).loader.inv.reg.inv
  obtain ⟨i1, i2⟩ := I.ipv4 _ _ hc
  obtain ⟨n, hn, hsc, hd⟩ := params_from hp
  refine ⟨⟨n, hn, ?_⟩, i1, ?_⟩
  · rw [k4 _ _ hc, k1]; exact congrArg some hsc
  · intro da b hda hb he e
    apply i2
    rw [e, k2]
    show _ = o.declaredAddr p
    unfold Opts.declaredAddr
    rw [hd da b hda hb]
    simp [he]

/-- Whatever happens after the start: the version that the program offers to a peer that it does not know is the newest configured one, to a
peer that it never was connected with it is one of the configured ones (both without the patch number), and to any other peer it is the
version that is on record for the peer. -/
theorem C84_versions {r : Registry} (R : Peers.Reachable lib r) {o : Opts} {f : Flags} {lk : Linkage} {fs : Nat → Fate} {s0 : Prog}
    (h0 : o.run f r.db fs lk = .ok s0) (hs : Reaches lib s0 s) {p : Params} (hp : o.newParameters f = .ok p) {f' : Fate} {now : Int} {a : Addr}
    {ver : Version} (hv : (Peers.SuggestVersion f' now s.l.reg a).2 = .ok ver) :
    (PeerOf s.l.reg a = fail .notFound → (∃ v, v ∈ p.versions ∧ ver = ⟨v.major, v.minor, 0⟩) ∧
      ∀ v, v ∈ p.versions → Version.lt ver ⟨v.major, v.minor, 0⟩ = false) ∧
    (∀ q, PeerOf s.l.reg a = .ok q → q.state = .unknown → ∃ v, v ∈ p.versions ∧ ver = ⟨v.major, v.minor, 0⟩) ∧
    ∀ q, PeerOf s.l.reg a = .ok q → q.state ≠ .unknown → q.state = .connected ∧ ver = q.version := by
  unfold Opts.run at h0
  rw [hp, go_bind_ok] at h0
  have h0 := Except.ok.inj h0
  subst h0
  obtain ⟨_, _, k3, _⟩ := configured R hs
  have k3 : s.l.reg.versions = Peers.newVersions p.versions := k3
  rcases Peers.suggest_answer hv with ⟨h1, h2⟩ | ⟨q, h1, h2, h3⟩ | ⟨q, h1, h2, h3⟩
  · rw [k3] at h2
    refine ⟨fun _ => Peers.newVersions_head h2, ?_, ?_⟩
    · intro q hq; rw [h1] at hq; cases hq
    · intro q hq; rw [h1] at hq; cases hq
  · rw [k3] at h3
    refine ⟨fun h => (by rw [h1] at h; cases h), fun q' hq _ => ?_, fun q' hq hst => ?_⟩
    · obtain ⟨v, hv, e⟩ := List.mem_map.mp ((Peers.newVersions_perm p.versions).mem_iff.mp (Peers.mem_nextVersion h3))
      exact ⟨v, hv, e.symm⟩
    · rw [h1] at hq; cases hq; exact absurd h2 hst
  · refine ⟨fun h => (by rw [h1] at h; cases h), fun q' hq hst => ?_, fun q' hq _ => ?_⟩
    · rw [h1] at hq; cases hq; rw [h2] at hst; cases hst
    · rw [h1] at hq; cases hq; exact ⟨h2, h3⟩

/-- Asking for a version never crashes the program, whatever the address. -/
theorem C84_no_crash {r : Registry} (R : Peers.Reachable lib r) {o : Opts} {f : Flags} {lk : Linkage} {fs : Nat → Fate} {s0 : Prog}
    (h0 : o.run f r.db fs lk = .ok s0) (hs : Reaches lib s0 s) (f' : Fate) (now : Int) {a : Addr} (ha : a ≠ .zero) (hm : s.main ≠ .exited) :
    ∃ s', s.step lib (.suggest f' now a) = some (.ok s') := by
  unfold Opts.run at h0
  obtain ⟨p, hp, h0⟩ := go_bind_eq_ok.mp h0
  have h0 := Except.ok.inj h0
  subst h0
  obtain ⟨_, _, k3, _⟩ := configured R hs
  have hne : s.l.reg.versions ≠ [] := by
    rw [k3]
    intro e
    have := (Peers.newVersions_perm (o.config p).versions).length_eq
    rw [e] at this
    simp at this
    exact versions_nonempty hp (List.length_eq_zero_iff.mp this.symm)
  have hnp := suggest_not_panic (f := f') (now := now) hne ha
  unfold Prog.step
  rw [if_neg hm]
  dsimp only
  cases hw : (Peers.SuggestVersion f' now s.l.reg a).2 with
  | ok v => exact ⟨_, rfl⟩
  | error e =>
    cases e with
    | panic => exact absurd hw hnp
    | err x => exact ⟨_, rfl⟩

/-- The program of the examples, started with the parameters `exFlags`: an unknown peer is offered version 1.5. -/
example : (match exOpts.run exFlags [] Peers.Ex.ok Chains.Ex.l0 with
    | .ok s0 => (Peers.SuggestVersion .ok 0 s0.l.reg (Peers.Ex.ip 5 5 5 5)).2
    | .error _ => fail .notFound) = .ok ⟨1, 5, 0⟩ := by decide +kernel

end Verif.Props
