import Verif.Peers.Examples
import Verif.Peers.Live
import Verif.Chains.Examples
/-
Properties C34 - C37, C39 and C59: version suggestions, connections, stored peers.
-/

set_option autoImplicit false

namespace Verif.Peers

open Verif
open Verif.Chains (Addr BytesN Env)
open Verif.KV (Fate)

variable {lib : Lib} {r : Registry}

/-! ### C34 -/

/-- Full claim of C34: this for every non-empty list of configured versions.  It does not hold
without the condition on the list (`C34_same_minor_sticks`).  Proved here: for a peer that is not known yet, in any history in which it does not register and the program
is not restarted, the suggested versions are the configured ones (patch number dropped) from the
newest to the oldest, over and over.  `ord` is the list of configured versions in that order; the
configured versions must differ in major or minor number, and none may be 0.0. -/
theorem C34_cycle_partial (R : Reachable lib r) {vs : List Version} (hvs : r.versions = newVersions vs) (hne : vs ≠ [])
    (hn : (vs.map Version.mm).Nodup) (hz : ∀ v, v ∈ vs → v.mm ≠ (0, 0)) {b : BytesN 4}
    (hun : PeerOf r (.v4 b) = fail .notFound) :
    ∃ ord : List Version, ord.Perm (vs.map Version.base) ∧ ord.Pairwise (fun v w => w.lt v = true) ∧
      ∀ es, (∀ e, e ∈ es → e.quiet (.v4 b) = true) →
        ∀ i (hi : i < (suggestions lib (.v4 b) r es).length) (ho : i % ord.length < ord.length),
          (suggestions lib (.v4 b) r es)[i] = .ok (ord[i % ord.length]) := by
  have hlen : (newVersions vs).length = vs.length := by
    rw [(newVersions_perm vs).length_eq]; simp
  have hpos : 0 < vs.length := List.length_pos_iff.mpr hne
  refine ⟨newVersions vs, newVersions_perm vs, newVersions_sorted hn, ?_⟩
  intro es hq i hi ho
  have hz' : Version.zero.mm ∉ r.versions.map Version.mm := by
    rw [hvs]
    intro hm
    obtain ⟨v, hv, e⟩ := List.mem_map.mp ((newVersions_mm vs).mem_iff.mp hm)
    exact hz v hv e
  obtain ⟨n, h⟩ := suggestions_pos (lib := lib) (r := r) (b := b)
    (by rw [hvs]; exact (newVersions_mm vs).nodup_iff.mpr hn) (by rw [hvs, hlen]; exact hpos) hz' es r 0 R.inv rfl
    (by rw [R.inv.peerOf_none.mp hun]; exact .unseen) hq
  simp only [h, List.getElem_map, List.getElem_range, Nat.zero_add, hvs]

/-- Five suggestions with two configured versions. -/
example :
    suggestions Ex.lib (Ex.ip 1 1 1 1) (Ex.run [])
      [Ex.at_ 1 (.suggest .ok (Ex.ip 1 1 1 1)), Ex.seeds, Ex.at_ 2 (.suggest .ok (Ex.ip 1 1 1 1)),
       Ex.at_ 3 (.suggest .ok (Ex.ip 2 2 2 2)), Ex.at_ 4 (.unregister .ok (Ex.ip 1 1 1 1)),
       Ex.at_ 5 (.suggest .ok (Ex.ip 1 1 1 1)), Ex.at_ 6 (.suggest .ok (Ex.ip 1 1 1 1))]
      = [.ok Ex.v15, .ok Ex.v14, .ok Ex.v15, .ok Ex.v14] := by decide +kernel

/-- Configured versions that differ in the patch number only make the cycle stick: 1.4 is
configured, but 1.5 is suggested however often the peer is tried. -/
theorem C34_same_minor_sticks (n : Nat) :
    suggestions Ex.lib (Ex.ip 1 1 1 1) (NewRegistry { Ex.cfg with versions := [⟨1, 5, 1⟩, ⟨1, 5, 0⟩, ⟨1, 4, 0⟩] } [])
      (List.replicate n (Ex.at_ 1 (.suggest .ok (Ex.ip 1 1 1 1)))) = List.replicate n (.ok Ex.v15) := by
  have key : ∀ n (r : Registry), Inv r → r.versions = [Ex.v15, Ex.v15, Ex.v14] →
      (view r.db ⟨[1, 1, 1, 1], rfl⟩ = none ∨
        ∃ v, view r.db ⟨[1, 1, 1, 1], rfl⟩ = some v ∧ v.state = .unknown ∧ v.version = Ex.v15) →
      suggestions Ex.lib (Ex.ip 1 1 1 1) r (List.replicate n (Ex.at_ 1 (.suggest .ok (Ex.ip 1 1 1 1)))) =
        List.replicate n (.ok Ex.v15) := by
    intro n
    induction n with
    | zero => intro _ _ _ _; rfl
    | succ n ih =>
      intro r I hvs hv
      have hI : Inv (step Ex.lib r (Ex.at_ 1 (.suggest .ok (Ex.ip 1 1 1 1)))) := I.step
      have hvs' : (step Ex.lib r (Ex.at_ 1 (.suggest .ok (Ex.ip 1 1 1 1)))).versions = [Ex.v15, Ex.v15, Ex.v14] :=
        (step_config (lib := Ex.lib) I.good (by intro c h; cases h)).2.1.trans hvs
      have hsug : ∃ v : Value, v.state = .unknown ∧ v.version = Ex.v15 ∧
          SuggestVersion .ok (1 * second) r (Ex.ip 1 1 1 1) =
            ({ r with db := KV.put r.db [1, 1, 1, 1] (.record v) }, .ok Ex.v15) := by
        rcases hv with hv | ⟨v, hv, hst, hver⟩
        · obtain ⟨v, h1, h2, _, h3⟩ := suggest_first I hv (ver := Ex.v15) (by rw [hvs]; rfl) (1 * second)
          exact ⟨v, h2, h1, h3⟩
        · refine ⟨{ v with version := Ex.v15, nextAttempt := roundSec (1 * second + delay) }, hst, rfl, ?_⟩
          exact suggest_again I hv hst (by rw [hvs, hver]; decide +kernel) (1 * second)
      obtain ⟨v, hst, hver, he⟩ := hsug
      have hstep : step Ex.lib r (Ex.at_ 1 (.suggest .ok (Ex.ip 1 1 1 1))) =
          { r with db := KV.put r.db [1, 1, 1, 1] (.record v) } := by
        show (SuggestVersion .ok (1 * second) r (Ex.ip 1 1 1 1)).1 = _
        rw [he]
      have hrec : suggestions Ex.lib (Ex.ip 1 1 1 1) r
            (Ex.at_ 1 (.suggest .ok (Ex.ip 1 1 1 1)) :: List.replicate n (Ex.at_ 1 (.suggest .ok (Ex.ip 1 1 1 1)))) =
          (SuggestVersion .ok (1 * second) r (Ex.ip 1 1 1 1)).2 ::
            suggestions Ex.lib (Ex.ip 1 1 1 1) (step Ex.lib r (Ex.at_ 1 (.suggest .ok (Ex.ip 1 1 1 1))))
              (List.replicate n (Ex.at_ 1 (.suggest .ok (Ex.ip 1 1 1 1)))) := by
        simp [suggestions, Ex.at_]
      rw [List.replicate_succ, List.replicate_succ, hrec, he, ih _ hI hvs' (Or.inr ⟨v, ?_, hst, hver⟩)]
      rw [hstep]
      exact (view_put r.db ⟨[1, 1, 1, 1], rfl⟩ ⟨[1, 1, 1, 1], rfl⟩ v).trans (if_pos rfl)
  exact key n _ (Inv.start _) (by decide +kernel) (Or.inl rfl)

/-! ### C35 -/

/-- In every history in which, as in the connection manager, a successful `SuggestVersion` for the
address precedes each `RegisterPeer` (handshakes, addresses and write failures are arbitrary),
`Connections` answers, and lists exactly the live connections: each registered and not yet
unregistered address once, with its stored record and its connection handle, ordered by name. -/
theorem C35_connections (c0 : Config) (es : List Event) (hm : ∀ a, Managed lib (NewRegistry c0 []) es a) (env : Env) :
    ∃ l, Connections lib env (exec lib (NewRegistry c0 []) es) = .ok l ∧
      (∀ a c, (∃ p, p ∈ l ∧ p.addr = a ∧ p.conn = some c) ↔ Live lib (NewRegistry c0 []) es a c) ∧
      (∀ p, p ∈ l → PeerOf (exec lib (NewRegistry c0 []) es) p.addr = .ok { p with conn := none } ∧ p.conn ≠ none) ∧
      (l.map (·.addr)).Nodup ∧
      l.Pairwise (fun p q => bytesLt (lib.upper q.name) (lib.upper p.name) = false) := by
  have I : Inv (exec lib (NewRegistry c0 []) es) := (Inv.start c0).exec es
  have hperm := env.mapOrder_perm (exec lib (NewRegistry c0 []) es).connections
  obtain ⟨ps, h1, h2, h3⟩ := connectionsLoop_ok I (env.mapOrder (exec lib (NewRegistry c0 []) es).connections)
    (fun x hx => hperm.mem_iff.mp hx) (managed_covered c0 es hm)
  have hs := env.sort_perm (byName lib) ps
  refine ⟨env.sort (byName lib) ps, ?_, ?_, ?_, ?_, ?_⟩
  · simp [Connections, h1]
  · intro a c
    rw [← conn_live, ← hperm.mem_iff]
    have hiff : (a, some c) ∈ ps.map (fun p => (p.addr, p.conn)) ↔
        (a, c) ∈ env.mapOrder (exec lib (NewRegistry c0 []) es).connections := by
      rw [h2]
      constructor
      · intro hm
        obtain ⟨⟨a', c'⟩, hx, e⟩ := List.mem_map.mp hm
        simp at e
        rw [← e.1, ← e.2]; exact hx
      · exact fun hm => List.mem_map.mpr ⟨(a, c), hm, rfl⟩
    rw [← hiff, List.mem_map]
    constructor
    · rintro ⟨p, hp, rfl, hc⟩; exact ⟨p, hs.mem_iff.mp hp, by rw [hc]⟩
    · rintro ⟨p, hp, e⟩; simp at e; exact ⟨p, hs.mem_iff.mpr hp, e.1, e.2⟩
  · intro p hp
    have hp := hs.mem_iff.mp hp
    refine ⟨h3 p hp, ?_⟩
    have : (p.addr, p.conn) ∈ ps.map (fun p => (p.addr, p.conn)) := List.mem_map.mpr ⟨p, hp, rfl⟩
    rw [h2] at this
    obtain ⟨x, _, e⟩ := List.mem_map.mp this
    have : p.conn = some x.2 := (Prod.mk.inj e).2.symm
    rw [this]; simp
  · rw [(hs.map _).nodup_iff]
    have : ps.map (·.addr) = (env.mapOrder (exec lib (NewRegistry c0 []) es).connections).map (·.1) := by
      have := congrArg (List.map Prod.fst) h2
      rw [List.map_map, List.map_map] at this
      exact this
    rw [this, (hperm.map _).nodup_iff]
    exact I.nodup
  · exact env.sort_sorted (byName lib) ps (byName_strictWeak lib)

/-- two connections, one of which is dropped and one of which has an unusable name -/
def Ex.badName : Handshake := { Ex.hs 66 with nodeName := [255] }

/-- Two peers connect, the second with a name that is not UTF-8, so that its record is not
updated; both are listed. -/
example :
    let r := Ex.run [Ex.at_ 1 (.suggest .ok (Ex.ip 1 1 1 1)), Ex.at_ 1 (.suggest .ok (Ex.ip 2 2 2 2)),
      Ex.at_ 1 (.suggest .ok (Ex.ip 3 3 3 3)),
      Ex.at_ 2 (.register .ok (Ex.ip 1 1 1 1) (Ex.conn 65) (Ex.hs 65)),
      Ex.at_ 2 (.register .ok (Ex.ip 2 2 2 2) ⟨2, Ex.badName⟩ Ex.badName),
      Ex.at_ 2 (.register .ok (Ex.ip 3 3 3 3) (Ex.conn 67) (Ex.hs 67)),
      Ex.at_ 3 (.unregister .ok (Ex.ip 3 3 3 3))]
    (Connections Ex.lib Chains.Ex.env r).map (fun l => l.map (fun p => (p.addr, p.conn.map (·.id)))) =
      .ok [(Ex.ip 2 2 2 2, some 2), (Ex.ip 1 1 1 1, some 65)] := by decide +kernel

/-- Without the preceding `SuggestVersion` the claim fails: a peer that was never stored connects
with a name that is not UTF-8; the call reports an error, and from then on `Connections` fails for
everybody, and unregistering that peer fails too. -/
theorem C35_unmanaged :
    let h : Handshake := { Ex.badName with version := ⟨0, 1, 0⟩ }
    let r := Ex.run [Ex.at_ 1 (.suggest .ok (Ex.ip 1 1 1 1)),
      Ex.at_ 2 (.register .ok (Ex.ip 1 1 1 1) (Ex.conn 65) (Ex.hs 65)),
      Ex.at_ 2 (.register .ok (Ex.ip 2 2 2 2) ⟨2, h⟩ h)]
    Connections Ex.lib Chains.Ex.env r = fail .notFound ∧
    (UnregisterPeer .ok 3 r (Ex.ip 2 2 2 2)).2 = fail .notFound ∧
    (UnregisterPeer .ok 3 r (Ex.ip 2 2 2 2)).1.connections = r.connections := by decide +kernel

/-! ### C59 -/

/-- `Broadcast` (the ping) sends the message exactly once to every live connection. -/
theorem C59_broadcast (c0 : Config) (es : List Event) (env : Env) :
    (∀ c, c ∈ Broadcast env (exec lib (NewRegistry c0 []) es) ↔ ∃ a, Live lib (NewRegistry c0 []) es a c) ∧
    ∃ addrs : List Addr, addrs.Nodup ∧ addrs.length = (Broadcast env (exec lib (NewRegistry c0 []) es)).length ∧
      ∀ a, a ∈ addrs ↔ ∃ c, Live lib (NewRegistry c0 []) es a c := by
  have I : Inv (exec lib (NewRegistry c0 []) es) := (Inv.start c0).exec es
  have hperm := env.mapOrder_perm (exec lib (NewRegistry c0 []) es).connections
  unfold Broadcast
  refine ⟨?_, (exec lib (NewRegistry c0 []) es).connections.map (·.1), I.nodup, ?_, ?_⟩
  · intro c
    rw [List.mem_map]
    constructor
    · rintro ⟨⟨a, c'⟩, hm, rfl⟩
      exact ⟨a, (conn_live c0 es).mp (hperm.mem_iff.mp hm)⟩
    · rintro ⟨a, hl⟩
      exact ⟨(a, c), hperm.mem_iff.mpr ((conn_live c0 es).mpr hl), rfl⟩
  · simp [hperm.length_eq]
  · intro a
    rw [List.mem_map]
    constructor
    · rintro ⟨⟨a', c⟩, hm, rfl⟩
      exact ⟨c, (conn_live c0 es).mp hm⟩
    · rintro ⟨c, hl⟩
      exact ⟨(a, c), (conn_live c0 es).mpr hl, rfl⟩

/-- A reconnection replaces the old handle. -/
example :
    (Broadcast Chains.Ex.env (Ex.run [Ex.at_ 1 (.suggest .ok (Ex.ip 1 1 1 1)), Ex.at_ 1 (.suggest .ok (Ex.ip 2 2 2 2)),
      Ex.at_ 2 (.register .ok (Ex.ip 1 1 1 1) (Ex.conn 65) (Ex.hs 65)),
      Ex.at_ 3 (.register .ok (Ex.ip 2 2 2 2) (Ex.conn 66) (Ex.hs 66)),
      Ex.at_ 4 (.register .ok (Ex.ip 1 1 1 1) (Ex.conn 67) (Ex.hs 67))])).map (·.id) = [67, 66] := by decide +kernel

/-! ### C36 -/

/-- In every history the three lists hold IPv4 peers only, so none of the conversions to a TCP
address panics; `Peers`, `FriendlyPeers` and `Addresses` always answer; and a lookup that answers,
answers for the address it was asked for. -/
theorem C36_ipv4 {r : Registry} (h : Reachable lib r) (env : Env) :
    (∃ l, Peers lib env r = .ok l ∧ ∀ p, p ∈ l → is4 p.addr = true ∧ ∃ x, tcpAddr p = .ok x) ∧
    (∃ l, FriendlyPeers lib env r = .ok l ∧ (∀ p, p ∈ l → is4 p.addr = true ∧ ∃ x, tcpAddr p = .ok x) ∧
      ∃ xs, Addresses lib env r = .ok xs ∧ xs.map some = l.map (fun p => (tcpAddr p).toOption)) ∧
    (∀ l, Connections lib env r = .ok l → ∀ p, p ∈ l → is4 p.addr = true ∧ ∃ x, tcpAddr p = .ok x) ∧
    (∀ a p, PeerOf r a = .ok p → p.addr = a) := by
  have I := h.inv
  have both : ∀ p : Peer, is4 p.addr = true → is4 p.addr = true ∧ ∃ x, tcpAddr p = .ok x :=
    fun p hp => ⟨hp, tcpAddr_ok hp⟩
  refine ⟨?_, ?_, ?_, fun a p hp => (I.good.peer_ok hp).1⟩
  · obtain ⟨l, h1, h2, _⟩ := I.peersList lib env
    refine ⟨l, h1, fun p hp => ?_⟩
    obtain ⟨b, v, _, rfl⟩ := (h2 p).mp hp
    exact both _ rfl
  · obtain ⟨l, h1, h2, _⟩ := I.friendlyList lib env
    have h4 : ∀ p, p ∈ l → is4 p.addr = true := by
      intro p hp
      obtain ⟨b, v, _, _, rfl⟩ := (h2 p).mp hp
      rfl
    obtain ⟨xs, h5, h6⟩ := tcpAddrs_ok l h4
    exact ⟨l, h1, fun p hp => both p (h4 p hp), xs, by simp [Addresses, h1, h5], h6⟩
  · intro l hl p hp
    unfold Connections at hl
    cases hc : connectionsLoop r.db (env.mapOrder r.connections) with
    | error e => rw [hc] at hl; simp at hl
    | ok ps =>
      rw [hc] at hl; simp at hl; subst hl
      refine both p (connectionsLoop_addr _ ps hc ?_ I.good p ((env.sort_perm _ _).mem_iff.mp hp))
      intro x hx
      exact is4_iff.mp (I.ipv4 x.1 x.2 ((env.mapOrder_perm _).mem_iff.mp hx)).1

/-- an IPv6 address, `0101:0101::` -/
def Ex.ip6 : Addr := .v6 ⟨1 :: 1 :: 1 :: 1 :: List.replicate 12 0, rfl⟩ ""

/-- Three peers are stored, one connects; an IPv6 handshake, an IPv6 seed and an IPv6 suggestion
leave no trace. -/
example :
    let r := Ex.run [Ex.at_ 1 (.append (fun _ => .ok) [some ⟨Ex.ip 1 1 1 1, 6868⟩, some ⟨Ex.ip6, 6868⟩]),
      Ex.at_ 1 (.suggest .ok (Ex.ip 2 2 2 2)), Ex.at_ 1 (.suggest .ok Ex.ip6),
      Ex.at_ 1 (.suggest .ok (Ex.ip 3 3 3 3)),
      Ex.at_ 2 (.register .ok (Ex.ip 3 3 3 3) (Ex.conn 67) (Ex.hs 67)),
      Ex.at_ 2 (.register .ok Ex.ip6 (Ex.conn 65) (Ex.hs 65))]
    ((Peers Ex.lib Chains.Ex.env r).map (·.map (·.addr)) = .ok [Ex.ip 1 1 1 1, Ex.ip 2 2 2 2, Ex.ip 3 3 3 3]) ∧
    ((FriendlyPeers Ex.lib Chains.Ex.env r).map (·.map (·.addr)) = .ok [Ex.ip 3 3 3 3]) ∧
    ((Addresses Ex.lib Chains.Ex.env r).map (·.map (fun x => (x.1.1, x.2))) = .ok [([3, 3, 3, 3], 0)]) ∧
    ((Connections Ex.lib Chains.Ex.env r).map (·.map (·.addr)) = .ok [Ex.ip 3 3 3 3]) := by decide +kernel

/-- The key of an IPv6 address is its first four bytes, so a lookup of an IPv6 address that was
never stored answers with the data of an unrelated IPv4 peer. -/
theorem C36_ipv6_alias :
    let r := Ex.run [Ex.at_ 1 (.append (fun _ => .ok) [some ⟨Ex.ip 1 1 1 1, 6868⟩])]
    PeerOf r Ex.ip6 = .ok { newPeer ⟨Ex.ip 1 1 1 1, 6868⟩ with addr := Ex.ip6 } := by decide +kernel

/-- Outside the histories of the program: a damaged record is answered with the zero `Peer` and no
error, and converting that to a TCP address panics. -/
theorem C36_damaged :
    let r := NewRegistry Ex.cfg [([1, 1, 1, 1], .badCbor)]
    PeerOf r (Ex.ip 1 1 1 1) = .ok Peer.zero ∧ tcpAddr Peer.zero = goPanic := by decide +kernel

/-! ### C37 -/

/-- Updating the score of a known peer stores the score, and changes no other field, no other peer
and nothing else in the registry. -/
theorem C37_update {r : Registry} (h : Reachable lib r) {a : Addr} {p : Peer} (h4 : is4 a = true)
    (hp : PeerOf r a = .ok p) (s : Nat) :
    ∃ db', UpdatePeerScore .ok r a s = ({ r with db := db' }, .ok ()) ∧
      PeerOf { r with db := db' } a = .ok { p with score := some s } ∧
      ∀ a', is4 a' = true → a' ≠ a → PeerOf { r with db := db' } a' = PeerOf r a' := by
  have I := h.inv
  obtain ⟨b, rfl⟩ := is4_iff.mp h4
  obtain ⟨v, hv, rfl⟩ := I.peerOf.mp hp
  have hput := putPeer_valid (db := r.db) (p := { v.toPeer (.v4 b) with score := some s }) (b := b) rfl (I.names b v hv)
  refine ⟨KV.put r.db b.1 (.record { v with score := some s }), ?_, ?_, ?_⟩
  · unfold UpdatePeerScore
    have hp : peer r.db (.v4 b) = .ok (v.toPeer (.v4 b)) := hp
    rw [hp]
    simp only [hput]
    rfl
  · show peer (KV.put r.db b.1 (.record { v with score := some s })) (.v4 b) = _
    rw [(I.good.put b _).peer_v4, view_put, if_pos rfl]
    rfl
  · intro a' h4' hne
    obtain ⟨b', rfl⟩ := is4_iff.mp h4'
    show peer (KV.put r.db b.1 (.record { v with score := some s })) (.v4 b') = peer r.db (.v4 b')
    rw [(I.good.put b _).peer_v4, I.good.peer_v4, view_put, if_neg (fun e => hne (by rw [e]))]

/-- For an unknown peer, and for an address that is not IPv4, the call is an error and changes
nothing; neither does a call whose write fails. -/
theorem C37_refused {r : Registry} (h : Reachable lib r) (f : Fate) (a : Addr) (s : Nat)
    (hn : (∀ p, PeerOf r a ≠ .ok p) ∨ is4 a = false ∨ f = .fail) :
    (UpdatePeerScore f r a s).1 = r ∧ ∃ e, (UpdatePeerScore f r a s).2 = .error e := by
  have I := h.inv
  unfold UpdatePeerScore
  cases hp : peer r.db a with
  | error e => exact ⟨rfl, e, rfl⟩
  | ok p =>
    have ha : p.addr = a := (I.good.peer_ok hp).1
    have key : (putPeer f r.db { p with score := some s }).1 = r.db ∧
        ∃ e, (putPeer f r.db { p with score := some s }).2 = .error e := by
      constructor
      · rcases putPeer_db f r.db { p with score := some s } with h | ⟨b, hb, _, hf, _⟩
        · exact h
        · have hb : p.addr = .v4 b := hb
          rcases hn with hn | hn | hn
          · exact absurd hp (hn p)
          · rw [← ha, hb] at hn; cases hn
          · exact absurd hn hf
      · cases hw : (putPeer f r.db { p with score := some s }).2 with
        | error e => exact ⟨e, rfl⟩
        | ok u =>
          obtain ⟨b, hb, _, hf, _⟩ := putPeer_ok hw
          have hb : p.addr = .v4 b := hb
          rcases hn with hn | hn | hn
          · exact absurd hp (hn p)
          · rw [← ha, hb] at hn; cases hn
          · rw [hf] at hn; cases hn
    refine ⟨?_, key.2⟩
    show { r with db := (putPeer f r.db { p with score := some s }).1 } = r
    rw [key.1]

example :
    let r := Ex.run [Ex.at_ 1 (.append (fun _ => .ok) [some ⟨Ex.ip 1 1 1 1, 6868⟩, some ⟨Ex.ip 2 2 2 2, 6869⟩])]
    let r' := (UpdatePeerScore .ok r (Ex.ip 1 1 1 1) 77).1
    (PeerOf r' (Ex.ip 1 1 1 1)).map (fun p => (p.score, p.port)) = .ok (some 77, 6868) ∧
    (PeerOf r' (Ex.ip 2 2 2 2)).map (fun p => (p.score, p.port)) = .ok (none, 6869) ∧
    (UpdatePeerScore .ok r (Ex.ip 3 3 3 3) 77).2 = fail .notFound := by decide +kernel

/-! ### C39 -/

/-- `FriendlyPeers` answers with exactly the stored peers whose state is `Connected`, each once,
ordered by upper-cased name. -/
theorem C39_list {r : Registry} (h : Reachable lib r) (env : Env) :
    ∃ l, FriendlyPeers lib env r = .ok l ∧
      (∀ p, p ∈ l ↔ is4 p.addr = true ∧ PeerOf r p.addr = .ok p ∧ p.state = .connected) ∧
      (l.map (·.addr)).Nodup ∧
      l.Pairwise (fun p q => bytesLt (lib.upper q.name) (lib.upper p.name) = false) := by
  have I := h.inv
  obtain ⟨l, h1, h2, h3, h4⟩ := I.friendlyList lib env
  refine ⟨l, h1, fun p => ?_, h3, h4⟩
  rw [h2]
  constructor
  · rintro ⟨b, v, hv, hst, rfl⟩
    exact ⟨rfl, I.peerOf.mpr ⟨v, hv, rfl⟩, hst⟩
  · rintro ⟨ha, hp, hst⟩
    obtain ⟨b, hb⟩ := is4_iff.mp ha
    rw [hb] at hp
    obtain ⟨v, hv, rfl⟩ := I.peerOf.mp hp
    exact ⟨b, v, hv, hst, rfl⟩

/-- A peer becomes `Connected` only through a `RegisterPeer` call that is accepted, which includes
that its application name ends with the byte of our network; then it carries the name, version
and nonce of that handshake, and its declared port if it declares the address it connected from,
otherwise no port. -/
theorem C39_becomes {r : Registry} (h : Reachable lib r) (e : Event) {a : Addr} {p : Peer} (h4 : is4 a = true)
    (hp : PeerOf (step lib r e) a = .ok p) (hst : p.state = .connected)
    (hold : ∀ q, PeerOf r a = .ok q → q.state ≠ .connected) :
    ∃ f np hs, e.op = .register f a np hs ∧ Accepted lib r a np hs ∧ p.name = hs.nodeName ∧
      p.version = hs.version ∧ p.nonce = hs.nonce ∧
      (∀ ap, hs.declared = .addrPort ap → ap.addr = a → p.port = ap.port) ∧
      ((∀ ap, hs.declared = .addrPort ap → ap.addr ≠ a) → p.port = 0) := by
  have I := h.inv
  have I' : Inv (step lib r e) := I.step
  obtain ⟨b, rfl⟩ := is4_iff.mp h4
  obtain ⟨v, hv, rfl⟩ := I'.peerOf.mp hp
  have hst : v.state = .connected := hst
  rcases step_view (lib := lib) (e := e) I.good b with h' | ⟨v', h', w⟩
  · rw [hv] at h'
    exact absurd hst (hold _ (I.peerOf.mpr ⟨v, h'.symm, rfl⟩))
  · rw [hv] at h'; cases h'
    have hnot : ∀ v0, view r.db b = some v0 → v0.state ≠ .connected :=
      fun v0 h0 => hold _ (I.peerOf.mpr ⟨v0, h0, rfl⟩)
    cases w with
    | connected f np hs op acc name applied eq =>
      subst eq
      refine ⟨f, np, hs, op, acc, rfl, rfl, rfl, fun ap h1 h2 => ?_, fun hne => ?_⟩
      · show portOf (.v4 b) hs = _
        simp [portOf, h1, h2]
      · show portOf (.v4 b) hs = _
        unfold portOf
        split
        · rename_i ap h1; exact if_neg (hne ap h1)
        · rfl
    | shut f np hs op rej v0 old name eq => subst eq; cases hst
    | left f op v0 old eq => subst eq; exact absurd hst (hnot v0 old)
    | marked f op name eq => subst eq; cases hst
    | scored f s op v0 old eq => subst eq; exact absurd hst (hnot v0 old)
    | first f op old ver best eq => subst eq; cases hst
    | again f op v0 old st ver next eq => subst eq; exact absurd hst (hnot v0 old)
    | added fs l op old port acc mem eq => subst eq; cases hst

/-- Names `a`, `B` and a peer that never connected: `a` comes first because names are compared in
upper case. -/
example :
    let r := Ex.run [Ex.at_ 1 (.suggest .ok (Ex.ip 1 1 1 1)), Ex.at_ 1 (.suggest .ok (Ex.ip 2 2 2 2)),
      Ex.at_ 1 (.suggest .ok (Ex.ip 3 3 3 3)),
      Ex.at_ 2 (.register .ok (Ex.ip 1 1 1 1) (Ex.conn 97) (Ex.hs 97)),
      Ex.at_ 2 (.register .ok (Ex.ip 2 2 2 2) (Ex.conn 66) (Ex.hs 66)),
      Ex.at_ 3 (.unregister .ok (Ex.ip 2 2 2 2))]
    (FriendlyPeers Ex.lib Chains.Ex.env r).map (·.map (fun p => (p.addr, p.name))) =
      .ok [(Ex.ip 1 1 1 1, [97]), (Ex.ip 2 2 2 2, [66])] := by decide +kernel

end Verif.Peers
