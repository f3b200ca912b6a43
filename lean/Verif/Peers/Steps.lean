import Verif.Peers.Lemmas
/-
Effect of every registry call on the store, the connections and the pending
set.
-/

set_option autoImplicit false

namespace Verif.Peers

open Verif
open Verif.Chains (Addr BytesN Env)
open Verif.KV (Fate)

/-- the stored peer or `Peer{}` -/
def onFile (r : Registry) (a : Addr) : Peer :=
  match PeerOf r a with
  | .ok p => p
  | .error _ => Peer.zero

theorem onFile_version (r : Registry) (a : Addr) : (onFile r a).version = versionOnRecord r a := by
  unfold onFile versionOnRecord
  cases PeerOf r a <;> rfl

/-- the port that `RegisterPeer` records -/
def portOf (a : Addr) (h : Handshake) : UInt16 :=
  match h.declared with
  | .addrPort ap => if ap.addr = a then ap.port else 0
  | _ => 0

/-- the peer that `RegisterPeer` stores for an accepted registration -/
def acceptedPeer (r : Registry) (now : Int) (a : Addr) (np : Conn) (h : Handshake) : Peer :=
  { onFile r a with addr := a, port := portOf a h, nonce := h.nonce, name := h.nodeName, version := h.version,
                    state := .connected, nextAttempt := roundSec now, conn := some np }

theorem checkPort_ok (a : Addr) (h : Handshake) :
    (∃ b e, checkPort a h = (b, .error e) ∧ ¬ DeclaredOk h) ∨
    (checkPort a h = (false, .ok (portOf a h)) ∧ DeclaredOk h) := by
  unfold checkPort portOf DeclaredOk
  cases hd : h.declared with
  | empty => exact Or.inr ⟨rfl, Or.inl rfl⟩
  | unparsable => exact Or.inl ⟨_, _, rfl, by simp⟩
  | addrPort ap =>
    by_cases hl : isLoopback ap.addr = true
    · exact Or.inl ⟨true, .err (.other "loopback"), by simp [hl, fail], by simp [hl]⟩
    · by_cases h4 : is4 ap.addr = true
      · exact Or.inr ⟨by simp [hl, h4], Or.inr ⟨ap, rfl, by simpa using hl, h4⟩⟩
      · exact Or.inl ⟨true, .err (.other "not IPv4"), by simp [hl, h4, fail], by simp [h4]⟩

/-- The outcomes of a registration. -/
inductive RegisterOutcome (lib : Lib) (f : Fate) (now : Int) (r : Registry) (a : Addr) (np : Conn) (h : Handshake)
    (out : Registry × Bool × Go Unit) : Prop where
  | accepted (acc : Accepted lib r a np h)
      (eq : out = ({ r with pending := delPending r.pending a,
                            connections := setConn r.connections a np,
                            db := (putPeer f r.db (acceptedPeer r now a np h)).1 }, false,
                   (putPeer f r.db (acceptedPeer r now a np h)).2))
  | hostile (rej : ¬ Accepted lib r a np h) (v4 : is4 a = true)
      (eq : out = ({ r with pending := delPending r.pending a,
                            db := (putPeer f r.db (hostilePeer (onFile r a) np)).1 }, true,
                   (putPeer f r.db (hostilePeer (onFile r a) np)).2))
  | refused (rej : ¬ Accepted lib r a np h) (closed : Bool) (e : Fault)
      (eq : out = ({ r with pending := delPending r.pending a }, closed, .error e))

theorem register_outcome {lib : Lib} {f : Fate} {now : Int} {r : Registry} {a : Addr} {np : Conn} {h : Handshake}
    (G : Good r.db) : RegisterOutcome lib f now r a np h (RegisterPeer lib f now r a np h) := by
  by_cases h4 : is4 a = true
  · by_cases hd : a = r.declared
    · refine .refused (fun A => A.other hd) false (.err (.other "connection to itself")) ?_
      simp [RegisterPeer, hd ▸ h4, hd, fail]
    · have hp : RegisterPeer lib f now r a np h =
          registerFound lib f now { r with pending := delPending r.pending a } a np h (onFile r a) := by
        simp only [RegisterPeer, h4, hd, if_true, if_false, onFile, PeerOf]
        cases a with
        | zero => simp [is4] at h4
        | v6 b z => simp [is4] at h4
        | v4 b =>
          rw [G.peer_v4]
          cases view r.db b <;> rfl
      rw [hp]
      unfold registerFound
      by_cases hc : lib.cmpMinor np.handshake.version (onFile r a).version ≥ 2
      · refine .hostile (fun A => ?_) h4 ?_
        · have := A.version; rw [← onFile_version] at this; omega
        · simp [hc]
      · simp only [hc, if_false]
        cases ha : np.handshake.appName.getLast? with
        | none =>
          refine .refused (fun A => ?_) false .panic (by simp [goPanic])
          have := A.network; rw [ha] at this; cases this
        | some b =>
          by_cases hb : b = r.scheme
          · simp only [ne_eq, hb, not_true, if_false]
            rcases checkPort_ok a h with ⟨cl, e, hcp, hnd⟩ | ⟨hcp, hdo⟩
            · rw [hcp]
              exact .refused (fun A => hnd A.declared) cl e rfl
            · rw [hcp]
              refine .accepted ⟨h4, hd, ?_, by rw [ha, hb], hdo⟩ rfl
              rw [← onFile_version]; omega
          · refine .hostile (fun A => ?_) h4 ?_
            · have := A.network; rw [ha] at this; exact hb (Option.some.inj this)
            · simp [hb]
  · refine .refused (fun A => h4 A.ipv4) true (.err (.other "not an IPv4 address")) ?_
    simp [RegisterPeer, h4, fail]

theorem onFile_v4 {r : Registry} (G : Good r.db) (b : BytesN 4) :
    onFile r (.v4 b) = match view r.db b with
      | none => Peer.zero
      | some v => v.toPeer (.v4 b) := by
  unfold onFile PeerOf
  rw [G.peer_v4]
  cases view r.db b <;> rfl

/-- The effect of one call on the database: nothing, or one record of one address is replaced or
created, in one of the ways listed.  (`AppendAddresses` is a sequence of such steps.) -/
inductive Write (lib : Lib) (r : Registry) (e : Event) (b : BytesN 4) (v : Value) : Prop where
  | connected (f : Fate) (np : Conn) (h : Handshake) (op : e.op = .register f (.v4 b) np h)
      (acc : Accepted lib r (.v4 b) np h) (name : validUTF8 h.nodeName = true) (applied : f ≠ .fail)
      (eq : v = (acceptedPeer r e.now (.v4 b) np h).toValue)
  | shut (f : Fate) (np : Conn) (h : Handshake) (op : e.op = .register f (.v4 b) np h)
      (rej : ¬ Accepted lib r (.v4 b) np h) (v0 : Value) (old : view r.db b = some v0)
      (name : validUTF8 v.name = true) (eq : v = (hostilePeer (v0.toPeer (.v4 b)) np).toValue)
  | left (f : Fate) (op : e.op = .unregister f (.v4 b)) (v0 : Value) (old : view r.db b = some v0)
      (eq : v = { v0 with nextAttempt := roundSec (e.now + delay) })
  | marked (f : Fate) (op : e.op = .markHostile f (some (.v4 b)))
      (name : validUTF8 v.name = true) (eq : v = { (onFile r (.v4 b)).toValue with port := 0, state := .hostile })
  | scored (f : Fate) (s : Nat) (op : e.op = .updateScore f (.v4 b) s) (v0 : Value) (old : view r.db b = some v0)
      (eq : v = { v0 with score := some s })
  | first (f : Fate) (op : e.op = .suggest f (.v4 b)) (old : view r.db b = none) (ver : Version)
      (best : r.versions[0]? = some ver)
      (eq : v = ({ Peer.zero with addr := .v4 b, version := ver, nextAttempt := roundSec (e.now + delay) } : Peer).toValue)
  | again (f : Fate) (op : e.op = .suggest f (.v4 b)) (v0 : Value) (old : view r.db b = some v0)
      (state : v0.state = .unknown) (ver : Version) (next : nextVersion r.versions v0.version = .ok ver)
      (eq : v = { v0 with version := ver, nextAttempt := roundSec (e.now + delay) })
  | added (fs : Nat → Fate) (l : List (Option AddrPort)) (op : e.op = .append fs l) (old : view r.db b = none)
      (port : UInt16) (acc : acceptable r ⟨.v4 b, port⟩ = true) (mem : some ⟨.v4 b, port⟩ ∈ l)
      (eq : v = (newPeer ⟨.v4 b, port⟩).toValue)

theorem toValue_toPeer (v : Value) (a : Addr) : (v.toPeer a).toValue = v := rfl

theorem toPeer_name (v : Value) (a : Addr) : (v.toPeer a).name = v.name := rfl

theorem Good.peer_v4_ok {db : DB} (G : Good db) {b : BytesN 4} {p : Peer} (h : peer db (.v4 b) = .ok p) :
    ∃ v, view db b = some v ∧ p = v.toPeer (.v4 b) := by
  rw [G.peer_v4] at h
  cases hv : view db b with
  | none => rw [hv] at h; simp [fail] at h
  | some v => rw [hv] at h; simp at h; exact ⟨v, rfl, h.symm⟩

theorem Good.peer_v4_none {db : DB} (G : Good db) {b : BytesN 4} {e : Fault} (h : peer db (.v4 b) = .error e) :
    view db b = none ∧ e = .err .notFound := by
  rw [G.peer_v4] at h
  cases hv : view db b with
  | none => rw [hv] at h; simp [fail] at h; exact ⟨rfl, h.symm⟩
  | some v => rw [hv] at h; simp at h

theorem getElem?_of_goIndex {α : Type} {l : List α} {i : Nat} {a : α} (h : goIndex l i = .ok a) : l[i]? = some a := by
  unfold goIndex at h
  cases hl : l[i]? with
  | none => rw [hl] at h; simp [goPanic] at h
  | some x => rw [hl] at h; simp at h; rw [h]

/-- Every call except `AppendAddresses` writes at most one record. -/
theorem step_db {lib : Lib} {r : Registry} {e : Event} (G : Good r.db) (hop : ∀ fs l, e.op ≠ .append fs l) :
    (step lib r e).db = r.db ∨
    ∃ b v, (step lib r e).db = KV.put r.db b.1 (.record v) ∧ Write lib r e b v := by
  obtain ⟨now, op⟩ := e
  cases op with
  | append fs l => exact absurd rfl (hop fs l)
  | take =>
    left
    simp only [step, TakeAvailableAddresses]
    cases peers r.db <;> rfl
  | reopen c => exact Or.inl rfl
  | register f a np h =>
    simp only [step]
    cases register_outcome (lib := lib) (f := f) (now := now) (a := a) (np := np) (h := h) G with
    | accepted acc eq =>
      rw [eq]
      rcases putPeer_db f r.db (acceptedPeer r now a np h) with hdb | ⟨b, ha, hn, hf, hdb⟩
      · exact Or.inl hdb
      · have ha : a = .v4 b := ha
        subst ha
        exact Or.inr ⟨b, _, hdb, .connected f np h rfl acc hn hf rfl⟩
    | hostile rej h4 eq =>
      rw [eq]
      rcases putPeer_db f r.db (hostilePeer (onFile r a) np) with hdb | ⟨b, ha, hn, hf, hdb⟩
      · exact Or.inl hdb
      · cases a with
        | zero => simp [is4] at h4
        | v6 b z => simp [is4] at h4
        | v4 b' =>
          cases hv : view r.db b' with
          | none =>
            have ho : onFile r (.v4 b') = Peer.zero := by rw [onFile_v4 G, hv]
            rw [ho] at ha; simp [hostilePeer, Peer.zero] at ha
          | some v0 =>
            have ho : onFile r (.v4 b') = v0.toPeer (.v4 b') := by rw [onFile_v4 G, hv]
            rw [ho] at ha hn hdb ⊢
            have : Addr.v4 b' = .v4 b := ha
            cases this
            exact Or.inr ⟨_, _, hdb, .shut f np h rfl rej v0 hv hn rfl⟩
    | refused rej cl er eq => rw [eq]; exact Or.inl rfl
  | unregister f a =>
    simp only [step, UnregisterPeer]
    cases hp : peer r.db a with
    | error er => exact Or.inl rfl
    | ok p =>
      rcases putPeer_db f r.db { p with nextAttempt := roundSec (now + delay), conn := none } with hdb | ⟨b, ha, hn, hf, hdb⟩
      · exact Or.inl hdb
      · have e1 := (G.peer_ok hp).1
        have ha : p.addr = .v4 b := ha
        rw [ha] at e1; subst e1
        obtain ⟨v0, hv, rfl⟩ := G.peer_v4_ok hp
        exact Or.inr ⟨b, _, hdb, .left f rfl v0 hv rfl⟩
  | updateScore f a s =>
    simp only [step, UpdatePeerScore]
    cases hp : peer r.db a with
    | error er => exact Or.inl rfl
    | ok p =>
      rcases putPeer_db f r.db { p with score := some s } with hdb | ⟨b, ha, hn, hf, hdb⟩
      · exact Or.inl hdb
      · have e1 := (G.peer_ok hp).1
        have ha : p.addr = .v4 b := ha
        rw [ha] at e1; subst e1
        obtain ⟨v0, hv, rfl⟩ := G.peer_v4_ok hp
        exact Or.inr ⟨b, _, hdb, .scored f s rfl v0 hv rfl⟩
  | markHostile f arg =>
    cases arg with
    | none => exact Or.inl rfl
    | some a =>
      have key : ∀ p : Peer, (∀ b, a = .v4 b → p = onFile r (.v4 b)) →
          (putPeer f r.db { p with addr := a, port := 0, state := .hostile }).1 = r.db ∨
          ∃ b v, (putPeer f r.db { p with addr := a, port := 0, state := .hostile }).1 = KV.put r.db b.1 (.record v) ∧
            Write lib r ⟨now, .markHostile f (some a)⟩ b v := by
        intro p hp
        rcases putPeer_db f r.db { p with addr := a, port := 0, state := .hostile } with hdb | ⟨b, ha, hn, hf, hdb⟩
        · exact Or.inl hdb
        · have ha : a = .v4 b := ha
          subst ha
          have := hp b rfl
          subst this
          exact Or.inr ⟨b, _, hdb, .marked f rfl hn rfl⟩
      simp only [step, MarkAsHostile]
      cases hp : peer r.db a with
      | ok p =>
        refine key p (fun b e => ?_)
        subst e
        obtain ⟨v0, hv, rfl⟩ := G.peer_v4_ok hp
        rw [onFile_v4 G, hv]
      | error er =>
        cases er with
        | panic => exact Or.inl rfl
        | err x =>
          cases x with
          | notFound =>
            refine key Peer.zero (fun b e => ?_)
            subst e
            rw [onFile_v4 G, (G.peer_v4_none hp).1]
          | _ => exact Or.inl rfl
  | suggest f a =>
    simp only [step, SuggestVersion]
    cases hp : peer r.db a with
    | ok p =>
      simp only
      cases hst : p.state with
      | connected => exact Or.inl rfl
      | hostile => exact Or.inl rfl
      | unknown =>
        simp only
        cases hnv : nextVersion r.versions p.version with
        | error er => exact Or.inl rfl
        | ok ver =>
          simp only
          rcases putPeer_db f r.db { p with version := ver, nextAttempt := roundSec (now + delay), state := .unknown } with
            hdb | ⟨b, ha, hn, hf, hdb⟩
          · exact Or.inl hdb
          · have e1 := (G.peer_ok hp).1
            have ha : p.addr = .v4 b := ha
            rw [ha] at e1; subst e1
            obtain ⟨v0, hv, rfl⟩ := G.peer_v4_ok hp
            exact Or.inr ⟨b, _, hdb, .again f rfl v0 hv hst ver hnv (by
              have h : v0.state = .unknown := hst
              simp [Peer.toValue, Value.toPeer, h])⟩
    | error er =>
      cases er with
      | panic => exact Or.inl rfl
      | err x =>
        cases x with
        | notFound =>
          simp only
          cases hbv : bestVersion r.versions with
          | error er => exact Or.inl rfl
          | ok ver =>
            simp only
            rcases putPeer_db f r.db { Peer.zero with
              addr := a, port := 0, version := ver, nextAttempt := roundSec (now + delay), state := .unknown } with
              hdb | ⟨b, ha, hn, hf, hdb⟩
            · exact Or.inl hdb
            · have ha : a = .v4 b := ha
              subst ha
              exact Or.inr ⟨b, _, hdb, .first f rfl (G.peer_v4_none hp).1 ver (getElem?_of_goIndex hbv) rfl⟩
        | _ => exact Or.inl rfl

end Verif.Peers
