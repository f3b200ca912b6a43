import Verif.Peers.Registry
/-
Vocabulary of the properties of the peer registry: calls, histories, and when
a registration counts as accepted.
-/

set_option autoImplicit false

namespace Verif.Peers

open Verif
open Verif.Chains (Addr BytesN Env)
open Verif.KV (Fate)

/-- One call that may change the registry; `reopen` is a restart of the program on the same
database, possibly with another configuration. -/
inductive Op where
  | register (f : Fate) (a : Addr) (np : Conn) (h : Handshake)
  | unregister (f : Fate) (a : Addr)
  | markHostile (f : Fate) (arg : Option Addr)
  | updateScore (f : Fate) (a : Addr) (score : Nat)
  | append (fs : Nat → Fate) (l : List (Option AddrPort))
  | take
  | suggest (f : Fate) (a : Addr)
  | reopen (c : Config)

/-- a call and the time of the call -/
structure Event where
  now : Int
  op : Op

/-- the registry after one call, whatever the call returned -/
def step (lib : Lib) (r : Registry) (e : Event) : Registry :=
  match e.op with
  | .register f a np h => (RegisterPeer lib f e.now r a np h).1
  | .unregister f a => (UnregisterPeer f e.now r a).1
  | .markHostile f arg => (MarkAsHostile f r arg).1
  | .updateScore f a s => (UpdatePeerScore f r a s).1
  | .append fs l => (AppendAddresses fs r l).1
  | .take => (TakeAvailableAddresses e.now r).1
  | .suggest f a => (SuggestVersion f e.now r a).1
  | .reopen c => NewRegistry c r.db

/-- the registry after a history -/
def exec (lib : Lib) (r : Registry) (es : List Event) : Registry := es.foldl (step lib) r

/-- A registry that the program can be in: started on an empty database with some configuration,
followed by any calls. -/
def Reachable (lib : Lib) (r : Registry) : Prop :=
  ∃ (c : Config) (es : List Event), r = exec lib (NewRegistry c []) es

/-- The declared address of a handshake does not disqualify the peer. -/
def DeclaredOk (h : Handshake) : Prop :=
  h.declared = .empty ∨
  ∃ ap, h.declared = .addrPort ap ∧ isLoopback ap.addr = false ∧ is4 ap.addr = true

/-- The version on record for an address: the stored one, or the zero version. -/
def versionOnRecord (r : Registry) (a : Addr) : Version :=
  match PeerOf r a with
  | .ok p => p.version
  | .error _ => .zero

/-- A registration is accepted: an IPv4 address other than our own, a version close enough to the
one on record, our network, and a usable declared address. -/
structure Accepted (lib : Lib) (r : Registry) (a : Addr) (np : Conn) (h : Handshake) : Prop where
  ipv4 : is4 a = true
  other : a ≠ r.declared
  version : lib.cmpMinor np.handshake.version (versionOnRecord r a) < 2
  network : np.handshake.appName.getLast? = some r.scheme
  declared : DeclaredOk h

/-- The event is a `RegisterPeer` call for the address. -/
def Event.registers (e : Event) (a : Addr) : Bool :=
  match e.op with
  | .register _ a' _ _ => decide (a' = a)
  | _ => false

/-- The event is a `RegisterPeer`, `UnregisterPeer` or `MarkAsHostile` call for the address, or a
restart. -/
def Event.releases (e : Event) (a : Addr) : Bool :=
  match e.op with
  | .register _ a' _ _ => decide (a' = a)
  | .unregister _ a' => decide (a' = a)
  | .markHostile _ arg => decide (arg = some a)
  | .reopen _ => true
  | _ => false

/-- The connection manager calls `SuggestVersion` before every connection and gives up when it
fails: every `RegisterPeer` call for the address in the history comes after a successful
`SuggestVersion` call for it in the same history. -/
def Managed (lib : Lib) (r : Registry) (es : List Event) (a : Addr) : Prop :=
  ∀ es1 e es2, es = es1 ++ e :: es2 → e.registers a = true →
    ∃ es3 e' es4 f ver, es1 = es3 ++ e' :: es4 ∧ e'.op = .suggest f a ∧
      (SuggestVersion f e'.now (exec lib r es3) a).2 = .ok ver

/-- `ap` is in the list and no earlier element has the same IP address -/
def First (l : List (Option AddrPort)) (ap : AddrPort) : Prop :=
  ∃ l1 l2, l = l1 ++ some ap :: l2 ∧ ∀ ap', some ap' ∈ l1 → ap'.addr ≠ ap.addr

/-- The call ends the connection on record for the address: a new accepted registration replaces
it, an unregistration of a known peer drops it, a restart forgets it. -/
def Ends (lib : Lib) (r : Registry) (e : Event) (a : Addr) : Prop :=
  (∃ f np h, e.op = .register f a np h ∧ Accepted lib r a np h) ∨
  (∃ f p, e.op = .unregister f a ∧ PeerOf r a = .ok p) ∨
  ∃ c, e.op = .reopen c

/-- Connection `c` was registered for address `a` in the history, and nothing ended it since. -/
def Live (lib : Lib) (r0 : Registry) (es : List Event) (a : Addr) (c : Conn) : Prop :=
  ∃ es1 e es2 f h, es = es1 ++ e :: es2 ∧ e.op = .register f a c h ∧ Accepted lib (exec lib r0 es1) a c h ∧
    ∀ es3 e' es4, es2 = es3 ++ e' :: es4 → ¬ Ends lib (exec lib r0 (es1 ++ e :: es3)) e' a

/-- the answers of the `SuggestVersion` calls for the address in a history -/
def suggestions (lib : Lib) (a : Addr) : Registry → List Event → List (Go Version)
  | _, [] => []
  | r, e :: es =>
    match e.op with
    | .suggest f a' =>
      if a' = a then (SuggestVersion f e.now r a).2 :: suggestions lib a (step lib r e) es
      else suggestions lib a (step lib r e) es
    | _ => suggestions lib a (step lib r e) es

/-- Nothing but version suggestions can change what is suggested for the address: it does not
register and is not marked hostile, the program is not restarted, and its own suggestions are
stored. -/
def Event.quiet (e : Event) (a : Addr) : Bool :=
  match e.op with
  | .register _ a' _ _ => decide (a' ≠ a)
  | .markHostile _ arg => decide (arg ≠ some a)
  | .reopen _ => false
  | .suggest f a' => decide (a' = a → f = .ok)
  | _ => true

end Verif.Peers
