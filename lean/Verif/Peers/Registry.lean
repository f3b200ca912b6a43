import Verif.Peers.Storage
/-
Model of peers/registry.go and peers/version_provider.go.

Every exported method holds `r.mu` for its whole duration, so a concurrent
execution is a sequence of calls.  Go maps are association lists; wherever the
code iterates over a map the order is given by `Env.mapOrder`.  The clock is
read once per call (`now`); `TakeAvailableAddresses` reads it once per record.
-/

set_option autoImplicit false

namespace Verif.Peers

open Verif
open Verif.Chains (Addr BytesN Env)
open Verif.KV (Fate)

/-- `Registry`, peers/registry.go:24-33 -/
structure Registry where
  scheme : UInt8
  versions : List Version
  declared : Addr
  db : DB
  /-- `map[netip.Addr]peer.Peer` -/
  connections : List (Addr × Conn)
  /-- `map[netip.Addr]struct{}` -/
  pending : List Addr

/-- `delete(m, a)` on the set of pending addresses -/
def delPending (l : List Addr) (a : Addr) : List Addr := l.filter (fun x => decide (x ≠ a))

/-- `delete(m, a)` on the map of connections -/
def delConn (l : List (Addr × Conn)) (a : Addr) : List (Addr × Conn) := l.filter (fun x => decide (x.1 ≠ a))

/-- `m[a] = c` on the map of connections -/
def setConn (l : List (Addr × Conn)) (a : Addr) (c : Conn) : List (Addr × Conn) := (a, c) :: delConn l a

/-- `_, ok := m[a]` on the map of connections -/
def hasConn (l : List (Addr × Conn)) (a : Addr) : Bool := l.any (fun x => decide (x.1 = a))

/-- insertion into a list that is already ordered from newest to oldest -/
def insVersion (v : Version) : List Version → List Version
  | [] => [v]
  | w :: vs => if w.lt v then v :: w :: vs else w :: insVersion v vs

/-- `sort.Sort(sort.Reverse(proto.ByVersion(vs)))`: versions that compare equal are identical,
so the result does not depend on the sorting algorithm. -/
def sortVersions : List Version → List Version
  | [] => []
  | v :: vs => insVersion v (sortVersions vs)

/-- `newVersions`, peers/registry.go:367-374 -/
def newVersions (vs : List Version) : List Version :=
  (sortVersions vs).map (fun v => ⟨v.major, v.minor, 0⟩)

/-- `bestVersion`, peers/registry.go:376-378 -/
def bestVersion (vs : List Version) : Go Version := goIndex vs 0

/-- the search loop of `nextVersion`, peers/registry.go:381-387: the index of the first version
with the same major and minor, or the length -/
def findVersion (v : Version) : List Version → Nat
  | [] => 0
  | x :: vs => if v.major = x.major ∧ v.minor = x.minor then 0 else findVersion v vs + 1

/-- `nextVersion`, peers/registry.go:380-392; the comparison `i >= len(vs)-1` is on signed
integers -/
def nextVersion (vs : List Version) (v : Version) : Go Version :=
  let i := findVersion v vs
  if (i : Int) ≥ (vs.length : Int) - 1 then goIndex vs 0 else goIndex vs (i + 1)

/-- Configuration of `NewRegistry` -/
structure Config where
  scheme : UInt8
  declared : Addr
  versions : List Version

/-- `NewRegistry`, peers/registry.go:35-57, on an existing database; the error branches (the
database cannot be opened, the declared address does not parse) give no registry and are left
out. -/
def NewRegistry (c : Config) (db : DB) : Registry :=
  { scheme := c.scheme, declared := c.declared, versions := newVersions c.versions, db := db, connections := [],
    pending := [] }

/-- `checkPort`, peers/registry.go:136-158.  The Boolean says whether the connection was closed. -/
def checkPort (a : Addr) (h : Handshake) : Bool × Go UInt16 :=
  match h.declared with
  | .empty => (false, .ok 0)
  | .unparsable => (false, fail (.other "invalid declared address"))
  | .addrPort ap =>
    if isLoopback ap.addr then (true, fail (.other "loopback"))
    else if is4 ap.addr then (false, .ok (if ap.addr = a then ap.port else 0))
    else (true, fail (.other "not IPv4"))

/-- the hostile record of `RegisterPeer`, peers/registry.go:93-95 and 100-102; 40 and 41 are the
parentheses -/
def hostilePeer (p : Peer) (np : Conn) : Peer :=
  { p with state := .hostile, version := np.handshake.version,
           name := np.handshake.nodeName ++ [40] ++ np.handshake.appName ++ [41] }

/-- `RegisterPeer` after the lookup, peers/registry.go:92-121; `p` is the stored peer or `Peer{}` -/
def registerFound (lib : Lib) (f : Fate) (now : Int) (r : Registry) (a : Addr) (np : Conn) (h : Handshake)
    (p : Peer) : Registry × Bool × Go Unit :=
  let hostile : Registry × Bool × Go Unit :=
    let (db', res) := putPeer f r.db (hostilePeer p np)
    ({ r with db := db' }, true, res)
  if lib.cmpMinor np.handshake.version p.version ≥ 2 then hostile
  else match np.handshake.appName.getLast? with
    | none => (r, false, goPanic)
    | some b =>
      if b ≠ r.scheme then hostile
      else match checkPort a h with
        | (closed, .error e) => (r, closed, .error e)
        | (_, .ok port) =>
          let p' : Peer :=
            { p with addr := a, port := port, nonce := h.nonce, name := h.nodeName, version := h.version,
                     state := .connected, nextAttempt := roundSec now, conn := some np }
          let (db', res) := putPeer f r.db p'
          ({ r with db := db', connections := setConn r.connections a np }, false, res)

/-- `RegisterPeer`, peers/registry.go:63-122.  Returns the registry, whether the connection was
closed, and the error.  The test for a hostile state in lines 85-88 is reached only with the zero
`Peer`, whose state is not hostile. -/
def RegisterPeer (lib : Lib) (f : Fate) (now : Int) (r : Registry) (a : Addr) (np : Conn) (h : Handshake) :
    Registry × Bool × Go Unit :=
  let r := { r with pending := delPending r.pending a }
  if is4 a then
    if a = r.declared then (r, false, fail (.other "connection to itself"))
    else match peer r.db a with
      | .ok p => registerFound lib f now r a np h p
      | .error (.err .notFound) => registerFound lib f now r a np h Peer.zero
      | .error e => (r, true, .error e)
  else (r, true, fail (.other "not an IPv4 address"))

/-- `UpdatePeerScore`, peers/registry.go:124-134 -/
def UpdatePeerScore (f : Fate) (r : Registry) (a : Addr) (score : Nat) : Registry × Go Unit :=
  match peer r.db a with
  | .error e => (r, .error e)
  | .ok p =>
    let (db', res) := putPeer f r.db { p with score := some score }
    ({ r with db := db' }, res)

/-- `UnregisterPeer`, peers/registry.go:160-179 -/
def UnregisterPeer (f : Fate) (now : Int) (r : Registry) (a : Addr) : Registry × Go Unit :=
  match peer r.db a with
  | .error e => (r, .error e)
  | .ok p =>
    let (db', res) := putPeer f r.db { p with nextAttempt := roundSec (now + delay), conn := none }
    ({ r with db := db', pending := delPending r.pending a, connections := delConn r.connections a }, res)

/-- `MarkAsHostile`, peers/registry.go:181-202.  The argument is the result of
`netip.ParseAddr(addr.String())`, which fails for every `net.TCPAddr` because of the port. -/
def MarkAsHostile (f : Fate) (r : Registry) (arg : Option Addr) : Registry × Go Unit :=
  match arg with
  | none => (r, fail (.other "address"))
  | some a =>
    let r := { r with pending := delPending r.pending a }
    let mark (p : Peer) : Registry × Go Unit :=
      let (db', res) := putPeer f r.db { p with addr := a, port := 0, state := .hostile }
      ({ r with db := db' }, res)
    match peer r.db a with
    | .ok p => mark p
    | .error (.err .notFound) => mark Peer.zero
    | .error e => (r, .error e)

/-- the body of the loop of `Connections`, peers/registry.go:211-219, over the map in the order
given by the runtime -/
def connectionsLoop (db : DB) : List (Addr × Conn) → Go (List Peer)
  | [] => .ok []
  | (a, c) :: l => do
    let sp ← peer db a
    let rest ← connectionsLoop db l
    .ok ({ sp with conn := some c } :: rest)

/-- `ByName.Less`, peers/by_name.go:15-19 -/
def byName (lib : Lib) (p q : Peer) : Bool := bytesLt (lib.upper p.name) (lib.upper q.name)

/-- `Connections`, peers/registry.go:205-222 -/
def Connections (lib : Lib) (env : Env) (r : Registry) : Go (List Peer) := do
  let l ← connectionsLoop r.db (env.mapOrder r.connections)
  .ok (env.sort (byName lib) l)

/-- the acceptance tests of `AppendAddresses`, peers/registry.go:233-249 -/
def acceptable (r : Registry) (ap : AddrPort) : Bool :=
  is4 ap.addr && !isLoopback ap.addr && decide (ap.addr ≠ r.declared)

/-- the `Peer` that `AppendAddresses` stores, peers/registry.go:255-258 -/
def newPeer (ap : AddrPort) : Peer := { Peer.zero with addr := ap.addr, port := ap.port, state := .unknown }

/-- `AppendAddresses`, peers/registry.go:226-267, from a given count on; an element is the result
of `netip.ParseAddrPort` on the address.  `fs` are the fates of the writes. -/
def appendLoop (fs : Nat → Fate) (r : Registry) : List (Option AddrPort) → Nat → Registry × Go Nat
  | [], count => (r, .ok count)
  | none :: l, count => appendLoop fs r l count
  | some ap :: l, count =>
    if acceptable r ap then
      match hasPeer r.db ap.addr with
      | .error .panic => (r, .error .panic)
      | .error (.err _) => (r, .ok count)
      | .ok true => appendLoop fs r l count
      | .ok false =>
        match putPeer (fs count) r.db (newPeer ap) with
        | (db', .ok ()) => appendLoop fs { r with db := db' } l (count + 1)
        | (db', .error .panic) => ({ r with db := db' }, .error .panic)
        | (db', .error (.err _)) => ({ r with db := db' }, .ok count)
    else appendLoop fs r l count

/-- `AppendAddresses`, peers/registry.go:226-267 -/
def AppendAddresses (fs : Nat → Fate) (r : Registry) (l : List (Option AddrPort)) : Registry × Go Nat :=
  appendLoop fs r l 0

/-- `Peer`, peers/registry.go:269-274 -/
def PeerOf (r : Registry) (a : Addr) : Go Peer := peer r.db a

/-- `Peers`, peers/registry.go:276-286 -/
def Peers (lib : Lib) (env : Env) (r : Registry) : Go (List Peer) := do
  let l ← peers r.db
  .ok (env.sort (byName lib) l)

/-- `FriendlyPeers`, peers/registry.go:288-304 -/
def FriendlyPeers (lib : Lib) (env : Env) (r : Registry) : Go (List Peer) := do
  let l ← peers r.db
  .ok (env.sort (byName lib) (l.filter (fun p => decide (p.state = .connected))))

/-- `Addr.As4`: IPv4 and IPv4-mapped addresses; panics otherwise -/
def as4 : Addr → Go (BytesN 4)
  | .zero => goPanic
  | .v4 b => .ok b
  | .v6 b _ => if b.1.take 12 = List.replicate 10 0 ++ [255, 255] then .ok ⟨b.1.drop 12, by simp [b.2]⟩ else goPanic

/-- `Peer.TCPAddr`, peers/peer.go:47-53 -/
def tcpAddr (p : Peer) : Go (BytesN 4 × UInt16) := do
  let ip ← as4 p.addr
  .ok (ip, p.port)

/-- conversion loop of `Addresses`, peers/registry.go:312-314 -/
def tcpAddrs : List Peer → Go (List (BytesN 4 × UInt16))
  | [] => .ok []
  | p :: ps => do
    let x ← tcpAddr p
    let xs ← tcpAddrs ps
    .ok (x :: xs)

/-- `Addresses`, peers/registry.go:306-316 -/
def Addresses (lib : Lib) (env : Env) (r : Registry) : Go (List (BytesN 4 × UInt16)) := do
  let l ← FriendlyPeers lib env r
  tcpAddrs l

/-- the tests of `TakeAvailableAddresses`, peers/registry.go:331-350, with the pending set built
so far -/
def available (r : Registry) (now : Int) (pending : List Addr) (p : Peer) : Bool :=
  decide (p.state ≠ .hostile) && decide (p.port ≠ 0) && decide (p.addr ≠ r.declared) &&
  !decide (p.nextAttempt * second > now) && !hasConn r.connections p.addr && !pending.contains p.addr

/-- loop of `TakeAvailableAddresses`, peers/registry.go:330-353 -/
def takeLoop (r : Registry) (now : Int) : List Peer → List Addr → List AddrPort × List Addr
  | [], pending => ([], pending)
  | p :: ps, pending =>
    if available r now pending p then
      let (l, pending') := takeLoop r now ps (p.addr :: pending)
      (p.addressPort :: l, pending')
    else takeLoop r now ps pending

/-- `TakeAvailableAddresses`, peers/registry.go:320-355 -/
def TakeAvailableAddresses (now : Int) (r : Registry) : Registry × Go (List AddrPort) :=
  match peers r.db with
  | .error e => (r, .error e)
  | .ok ps =>
    let (l, pending') := takeLoop r now ps r.pending
    ({ r with pending := pending' }, .ok l)

/-- `Broadcast`, peers/registry.go:357-363: the connections the message is sent to, in order -/
def Broadcast (env : Env) (r : Registry) : List Conn := (env.mapOrder r.connections).map (·.2)

/-- `SuggestVersion`, peers/version_provider.go:19-57 -/
def SuggestVersion (f : Fate) (now : Int) (r : Registry) (a : Addr) : Registry × Go Version :=
  match peer r.db a with
  | .error (.err .notFound) =>
    match bestVersion r.versions with
    | .error e => (r, .error e)
    | .ok ver =>
      let np : Peer := { Peer.zero with addr := a, port := 0, version := ver,
                                        nextAttempt := roundSec (now + delay), state := .unknown }
      let w := putPeer f r.db np
      ({ r with db := w.1 }, do let _ ← w.2; .ok ver)
  | .error e => (r, .error e)
  | .ok p =>
    match p.state with
    | .unknown =>
      match nextVersion r.versions p.version with
      | .error e => (r, .error e)
      | .ok ver =>
        let w := putPeer f r.db { p with version := ver, nextAttempt := roundSec (now + delay) }
        ({ r with db := w.1 }, do let _ ← w.2; .ok ver)
    | .connected => (r, .ok p.version)
    | .hostile => (r, fail (.other "peer is hostile"))

end Verif.Peers
