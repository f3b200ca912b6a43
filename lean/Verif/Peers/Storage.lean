import Verif.Peers.Types
/-
Model of peers/storage.go.
-/

set_option autoImplicit false

namespace Verif.Peers

open Verif
open Verif.Chains (Addr BytesN)
open Verif.KV (Fate)

/-- `value`, peers/storage.go:42-50 -/
structure Value where
  port : UInt16
  nonce : UInt64
  name : Bytes
  version : Version
  state : State
  nextAttempt : Int
  score : Option Nat
deriving DecidableEq

/-- a stored value: the CBOR encoding of a `value`, or bytes that CBOR rejects, or a `value`
whose version string does not parse.  The last two are never written by the program; they stand
for a damaged database. -/
inductive Val where
  | record (v : Value)
  | badCbor
  | badVersion
deriving DecidableEq

abbrev DB := KV.DB Val

/-- `key.bytes`, peers/storage.go:26-31: the first four bytes of the binary form, whatever the
address family; slicing the empty binary form of the invalid address panics. -/
def keyBytes (a : Addr) : Go Bytes :=
  match a with
  | .zero => goPanic
  | .v4 b => .ok b.1
  | .v6 b _ => .ok (b.1.take 4)

/-- `key.fromBytes`, peers/storage.go:33-40 -/
def keyFrom (k : Bytes) : Go Addr :=
  if h : k.length = 4 then .ok (.v4 ⟨k, h⟩) else goPanic

/-- the `Peer` built from a stored record, peers/storage.go:87-95 and 144-152 -/
def Value.toPeer (a : Addr) (v : Value) : Peer :=
  { addr := a, port := v.port, nonce := v.nonce, name := v.name, version := v.version, state := v.state,
    nextAttempt := v.nextAttempt, score := v.score, conn := none }

/-- `storage.peer`, peers/storage.go:68-96.  A record that CBOR rejects gives the zero `Peer` and
a nil error (line 82 returns the outer `err`). -/
def peer (db : DB) (a : Addr) : Go Peer := do
  let k ← keyBytes a
  match KV.get db k with
  | none => fail .notFound
  | some .badCbor => .ok Peer.zero
  | some .badVersion => fail (.other "version")
  | some (.record v) => .ok (v.toPeer a)

/-- the record built from a `Peer`, peers/storage.go:107-115; the live connection is dropped -/
def Peer.toValue (p : Peer) : Value :=
  { port := p.port, nonce := p.nonce, name := p.name, version := p.version, state := p.state,
    nextAttempt := p.nextAttempt, score := p.score }

/-- `storage.putPeer`, peers/storage.go:98-122 -/
def putPeer (f : Fate) (db : DB) (p : Peer) : DB × Go Unit :=
  if is4 p.addr then
    if validUTF8 p.name then
      match keyBytes p.addr with
      | .ok k => KV.write f db [.put k (.record p.toValue)]
      | .error e => (db, .error e)
    else (db, fail (.other "invalid peer name"))
  else (db, fail (.other "invalid IP address length"))

/-- `storage.peers`, peers/storage.go:124-156: the whole database in key order -/
def peers (db : DB) : Go (List Peer) :=
  match db with
  | [] => .ok []
  | (k, v) :: db => do
    let a ← keyFrom k
    match v with
    | .badCbor => fail .badRecord
    | .badVersion => fail (.other "version")
    | .record v => do
      let ps ← peers db
      .ok (v.toPeer a :: ps)

/-- `storage.hasPeer`, peers/storage.go:158-167 -/
def hasPeer (db : DB) (a : Addr) : Go Bool := do
  let k ← keyBytes a
  .ok (KV.get db k).isSome

end Verif.Peers
