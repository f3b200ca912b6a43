import Verif.Cbor.Format
import Verif.Peers.Storage
import Verif.Services.JsonSpec
/-
The bytes of the peers database (peers/storage.go): what is written for a peer, and the functions
that read peers, on bytes.
-/

set_option autoImplicit false

namespace Verif.Cbor.Peers

open Verif Verif.Cbor
open Verif.Chains (Addr BytesN)
open Verif.Peers (Version State Value Val Peer keyBytes keyFrom zeroTime validUTF8)
open Verif.Services.Json (digits isDig decVal)

/-! ### versions -/

/-- `proto.Version.String` of gowaves: the three numbers with dots between them -/
def versionText (v : Version) : Bytes :=
  digits v.major.toNat ++ 46 :: (digits v.minor.toNat ++ 46 :: digits v.patch.toNat)

/-- `strconv.ParseUint(s, 10, 32)` on the digits at the front -/
def readDec (s : Bytes) : Option (Nat × Bytes) :=
  let ds := s.takeWhile isDig
  if ds = [] then none
  else if decVal ds < 2 ^ 32 then some (decVal ds, s.dropWhile isDig)
  else none

/-- a dot and a number -/
def readDotDec : Bytes → Option (Nat × Bytes)
  | 46 :: s => readDec s
  | _ => none

/-- `proto.NewVersionFromString` of gowaves.  It also takes one or two numbers; such texts are never
written and are refused here. -/
def readVersion (s : Bytes) : Option Version :=
  match readDec s with
  | none => none
  | some (a, s1) =>
    match readDotDec s1 with
    | none => none
    | some (b, s2) =>
      match readDotDec s2 with
      | some (c, []) => some ⟨UInt32.ofNat a, UInt32.ofNat b, UInt32.ofNat c⟩
      | _ => none

/-! ### records -/

/-- peers/state.go:6-10 -/
def stateNum : State → Nat
  | .unknown => 0
  | .connected => 1
  | .hostile => 2

/-- `encodeTime` of the library with the default `TimeUnix`: null for the zero time, else the seconds -/
def encTime (t : Int) : Bytes := if t = zeroTime then null else encInt t

/-- `cbor.Marshal(v)` for `value`, peers/storage.go:42-50 and 116 -/
def encValue (v : Value) : Bytes :=
  encStruct [(0, encUint v.port.toNat), (1, encUint v.nonce.toNat), (2, encText v.name), (3, encText (versionText v.version)),
    (4, encUint (stateNum v.state)), (5, encTime v.nextAttempt), (6, encBigPtr v.score)]

/-- a string; the library refuses texts that are not UTF-8 -/
def asText : Item → Option Bytes
  | .text b => if validUTF8 b then some b else none
  | .simple 22 => some []
  | _ => none

/-- a time, in seconds -/
def asTime : Item → Option Int
  | .uint n => if n < 2 ^ 63 then some n else none
  | .nint n => if n < 2 ^ 63 then some (-1 - n) else none
  | .simple 22 => some zeroTime
  | _ => none

/-- a `State`.  Other bytes than the three that are written have no counterpart in the model. -/
def asState (i : Item) : Option State :=
  match asUint 255 i with
  | some 0 => some .unknown
  | some 1 => some .connected
  | some 2 => some .hostile
  | _ => none

/-- `cbor.Unmarshal(b, v)` and `proto.NewVersionFromString(v.Version)`, peers/storage.go:79-86 and 136-143 -/
def decValue (b : Bytes) : Val :=
  match readStruct b with
  | none => .badCbor
  | some l =>
    match asUint 65535 (lookup l 0), asUint (2 ^ 64 - 1) (lookup l 1), asText (lookup l 2), asText (lookup l 3),
      asState (lookup l 4), asTime (lookup l 5), asBig (lookup l 6) with
    | some p, some n, some nm, some vt, some st, some t, some sc =>
      match readVersion vt with
      | none => .badVersion
      | some ver =>
        .record { port := UInt16.ofNat p, nonce := UInt64.ofNat n, name := nm, version := ver, state := st, nextAttempt := t, score := sc }
    | _, _, _, _, _, _, _ => .badCbor

/-! ### the database -/

/-- a stored value.  The two kinds of damaged values are never written. -/
def encVal : Val → Bytes
  | .record v => encValue v
  | .badCbor => []
  | .badVersion => encStruct []

/-- the database on disk -/
def encDB (db : Verif.Peers.DB) : KV.DB Bytes := db.map (fun p => (p.1, encVal p.2))

/-- a batch as it is given to LevelDB -/
def encBatch (b : KV.Batch Val) : KV.Batch Bytes := b.map (encOp encVal)

/-- `storage.peer`, peers/storage.go:68-96 -/
def peer (db : KV.DB Bytes) (a : Addr) : Go Peer := do
  let k ← keyBytes a
  match KV.get db k with
  | none => fail .notFound
  | some b =>
    match decValue b with
    | .badCbor => .ok Peer.zero
    | .badVersion => fail (.other "version")
    | .record v => .ok (v.toPeer a)

/-- `storage.peers`, peers/storage.go:124-156 -/
def peers (db : KV.DB Bytes) : Go (List Peer) :=
  match db with
  | [] => .ok []
  | (k, b) :: db => do
    let a ← keyFrom k
    match decValue b with
    | .badCbor => fail .badRecord
    | .badVersion => fail (.other "version")
    | .record v => do
      let ps ← peers db
      .ok (v.toPeer a :: ps)

/-- `storage.hasPeer`, peers/storage.go:158-167 -/
def hasPeer (db : KV.DB Bytes) (a : Addr) : Go Bool := do
  let k ← keyBytes a
  .ok (KV.get db k).isSome

end Verif.Cbor.Peers
