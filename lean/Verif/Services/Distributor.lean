import Verif.Loading.Spec
/-
Model of connection_manager.go (the message filter) and distributor.go (what is
done with messages and notices from peers).

Messages are decoded by gowaves; a payload that does not decode is `none`.  The
handlers run in the goroutine of the distributor.  A handler that sends to a
channel ends with that send (distributor.go:213, 266, 281), so the package to
send is its result; the send itself is in `Services.Program`.
-/

set_option autoImplicit false

namespace Verif.Services

open Verif
open Verif.Chains (Addr BytesN BlockID ProtoBlock MicroInv Linkage PutBlock PutMicroBlock)
open Verif.Peers (Conn Registry Lib AddrPort Handshake)
open Verif.Loading (Ctx Loader)

/-- `proto.PeerMessageID`: the named content ids of gowaves, and all other values of the byte -/
inductive Kind where
  | getPeers
  | peers
  | getSignatures
  | signatures
  | getBlock
  | block
  | score
  | transaction
  | invMicroblock
  | checkpoint
  | microblockRequest
  | microblock
  | pbBlock
  | pbMicroBlock
  | pbTransaction
  | getBlockIDs
  | blockIDs
  | getBlockSnapshot
  | microBlockSnapshot
  | blockSnapshot
  | microBlockSnapshotRequest
  | unnamed (b : UInt8)
deriving DecidableEq

/-- the table of connection_manager.go:36-58 -/
def discarded : List (Kind × Bool) :=
  [(.getPeers, false),
   (.peers, false),
   (.getSignatures, true),
   (.signatures, false),
   (.getBlock, true),
   (.block, false),
   (.score, false),
   (.transaction, true),
   (.invMicroblock, false),
   (.checkpoint, true),
   (.microblockRequest, true),
   (.microblock, true),
   (.pbBlock, false),
   (.pbMicroBlock, true),
   (.pbTransaction, true),
   (.getBlockIDs, true),
   (.blockIDs, false),
   (.getBlockSnapshot, true),
   (.microBlockSnapshot, true),
   (.blockSnapshot, true),
   (.microBlockSnapshotRequest, true)]

/-- `skipFunc`, connection_manager.go:117-122 -/
def skip (k : Kind) : Bool :=
  match discarded.lookup k with
  | some r => r
  | none => false

/-- `proto.Message`: the message types of gowaves, with the parts that the distributor reads.
Blocks and micro-block announcements are the results of `UnmarshalBinary` and
`UnmarshalFromProtobuf`, `none` for an error; addresses of peers are the results of
`netip.ParseAddrPort(pi.String())`. -/
inductive Message where
  | getPeers
  | peers (l : List (Option AddrPort))
  | getSignatures
  | signatures (l : List (BytesN 64))
  | getBlock
  | block (b : Option ProtoBlock)
  | score (b : Bytes)
  | transaction
  | microBlockInv (inv : Option MicroInv)
  | checkpoint
  | microBlockRequest
  | microBlock
  | pbBlock (b : Option ProtoBlock)
  | pbMicroBlock
  | pbTransaction
  | getBlockIds
  | blockIds (l : List BlockID)
  | getBlockSnapshot
  | microBlockSnapshot
  | blockSnapshot
  | microBlockSnapshotRequest
deriving DecidableEq

/-- the content id a message type is sent with (gowaves, trusted); `proto.UnmarshalMessage`
returns an error for unnamed ids, so they give no message -/
def Message.kind : Message → Kind
  | .getPeers => .getPeers
  | .peers _ => .peers
  | .getSignatures => .getSignatures
  | .signatures _ => .signatures
  | .getBlock => .getBlock
  | .block _ => .block
  | .score _ => .score
  | .transaction => .transaction
  | .microBlockInv _ => .invMicroblock
  | .checkpoint => .checkpoint
  | .microBlockRequest => .microblockRequest
  | .microBlock => .microblock
  | .pbBlock _ => .pbBlock
  | .pbMicroBlock => .pbMicroBlock
  | .pbTransaction => .pbTransaction
  | .getBlockIds => .getBlockIDs
  | .blockIds _ => .blockIDs
  | .getBlockSnapshot => .getBlockSnapshot
  | .microBlockSnapshot => .microBlockSnapshot
  | .blockSnapshot => .blockSnapshot
  | .microBlockSnapshotRequest => .microBlockSnapshotRequest

/-- a `peer.Peer` that a message or notice comes from; `remote` is the address in the result of
`netip.ParseAddrPort(peer.RemoteAddr().String())`, `none` for an error -/
structure Sender where
  conn : Conn
  remote : Option Addr
deriving DecidableEq

/-- `loading.IDsPackage` and `loading.BlockPackage`, loading/loader.go:33-41 -/
inductive Pkg where
  | ids (peer : Addr) (ids : List BlockID)
  | block (peer : Addr) (b : ProtoBlock)
deriving DecidableEq

/-- what the distributor does to connections -/
inductive Out where
  /-- `SendMessage` of a `PeersMessage` -/
  | peersTo (to : Conn) (l : List (BytesN 4 × UInt16))
  /-- `SendMessage` of a `GetPeersMessage` -/
  | ping (to : Conn)
  /-- `Close` -/
  | close (c : Conn)
deriving DecidableEq

/-- what a handler does: the registry and the store after it (in the record of the loader), the
package it sends at its end, and what it does to connections -/
structure Handled where
  l : Loader
  pkg : Option Pkg := none
  out : List Out := []

/-- `big.NewInt(0).SetBytes(score)`: a big-endian number -/
def setBytes (b : Bytes) : Nat := b.foldl (fun n x => n * 256 + x.toNat) 0

/-- an error is logged, a panic ends the program -/
def noPanic {α : Type} (r : Go α) (h : Handled) : Go Handled :=
  match r with
  | .error .panic => goPanic
  | _ => .ok h

/-- `handleScoreMessage`, distributor.go:164-177 -/
def handleScore (c : Ctx) (l : Loader) (p : Sender) (score : Bytes) : Go Handled :=
  match p.remote with
  | none => .ok { l := l }
  | some a =>
    let w := Peers.UpdatePeerScore (c.fates 0) l.reg a (setBytes score)
    noPanic w.2 { l := { l with reg := w.1 } }

/-- `handleBlock`, distributor.go:204-215, called by `handleBlockMessage` (distributor.go:179-189) and
`handleProtoBlockMessage` (distributor.go:191-202), which return when the block does not decode -/
def handleBlock (c : Ctx) (l : Loader) (p : Sender) (b : Option ProtoBlock) : Go Handled :=
  match b, p.remote with
  | none, _ => .ok { l := l }
  | some _, none => .ok { l := l }
  | some b, some a =>
    let w := PutBlock (c.fates 0) (c.fates 1) l.link.db b a
    let l' := { l with link := { l.link with db := w.1 } }
    match w.2 with
    | .error .panic => goPanic
    | .error (.err .parentNotFound) => .ok { l := l', pkg := some (.block a b) }
    | .error (.err _) => .ok { l := l' }
    | .ok () => .ok { l := l', pkg := some (.block a b) }

/-- `handlePeersMessage`, distributor.go:217-232; addresses that do not parse are dropped.  The text of a `net.IP` is never that of an
IPv4-mapped address, so the way through `net.TCPAddr` and its text (distributor.go:226, peers/registry.go:232) changes nothing. -/
def handlePeers (c : Ctx) (l : Loader) (ps : List (Option AddrPort)) : Go Handled :=
  let w := Peers.AppendAddresses c.fates l.reg ((ps.filterMap id).map some)
  noPanic w.2 { l := { l with reg := w.1 } }

/-- `handleGetPeersMessage`, distributor.go:234-253 -/
def handleGetPeers (lib : Lib) (c : Ctx) (l : Loader) (p : Sender) : Go Handled :=
  match Peers.FriendlyPeers lib c.env l.reg with
  | .error .panic => goPanic
  | .error (.err _) => .ok { l := l }
  | .ok fs => do
    let infos ← Peers.tcpAddrs fs
    .ok { l := l, out := [.peersTo p.conn infos] }

/-- `proto.NewBlockIDFromSignature` -/
def idFromSignature (s : BytesN 64) : BlockID := ⟨s.1, Or.inr s.2⟩

/-- `handleSignaturesMessage`, distributor.go:255-267 -/
def handleSignatures (l : Loader) (p : Sender) (sigs : List (BytesN 64)) : Go Handled :=
  match p.remote with
  | none => .ok { l := l }
  | some a => .ok { l := l, pkg := some (.ids a (sigs.map idFromSignature)) }

/-- `handleBlockIDsMessage`, distributor.go:269-282 -/
def handleBlockIDs (l : Loader) (p : Sender) (ids : List BlockID) : Go Handled :=
  match p.remote with
  | none => .ok { l := l }
  | some a => if ids = [] then .ok { l := l } else .ok { l := l, pkg := some (.ids a ids) }

/-- `handleMicroBlockInvMessage`, distributor.go:284-301 -/
def handleMicroBlockInv (c : Ctx) (l : Loader) (p : Sender) (inv : Option MicroInv) : Go Handled :=
  match p.remote, inv with
  | none, _ => .ok { l := l }
  | some _, none => .ok { l := l }
  | some a, some inv =>
    let w := PutMicroBlock (c.fates 0) (c.fates 1) l.link.db inv a
    noPanic w.2 { l := { l with link := { l.link with db := w.1 } } }

/-- `handleMessage`, distributor.go:143-162 -/
def handleMessage (lib : Lib) (c : Ctx) (l : Loader) (p : Sender) (m : Message) : Go Handled :=
  match m with
  | .getPeers => handleGetPeers lib c l p
  | .peers ps => handlePeers c l ps
  | .signatures sigs => handleSignatures l p sigs
  | .block b => handleBlock c l p b
  | .score s => handleScore c l p s
  | .microBlockInv inv => handleMicroBlockInv c l p inv
  | .pbBlock b => handleBlock c l p b
  | .blockIds ids => handleBlockIDs l p ids
  | _ => .ok { l := l }

/-- a message arrives: gowaves asks `skip` before it decodes the message and hands it to the
distributor -/
def receive (lib : Lib) (c : Ctx) (l : Loader) (p : Sender) (m : Message) : Go Handled :=
  if skip m.kind then .ok { l := l } else handleMessage lib c l p m

/-- `handleConnected`, distributor.go:115-125.  `RegisterPeer` may close the connection. -/
def handleConnected (lib : Lib) (c : Ctx) (l : Loader) (p : Sender) : Go Handled :=
  match p.remote with
  | none => .ok { l := l }
  | some a =>
    let w := Peers.RegisterPeer lib (c.fates 0) c.now l.reg a p.conn p.conn.handshake
    noPanic w.2.2 { l := { l with reg := w.1 }, out := if w.2.1 then [.close p.conn] else [] }

/-- `handleInternalError`, distributor.go:127-141 -/
def handleInternalError (c : Ctx) (l : Loader) (p : Sender) : Go Handled :=
  match p.remote with
  | none => .ok { l := l }
  | some a =>
    let w := Peers.UnregisterPeer (c.fates 0) c.now l.reg a
    noPanic w.2 { l := { l with reg := w.1 }, out := [.close p.conn] }

/-- `pingConnections`, distributor.go:102-104 -/
def pingConnections (c : Ctx) (l : Loader) : Handled :=
  { l := l, out := (Peers.Broadcast c.env l.reg).map .ping }

end Verif.Services
