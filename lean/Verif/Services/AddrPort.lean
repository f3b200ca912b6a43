import Verif.Services.Netip
import Verif.Services.Params
/-
Addresses with ports as texts.  The program hands addresses on as texts: `RemoteAddr().String()` of a connection is given to
`netip.ParseAddrPort` (distributor.go:116, 128, 165, 205, 256, 270, 285), so are the addresses of seed peers and of peers that others
told of (distributor.go:221, peers/registry.go:232), the declared addresses (peers/registry.go:44, 139) and the bind addresses
(parameters.go); `AddrPort.String` is given to `proto.NewTCPAddrFromString` when a peer is dialled (respawn.go:79), and
`MarkAsHostile` gives the text of a `net.Addr` to `netip.ParseAddr` (peers/registry.go:185).
Written from knowledge of the libraries of Go 1.22, the sources of which are not in the sandbox.
-/

set_option autoImplicit false

namespace Verif.Services.Netip

open Verif
open Verif.Chains (Addr BytesN)
open Verif.Peers (AddrPort is4)
open Verif.Services.Json (digits dotted hex)

/-! ### writing -/

/-- `Addr.String`; the zone of an IPv6 address follows a percent sign -/
def addrText : Addr → List Char
  | .zero => "invalid IP".toList
  | .v4 b => chars (dotted b.1)
  | .v6 b z => chars (v6Text b "") ++ (if z = "" then [] else '%' :: z.toList)

/-- a port in decimal digits -/
def portText (p : UInt16) : List Char := chars (digits p.toNat)

/-- `netip.AddrPort.String` -/
def apText (ap : AddrPort) : List Char :=
  match ap.addr with
  | .zero => "invalid AddrPort".toList
  | .v4 b => addrText (.v4 b) ++ ':' :: portText ap.port
  | .v6 b z => '[' :: (addrText (.v6 b z) ++ ']' :: ':' :: portText ap.port)

/-- `net.TCPAddr` with a port that is one -/
structure TCP where
  ip : Bytes
  zone : String
  port : UInt16

/-- `net.IP.String` of an address that is not empty: four bytes, and sixteen bytes that stand for four (`To4`), are written as IPv4 -/
def ipText (ip : Bytes) : List Char :=
  if h : ip.length = 4 then chars (dotted ip)
  else if h : ip.length = 16 then
    if in6 ip then chars (dotted (ip.drop 12)) else chars (v6Text ⟨ip, h⟩ "")
  else '?' :: chars (ip.flatMap (fun b => [hex (b / 16), hex (b % 16)]))

/-- `net.JoinHostPort` -/
def joinHostPort (host port : List Char) : List Char :=
  if host.contains ':' then '[' :: (host ++ ']' :: ':' :: port) else host ++ ':' :: port

/-- `net.TCPAddr.String`; the `proto.TCPAddr` and `proto.PeerInfo` of gowaves, which have no zones, are written in the same way -/
def tcpText (t : TCP) : List Char :=
  joinHostPort ((if t.ip = [] then [] else ipText t.ip) ++ (if t.zone = "" then [] else '%' :: t.zone.toList)) (portText t.port)

/-! ### reading -/

/-- what is before and after the last `d` -/
def splitLast (d : Char) : List Char → Option (List Char × List Char)
  | [] => none
  | c :: s =>
    match splitLast d s with
    | some (a, b) => some (c :: a, b)
    | none => if c = d then some ([], s) else none

/-- `strconv.ParseUint(s, 10, 16)` -/
def parsePort (s : List Char) : Option UInt16 :=
  if s = [] then none
  else if s.all (fun c => (undec c).isSome) then
    if s.foldl (fun n c => n * 10 + (c.toNat - 48)) 0 ≤ 65535 then some (UInt16.ofNat (s.foldl (fun n c => n * 10 + (c.toNat - 48)) 0)) else none
  else none

/-- the end of `ParseAddrPort`: brackets belong to IPv6 addresses -/
def parseHost (brackets : Bool) (host port : List Char) : Option AddrPort :=
  match parsePort port with
  | none => none
  | some p =>
    match parseAddr host with
    | none => none
    | some a => if brackets = is4 a then none else some ⟨a, p⟩

/-- `netip.ParseAddrPort` with `splitAddrPort` -/
def parseAddrPort (s : List Char) : Option AddrPort :=
  match splitLast ':' s with
  | none => none
  | some (ip, port) =>
    if ip = [] then none
    else if port = [] then none
    else if ip.head? = some '[' then
      if ip.length < 2 ∨ ip.getLast? ≠ some ']' then none
      else parseHost true ip.tail.dropLast port
    else parseHost false ip port

/-! ### conversions -/

/-- `net.TCPAddrFromAddrPort`, parameters.go:157, distributor.go:226 -/
def tcpOf (ap : AddrPort) : TCP :=
  { ip := ap.addr.slice, zone := match ap.addr with | .v6 _ z => z | _ => "", port := ap.port }

/-- `net.IPv4`: four bytes as sixteen -/
def mapped (b : BytesN 4) : Bytes := List.replicate 10 0 ++ ([0xFF, 0xFF] ++ b.1)

/-- `Peer.TCPAddr`, peers/peer.go:47-53 -/
def peerTCP (p : Peers.Peer) : Go TCP := do
  let b ← Peers.as4 p.addr
  .ok { ip := mapped b, zone := "", port := p.port }

/-- `proto.NewTCPAddrFromString` of gowaves on a text without brackets: `net.SplitHostPort`, `net.ParseIP` and a number; the IP has sixteen
bytes.  `none` stands for the empty address. -/
def newTCPAddr (s : List Char) : Option (Bytes × UInt16) :=
  match splitLast ':' s with
  | none => none
  | some (host, port) =>
    if host.contains ':' || host.contains '[' || host.contains ']' then none
    else match parseAddr host, parsePort port with
      | some (.v4 b), some p => some (mapped b, p)
      | _, _ => none

end Verif.Services.Netip
