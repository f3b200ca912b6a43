import Verif.Chains.Linkage
/-
Data types of the `peers` package and of the parts of gowaves, netip, time and
unicode/utf8 it uses.
-/

set_option autoImplicit false

namespace Verif.Peers

open Verif
open Verif.Chains (Addr BytesN)

/-- `proto.Version`.  `NewVersionFromString (v.String()) = v` is trusted, so the
version string of the stored record is the version itself. -/
structure Version where
  major : UInt32
  minor : UInt32
  patch : UInt32
deriving DecidableEq, Repr

/-- the zero value `proto.Version{}` -/
def Version.zero : Version := ⟨0, 0, 0⟩

/-- `proto.Version.Cmp` used by `proto.ByVersion.Less`: `a` comes before `b` -/
def Version.lt (a b : Version) : Bool :=
  if a.major ≠ b.major then a.major < b.major
  else if a.minor ≠ b.minor then a.minor < b.minor
  else a.patch < b.patch

/-- peers/state.go:4-10.  Other byte values are never written, so the `default` branch of
peers/version_provider.go:54-55 has no counterpart. -/
inductive State where
  | unknown
  | connected
  | hostile
deriving DecidableEq, Repr

/-- `addr.Is4()`; false for IPv4-mapped IPv6 addresses, as in `netip`. -/
def is4 : Addr → Bool
  | .v4 _ => true
  | _ => false

/-- `addr.IsLoopback()` for IPv4 (127.0.0.0/8) and IPv6 (`::1`) -/
def isLoopback : Addr → Bool
  | .v4 b => b.1.head? == some 127
  | .v6 b _ => decide (b.1 = List.replicate 15 0 ++ [1])
  | .zero => false

/-- `netip.AddrPort` -/
structure AddrPort where
  addr : Addr
  port : UInt16
deriving DecidableEq

/-- `handshake.DeclaredAddr`: `Empty()`, or not accepted by `netip.ParseAddrPort`, or an address -/
inductive Declared where
  | empty
  | unparsable
  | addrPort (ap : AddrPort)
deriving DecidableEq

/-- the parts of `proto.Handshake` that the registry reads -/
structure Handshake where
  appName : Bytes
  version : Version
  nodeName : Bytes
  nonce : UInt64
  declared : Declared
deriving DecidableEq

/-- a live `peer.Peer`: an identity and what `Handshake()` returns -/
structure Conn where
  id : Nat
  handshake : Handshake
deriving DecidableEq

/-- one second in nanoseconds.  Points in time are nanoseconds since the Unix epoch. -/
def second : Int := 1000000000

/-- `delay`, peers/registry.go:21 -/
def delay : Int := 600 * second

/-- `t.Round(time.Second)`, as a number of seconds since the Unix epoch (halfway values round
up).  Stored times are encoded by CBOR as whole seconds. -/
def roundSec (t : Int) : Int := (t + 500000000) / second

/-- `time.Time{}` in seconds since the Unix epoch -/
def zeroTime : Int := -62135596800

/-- `Peer`, peers/peer.go:23-32.  `nextAttempt` is in whole seconds: every value assigned to it
by the package is the result of `Round(time.Second)` or the zero time. -/
structure Peer where
  addr : Addr
  port : UInt16
  nonce : UInt64
  name : Bytes
  version : Version
  state : State
  nextAttempt : Int
  score : Option Nat
  conn : Option Conn
deriving DecidableEq

/-- `Peer{}` -/
def Peer.zero : Peer :=
  { addr := .zero, port := 0, nonce := 0, name := [], version := .zero, state := .unknown, nextAttempt := zeroTime,
    score := none, conn := none }

/-- `p.AddressPort` -/
def Peer.addressPort (p : Peer) : AddrPort := ⟨p.addr, p.port⟩

/-- continuation byte check of `utf8.ValidString` -/
def contByte (lo hi : UInt8) (b : UInt8) : Bool := lo ≤ b && b ≤ hi

/-- `utf8.ValidString` (unicode/utf8: RFC 3629 sequences) -/
def validUTF8 : Bytes → Bool
  | [] => true
  | b :: rest =>
    if b < 0x80 then validUTF8 rest
    else match rest with
      | [] => false
      | c1 :: rest1 =>
        if 0xC2 ≤ b && b ≤ 0xDF then contByte 0x80 0xBF c1 && validUTF8 rest1
        else match rest1 with
          | [] => false
          | c2 :: rest2 =>
            if 0xE0 ≤ b && b ≤ 0xEF then
              contByte (if b = 0xE0 then 0xA0 else 0x80) (if b = 0xED then 0x9F else 0xBF) c1 &&
              contByte 0x80 0xBF c2 && validUTF8 rest2
            else match rest2 with
              | [] => false
              | c3 :: rest3 =>
                if 0xF0 ≤ b && b ≤ 0xF4 then
                  contByte (if b = 0xF0 then 0x90 else 0x80) (if b = 0xF4 then 0x8F else 0xBF) c1 &&
                  contByte 0x80 0xBF c2 && contByte 0x80 0xBF c3 && validUTF8 rest3
                else false

/-- Library functions whose exact result the theorems do not depend on: `Version.CmpMinor` of
gowaves and `strings.ToUpper`. -/
structure Lib where
  cmpMinor : Version → Version → Int
  upper : Bytes → Bytes

end Verif.Peers
