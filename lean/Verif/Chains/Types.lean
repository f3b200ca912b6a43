import Verif.KV
/-
Data types of the `chains` package and of the parts of gowaves/netip it uses.
-/

set_option autoImplicit false

namespace Verif.Chains

open Verif

/-- byte arrays of a fixed size -/
abbrev BytesN (n : Nat) := { b : Bytes // b.length = n }

/-- `proto.BlockID`: a 64 byte signature or a 32 byte digest.  The tag of the Go
struct is determined by the length of the bytes, so `==` on the struct is
equality of the byte strings (trusted, DESIGN.md section 1). -/
abbrev BlockID := { b : Bytes // b.length = 32 ∨ b.length = 64 }

/-- the zero value `proto.BlockID{}`: an all-zero signature id -/
def zeroID : BlockID := ⟨List.replicate 64 0, Or.inr rfl⟩

/-- `proto.NewBlockIDFromBytes` -/
def newBlockIDFromBytes (b : Bytes) : Go BlockID :=
  if h : b.length = 32 ∨ b.length = 64 then .ok ⟨b, h⟩ else fail .badID

/-- `proto.WavesAddress`: 26 bytes -/
abbrev WavesAddr := BytesN 26

/-- `netip.Addr`: the invalid zero value, IPv4, or IPv6 with an optional zone
(IPv4-mapped IPv6 addresses are IPv6 addresses here, as in `netip`). -/
inductive Addr where
  | zero
  | v4 (b : BytesN 4)
  | v6 (b : BytesN 16) (zone : String)
deriving DecidableEq

/-- `addr.AsSlice()`; the zone is not part of it. -/
def Addr.slice : Addr → Bytes
  | .zero => []
  | .v4 b => b.1
  | .v6 b _ => b.1

/-- the address without its IPv6 zone -/
def Addr.plain : Addr → Addr
  | .zero => .zero
  | .v4 b => .v4 b
  | .v6 b _ => .v6 b ""

/-- the parts of `proto.Block` that the program reads.  `generator` is the result
of `proto.NewAddressFromPublicKey(scheme, GeneratorPublicKey)`; `none` when
that call returns an error. -/
structure ProtoBlock where
  id : BlockID
  parent : BlockID
  timestamp : UInt64
  baseTarget : UInt64
  generator : Option WavesAddr
deriving DecidableEq

/-- the parts of `proto.MicroBlockInv` that the program reads -/
structure MicroInv where
  totalBlockID : BlockID
  reference : BlockID
deriving DecidableEq

/-- `type block struct`, chains/storage_entities.go:58-65.  `Score` is never nil
in a stored record; `Generator` is kept as an address (its bytes round-trip,
DESIGN.md section 1). -/
structure BlockRec where
  height : UInt32
  timestamp : UInt64
  score : Nat
  id : Bytes
  parent : Bytes
  generator : WavesAddr
deriving DecidableEq

/-- `type link struct`, chains/storage_entities.go:82-86 -/
structure LinkRec where
  height : UInt32
  blockID : Bytes
  parents : List UInt64
deriving DecidableEq

/-- stored values: raw byte strings, or CBOR encodings of the two records -/
inductive Val where
  | raw (b : Bytes)
  | blk (b : BlockRec)
  | lnk (l : LinkRec)
deriving DecidableEq

abbrev DB := KV.DB Val
abbrev Batch := KV.Batch Val

/-- `type Block struct`, chains/entities.go:12-19.  `Timestamp` is an `int64`
holding the same number (see `safeTimestamp`). -/
structure Block where
  id : BlockID
  parent : BlockID
  height : UInt32
  generator : WavesAddr
  score : Nat
  timestamp : UInt64
deriving DecidableEq

/-- `type Head struct`, chains/entities.go:21-24 -/
structure Head where
  num : UInt64
  blockID : BlockID
deriving DecidableEq

/-- `type Leash struct`, chains/entities.go:30-33 -/
structure Leash where
  addr : Addr
  blockID : BlockID
deriving DecidableEq

/-- `type Stats struct`, chains/entities.go:35-38 -/
structure Stats where
  short : Nat
  long : Nat
deriving DecidableEq, Repr

/-- `type Fork struct`, chains/entities.go:40-51.  `HeadTimestamp` is kept in
milliseconds; `Length` is a Go `int`, which cannot overflow here. -/
structure Fork where
  longest : Bool
  headBlock : BlockID
  headTimestamp : UInt64
  headGenerator : WavesAddr
  headHeight : UInt32
  score : Nat
  peersCount : Nat
  peers : List Addr
  lastCommonBlock : BlockID
  length : Int
deriving DecidableEq

/-- `type GeneratorStats struct`, chains/entities.go:71-74 -/
structure GeneratorStats where
  generator : WavesAddr
  blocks : Nat
deriving DecidableEq

end Verif.Chains
