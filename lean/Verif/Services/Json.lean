import Verif.Services.PeerReports
/-
Model of the text of the reports: `json.NewEncoder(w).Encode(x)` (encoding/json of Go 1.22) for the types that the handlers of
api/api.go encode.  The encoder escapes HTML by default.  The encoder first makes the whole text and then writes it, so an error leaves
nothing behind (that errors come from times only is in Services/Api.lean).  Compression of the answer (api/api.go:73) is not modelled.
-/

set_option autoImplicit false

namespace Verif.Services.Json

open Verif
open Verif.Chains (Addr BytesN BlockID Fork GeneratorStats WavesAddr)
open Verif.Peers (Peer Version State contByte)

mutual
/-- a JSON value; the numbers of the reports are integers, strings are the bytes of their UTF-8 form -/
inductive J where
  | null
  | bool (b : Bool)
  | num (i : Int)
  | str (s : Bytes)
  | arr (l : Js)
  | obj (m : Ms)
/-- a list of JSON values -/
inductive Js where
  | nil
  | cons (j : J) (l : Js)
/-- the members of an object in the order of the text -/
inductive Ms where
  | nil
  | cons (k : Bytes) (j : J) (m : Ms)
end

/-- a hexadecimal digit, `hex` of encoding/json -/
def hex (n : UInt8) : UInt8 := if n < 10 then 48 + n else 87 + n

/-- one byte below 0x80 of a string, `appendString` of encoding/json with `escapeHTML`: quotes, backslashes, control characters and
`<`, `>`, `&` are escaped -/
def escByte (b : UInt8) : Bytes :=
  if b = 34 ∨ b = 92 then [92, b]
  else if b = 8 then [92, 98]
  else if b = 12 then [92, 102]
  else if b = 10 then [92, 110]
  else if b = 13 then [92, 114]
  else if b = 9 then [92, 116]
  else if b < 32 ∨ b = 60 ∨ b = 62 ∨ b = 38 then [92, 117, 48, 48, hex (b / 16), hex (b % 16)]
  else [b]

/-- the escape with the digits `fffd`, for a byte that is not part of UTF-8 -/
def bad : Bytes := [92, 117, 102, 102, 102, 100]

/-- the loop of `appendString` of encoding/json: U+2028 and U+2029 are escaped, other characters beyond ASCII are copied, bytes that
are not part of UTF-8 are replaced one by one -/
def escape : Bytes → Bytes
  | [] => []
  | b :: rest =>
    if b < 0x80 then escByte b ++ escape rest
    else match rest with
      | [] => bad
      | c1 :: rest1 =>
        if 0xC2 ≤ b && b ≤ 0xDF then
          if contByte 0x80 0xBF c1 then b :: c1 :: escape rest1 else bad ++ escape (c1 :: rest1)
        else match rest1 with
          | [] => bad ++ escape [c1]
          | c2 :: rest2 =>
            if 0xE0 ≤ b && b ≤ 0xEF then
              if contByte (if b = 0xE0 then 0xA0 else 0x80) (if b = 0xED then 0x9F else 0xBF) c1 && contByte 0x80 0xBF c2 then
                if b = 0xE2 ∧ c1 = 0x80 ∧ (c2 = 0xA8 ∨ c2 = 0xA9) then [92, 117, 50, 48, 50, hex (c2 % 16)] ++ escape rest2
                else b :: c1 :: c2 :: escape rest2
              else bad ++ escape (c1 :: c2 :: rest2)
            else match rest2 with
              | [] => bad ++ escape [c1, c2]
              | c3 :: rest3 =>
                if (0xF0 ≤ b && b ≤ 0xF4) && contByte (if b = 0xF0 then 0x90 else 0x80) (if b = 0xF4 then 0x8F else 0xBF) c1 &&
                    contByte 0x80 0xBF c2 && contByte 0x80 0xBF c3 then
                  b :: c1 :: c2 :: c3 :: escape rest3
                else bad ++ escape (c1 :: c2 :: c3 :: rest3)

/-- a string between quotes, `appendString` of encoding/json -/
def quote (s : Bytes) : Bytes := 34 :: (escape s ++ [34])

/-- the digits of a number before the digits `acc`; `base` is 10 or 58 -/
def digitsIn (base : Nat) (dig : Nat → UInt8) : Nat → Nat → Bytes → Bytes
  | 0, _, acc => acc
  | f + 1, n, acc => if n = 0 then acc else digitsIn base dig f (n / base) (dig (n % base) :: acc)

/-- `strconv.AppendUint(b, n, 10)`, `big.Int.MarshalJSON` of a number that is not negative -/
def digits (n : Nat) : Bytes := if n = 0 then [48] else digitsIn 10 (fun d => UInt8.ofNat (48 + d)) n n []

/-- `strconv.AppendInt(b, i, 10)` -/
def number : Int → Bytes
  | .ofNat n => digits n
  | .negSucc n => 45 :: digits (n + 1)

mutual
/-- the text of a value, as `Encode` writes it: no white space -/
def render : J → Bytes
  | .null => [110, 117, 108, 108]
  | .bool true => [116, 114, 117, 101]
  | .bool false => [102, 97, 108, 115, 101]
  | .num i => number i
  | .str s => quote s
  | .arr .nil => [91, 93]
  | .arr (.cons j l) => 91 :: (render j ++ (renderList l ++ [93]))
  | .obj .nil => [123, 125]
  | .obj (.cons k j m) => 123 :: (quote k ++ 58 :: (render j ++ (renderMembers m ++ [125])))
/-- the elements of an array after the first -/
def renderList : Js → Bytes
  | .nil => []
  | .cons j l => 44 :: (render j ++ renderList l)
/-- the members of an object after the first -/
def renderMembers : Ms → Bytes
  | .nil => []
  | .cons k j m => 44 :: (quote k ++ 58 :: (render j ++ renderMembers m))
end

/-- the body of an answer: `Encode` ends the text with a newline -/
def body (j : J) : Bytes := render j ++ [10]

/-- an array -/
def list : List J → Js
  | [] => .nil
  | j :: l => .cons j (list l)

/-- the bytes of a name; the names in the struct tags are ASCII -/
def ascii (s : String) : Bytes := s.toList.map (fun c => UInt8.ofNat c.toNat)

/-- the members of an object; the names are given as in the struct tags -/
def members : List (String × J) → Ms
  | [] => .nil
  | (k, j) :: m => .cons (ascii k) j (members m)

/-- the alphabet of base58 -/
def alphabet : Bytes :=
  [49, 50, 51, 52, 53, 54, 55, 56, 57, 65, 66, 67, 68, 69, 70, 71, 72, 74, 75, 76, 77, 78, 80, 81, 82, 83, 84, 85, 86, 87, 88, 89, 90,
   97, 98, 99, 100, 101, 102, 103, 104, 105, 106, 107, 109, 110, 111, 112, 113, 114, 115, 116, 117, 118, 119, 120, 121, 122]

/-- `base58.Encode`: a one for every zero byte in front, then the number in base 58 -/
def base58 (b : Bytes) : Bytes :=
  List.replicate (b.takeWhile (· = 0)).length 49 ++ digitsIn 58 (fun d => alphabet.getD d 0) (beVal b) (beVal b) []

/-- library functions for the text of values that are not modelled further -/
structure Texts where
  /-- the text of an IPv6 address, `netip.Addr.String()` and `MarshalText` -/
  v6 : BytesN 16 → String → Bytes
  /-- `time.UnixMilli(ms)` as text, `Time.MarshalJSON` without the quotes -/
  milli : Nat → Bytes
  /-- a time in seconds since the Unix epoch, `Time.MarshalJSON` without the quotes -/
  sec : Int → Bytes
  /-- how `proto.Version` of gowaves is encoded -/
  version : Version → J

/-- the text of an IPv4 address -/
def dotted : Bytes → Bytes
  | [] => []
  | [b] => digits b.toNat
  | b :: bs => digits b.toNat ++ 46 :: dotted bs

/-- `netip.Addr.MarshalText`; the `String()` of leashes, api/api.go:242, differs for the zero address only, which no leash has -/
def Texts.addr (t : Texts) : Addr → Bytes
  | .zero => []
  | .v4 b => dotted b.1
  | .v6 b z => t.v6 b z

/-- `netip.AddrPort.MarshalText` -/
def Texts.addrPort (t : Texts) (a : Addr) (port : UInt16) : Bytes :=
  match a with
  | .zero => []
  | .v4 b => dotted b.1 ++ 58 :: digits port.toNat
  | .v6 b z => 91 :: (t.v6 b z ++ 93 :: 58 :: digits port.toNat)

/-- peers/state.go:4-10; the type has no encoding of its own, so it is its number -/
def stateNum : State → Int
  | .unknown => 0
  | .connected => 1
  | .hostile => 2

/-- a `*big.Int` -/
def score : Option Nat → J
  | none => .null
  | some n => .num n

/-- `Peer`, peers/peer.go:23-32; the connection is not exported -/
def Texts.peer (t : Texts) (p : Peer) : J :=
  .obj (members
    [("address", .str (t.addrPort p.addr p.port)), ("nonce", .num p.nonce.toNat), ("name", .str p.name), ("version", t.version p.version),
     ("state", .num (stateNum p.state)), ("next_attempt", .str (t.sec p.nextAttempt)), ("score", score p.score)])

/-- the zero time, `time.Time{}`, as text -/
def never : Bytes := ascii "0001-01-01T00:00:00Z"

/-- `Fork`, chains/entities.go:40-51.  A fork without peers is `var fork Fork` of chains/linkage.go:354: every other fork is made for a
list of peers that `append` has made (chains/linkage.go:349, 503).  Its time is the zero time, its score and its peers are nil. -/
def Texts.fork (t : Texts) (f : Fork) : J :=
  .obj (members
    [("longest", .bool f.longest), ("head_block", .str (base58 f.headBlock.1)),
     ("head_timestamp", .str (if f.peers.isEmpty then never else t.milli f.headTimestamp.toNat)),
     ("head_generator", .str (base58 f.headGenerator.1)), ("head_height", .num f.headHeight.toNat),
     ("score", if f.peers.isEmpty then .null else .num f.score), ("peers_count", .num f.peersCount),
     ("peers", if f.peers.isEmpty then .null else .arr (list (f.peers.map (fun a => .str (t.addr a))))),
     ("last_common_block", .str (base58 f.lastCommonBlock.1)), ("length", .num f.length)])

/-- `headInfo`, api/entities.go:20-26 -/
def Texts.head (t : Texts) (h : HeadInfo) : J :=
  .obj (members
    [("number", .num h.number.toNat), ("id", .str (base58 h.id.1)), ("height", .num h.height.toNat), ("score", .num h.score),
     ("timestamp", .str (t.milli h.timestamp.toNat))])

/-- `leashInfo`, api/entities.go:28-36 -/
def Texts.leash (t : Texts) (l : LeashInfo) : J :=
  .obj (members
    [("block_id", .str (base58 l.blockID.1)), ("height", .num l.height.toNat), ("score", .num l.score),
     ("timestamp", .str (t.milli l.timestamp.toNat)), ("generator", .str (base58 l.generator.1)), ("peers_count", .num l.peers.length),
     ("peers", .arr (list (l.peers.map (fun a => .str (t.addr a)))))])

/-- `GeneratorStats`, chains/entities.go:71-74 -/
def generator (g : GeneratorStats) : J := .obj (members [("generator", .str (base58 g.generator.1)), ("blocks", .num g.blocks)])

/-- `status`, api/entities.go:10-18 -/
def statusJ (version : Bytes) (goroutines : Nat) (s : Status) : J :=
  .obj (members
    [("version", .str version), ("short_forks_count", .num s.short), ("long_forks_count", .num s.long), ("all_peers_count", .num s.all),
     ("friendly_peers_count", .num s.friendly), ("connected_peers_count", .num s.connected), ("goroutines_count", .num goroutines)])

/-- a slice; apart from the peers of a fork every slice of the reports is made by `make`, or by `append` of at least one element, so that
none is nil -/
def array {α : Type} (f : α → J) (l : List α) : J := .arr (list (l.map f))

end Verif.Services.Json
