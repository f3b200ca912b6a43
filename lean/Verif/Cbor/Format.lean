import Verif.KV
/-
The part of CBOR (RFC 8949) that `github.com/fxamacker/cbor/v2` (v2.6.0, go.mod:6) uses for the
records of the two databases: what `cbor.Marshal` writes with its default options, and how
`cbor.Unmarshal` reads data items.
-/

set_option autoImplicit false

namespace Verif.Cbor

/-! ### writing -/

/-- the lowest `k` bytes of `n`, most significant first -/
def be : Nat → Nat → Bytes
  | 0, _ => []
  | k + 1, n => be k (n / 256) ++ [UInt8.ofNat n]

/-- `encodeHead` of the library: the major type and the argument in the shortest form
(RFC 8949, section 3; arguments are `uint64`) -/
def head (major n : Nat) : Bytes :=
  if n < 24 then [UInt8.ofNat (major * 32 + n)]
  else if n < 256 then UInt8.ofNat (major * 32 + 24) :: be 1 n
  else if n < 65536 then UInt8.ofNat (major * 32 + 25) :: be 2 n
  else if n < 4294967296 then UInt8.ofNat (major * 32 + 26) :: be 4 n
  else UInt8.ofNat (major * 32 + 27) :: be 8 n

/-- the simple value null, written for nil pointers, nil slices and the zero time -/
def null : Bytes := [0xf6]

/-- `encodeUint` -/
def encUint (n : Nat) : Bytes := head 0 n

/-- `encodeInt`: negative numbers `-1 - n` have major type 1 -/
def encInt (z : Int) : Bytes :=
  match z with
  | .ofNat n => head 0 n
  | .negSucc n => head 1 n

/-- `encodeByteString`.  A nil slice is written as null.  The model of the databases does not tell
nil from empty slices: the empty slices of the records are nil (chains/storage.go:74-86). -/
def encBytes (b : Bytes) : Bytes := if b = [] then null else head 2 b.length ++ b

/-- `encodeString` -/
def encText (b : Bytes) : Bytes := head 3 b.length ++ b

/-- `big.Int.Bytes` of a number that is not negative: big-endian, without leading zeros -/
def natBytes (n : Nat) : Bytes := if n = 0 then [] else be (Nat.log2 n / 8 + 1) n

/-- `encodeBigInt` with the default `BigIntConvertShortest`: an integer if it is a `uint64`, else the
tag 2 and the bytes of the number.  Negative scores are never stored. -/
def encBig (n : Nat) : Bytes := if n < 2 ^ 64 then head 0 n else head 6 2 ++ (head 2 (natBytes n).length ++ natBytes n)

/-- a pointer to a `big.Int` -/
def encBigPtr : Option Nat → Bytes
  | none => null
  | some n => encBig n

/-- `encodeArray` of a slice of numbers; nil slices as for `encBytes` -/
def encNums (l : List Nat) : Bytes := if l = [] then null else head 4 l.length ++ l.flatMap encUint

/-- one field of a structure with the option `keyasint` -/
def field (k : Nat) (v : Bytes) : Bytes := head 0 k ++ v

/-- the bytes of a list of fields: `encodeFixedLengthStruct` of the library -/
def encStruct (l : List (Nat × Bytes)) : Bytes := head 5 l.length ++ l.flatMap (fun p => field p.1 p.2)

/-! ### reading -/

/-- data items -/
inductive Item where
  | uint (n : Nat)
  | nint (n : Nat)
  | bytes (b : Bytes)
  | text (b : Bytes)
  | arr (l : List Item)
  | map (l : List (Item × Item))
  | tag (n : Nat) (i : Item)
  | simple (n : Nat)

/-- `n` bytes and the rest -/
def takeN (n : Nat) (r : Bytes) : Option (Bytes × Bytes) := if n ≤ r.length then some (r.take n, r.drop n) else none

/-- the big-endian number in the next `n` bytes -/
def takeNum (n : Nat) (r : Bytes) : Option (Nat × Bytes) := (takeN n r).map (fun p => (beVal p.1, p.2))

/-- the head of a data item: major type, argument, rest.  The library also reads items of indefinite
length (31 in the low bits); the program never writes them, and they are refused here. -/
def readHead : Bytes → Option (Nat × Nat × Bytes)
  | [] => none
  | b :: r =>
    let major := b.toNat / 32
    let low := b.toNat % 32
    if low < 24 then some (major, low, r)
    else if low = 24 then (takeNum 1 r).map (fun p => (major, p.1, p.2))
    else if low = 25 then (takeNum 2 r).map (fun p => (major, p.1, p.2))
    else if low = 26 then (takeNum 4 r).map (fun p => (major, p.1, p.2))
    else if low = 27 then (takeNum 8 r).map (fun p => (major, p.1, p.2))
    else none

/-- `n` data items -/
def itemsN (p : Bytes → Option (Item × Bytes)) : Nat → Bytes → Option (List Item × Bytes)
  | 0, r => some ([], r)
  | n + 1, r =>
    match p r with
    | none => none
    | some (i, r1) =>
      match itemsN p n r1 with
      | none => none
      | some (l, r2) => some (i :: l, r2)

/-- `n` pairs of data items -/
def pairsN (p : Bytes → Option (Item × Bytes)) : Nat → Bytes → Option (List (Item × Item) × Bytes)
  | 0, r => some ([], r)
  | n + 1, r =>
    match p r with
    | none => none
    | some (k, r1) =>
      match p r1 with
      | none => none
      | some (v, r2) =>
        match pairsN p n r2 with
        | none => none
        | some (l, r3) => some ((k, v) :: l, r3)

/-- `MaxArrayElements` and `MaxMapPairs`: defaults of the library -/
def maxElements : Nat := 131072

/-- one data item, with at most the given number of levels (`MaxNestedLevels`, 32 by default).  Floating
point numbers are only skipped over. -/
def readItem : Nat → Bytes → Option (Item × Bytes)
  | 0, _ => none
  | d + 1, b =>
    match readHead b with
    | none => none
    | some (major, n, r) =>
      if major = 0 then some (.uint n, r)
      else if major = 1 then some (.nint n, r)
      else if major = 2 then (takeN n r).map (fun p => (.bytes p.1, p.2))
      else if major = 3 then (takeN n r).map (fun p => (.text p.1, p.2))
      else if major = 4 then
        if n ≤ maxElements then (itemsN (readItem d) n r).map (fun p => (.arr p.1, p.2)) else none
      else if major = 5 then
        if n ≤ maxElements then (pairsN (readItem d) n r).map (fun p => (.map p.1, p.2)) else none
      else if major = 6 then (readItem d r).map (fun p => (.tag n p.1, p.2))
      else some (.simple n, r)

/-- the structure in a byte string: the pairs of the only data item.  Null leaves the structure as it
is, with no field set. -/
def readStruct (b : Bytes) : Option (List (Item × Item)) :=
  match readItem 32 b with
  | some (.map l, []) => some l
  | some (.simple 22, []) => some []
  | _ => none

/-- the item for the integer key `k`: of several the first; a field that is missing keeps its zero value,
which is also what null stands for -/
def lookup (l : List (Item × Item)) (k : Nat) : Item :=
  match l with
  | [] => .simple 22
  | (.uint n, v) :: l => if n = k then v else lookup l k
  | _ :: l => lookup l k

/-- an unsigned field whose largest value is `max` -/
def asUint (max : Nat) : Item → Option Nat
  | .uint n => if n ≤ max then some n else none
  | .simple 22 => some 0
  | _ => none

/-- a `*big.Int`.  Negative numbers, which are never stored, are refused. -/
def asBig : Item → Option (Option Nat)
  | .uint n => some (some n)
  | .tag 2 (.bytes b) => some (some (beVal b))
  | .simple 22 => some none
  | _ => none

/-- a `[]byte` -/
def asBytes : Item → Option Bytes
  | .bytes b => some b
  | .simple 22 => some []
  | _ => none

/-- the elements of a list, if every one can be read -/
def allOf {α : Type} (f : Item → Option α) : List Item → Option (List α)
  | [] => some []
  | i :: l =>
    match f i, allOf f l with
    | some a, some t => some (a :: t)
    | _, _ => none

/-- a slice of numbers -/
def asNums (max : Nat) : Item → Option (List Nat)
  | .arr l => allOf (asUint max) l
  | .simple 22 => some []
  | _ => none

/-! ### batches -/

/-- the values of a record of a batch, turned into bytes -/
def encOp {V : Type} (f : V → Bytes) : KV.BatchOp V → KV.BatchOp Bytes
  | .put k v => .put k (f v)
  | .del k => .del k

end Verif.Cbor
