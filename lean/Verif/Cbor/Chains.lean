import Verif.Cbor.Format
import Verif.Chains.Storage
/-
The bytes of the chains database (chains/storage.go, chains/storage_entities.go): what is written for
the two kinds of records, and the functions that read single values, on bytes.
-/

set_option autoImplicit false

namespace Verif.Cbor

open Verif Verif.Chains

/-- `cbor.Marshal(b)` for `block`, chains/storage_entities.go:58-65 and chains/storage.go:538 -/
def encBlock (b : BlockRec) : Bytes :=
  encStruct [(0, encUint b.height.toNat), (1, encUint b.timestamp.toNat), (2, encBigPtr (some b.score)), (3, encBytes b.id),
    (4, encBytes b.parent), (5, encBytes b.generator.1)]

/-- `cbor.Marshal(&l)` for `link`, chains/storage_entities.go:82-86 and chains/storage.go:547 -/
def encLink (l : LinkRec) : Bytes :=
  encStruct [(0, encUint l.height.toNat), (1, encBytes l.blockID), (2, encNums (l.parents.map (·.toNat)))]

/-- a stored value -/
def encVal : Val → Bytes
  | .raw b => b
  | .blk b => encBlock b
  | .lnk l => encLink l

/-- the database on disk -/
def encDB (db : DB) : KV.DB Bytes := db.map (fun p => (p.1, encVal p.2))

/-- a batch as it is given to LevelDB -/
def encBatch (b : Batch) : KV.Batch Bytes := b.map (encOp encVal)

/-- `cbor.Unmarshal(v, &b)` for `block`, chains/storage.go:573.  A record without a score or with a
generator that is not an address has no counterpart among the records of the model; such records are
never written. -/
def decBlock (v : Bytes) : Option BlockRec :=
  match readStruct v with
  | none => none
  | some l =>
    match asUint (2 ^ 32 - 1) (lookup l 0), asUint (2 ^ 64 - 1) (lookup l 1), asBig (lookup l 2), asBytes (lookup l 3),
      asBytes (lookup l 4), asBytes (lookup l 5) with
    | some h, some t, some (some s), some i, some p, some g =>
      if hg : g.length = 26 then
        some { height := UInt32.ofNat h, timestamp := UInt64.ofNat t, score := s, id := i, parent := p, generator := ⟨g, hg⟩ }
      else none
    | _, _, _, _, _, _ => none

/-- `cbor.Unmarshal(v, &l)` for `link`, chains/storage.go:585 -/
def decLink (v : Bytes) : Option LinkRec :=
  match readStruct v with
  | none => none
  | some l =>
    match asUint (2 ^ 32 - 1) (lookup l 0), asBytes (lookup l 1), asNums (2 ^ 64 - 1) (lookup l 2) with
    | some h, some i, some ps => some { height := UInt32.ofNat h, blockID := i, parents := ps.map UInt64.ofNat }
    | _, _, _ => none

/-! ### the readers of single values, on bytes -/

/-- `getCounter`, chains/storage.go:466-482 -/
def getCounter (db : KV.DB Bytes) (c : UInt8) : Go UInt64 :=
  match KV.get db (counterKey c) with
  | none => .ok 0
  | some v => if v.length = 8 then be64Dec v else goPanic

/-- `getNumOfBlockID`, chains/storage.go:491-500 -/
def getNumOfBlockID (db : KV.DB Bytes) (id : BlockID) : Go UInt64 :=
  match KV.get db (idKey blockPrefix id) with
  | none => fail .notFound
  | some v => if v.length = 8 then be64Dec v else fail .badSize

/-- `getBlock`, chains/storage.go:567-577 -/
def getBlock (db : KV.DB Bytes) (n : UInt64) : Go BlockRec :=
  match KV.get db (numKey blockPrefix n) with
  | none => fail .notFound
  | some v =>
    match decBlock v with
    | some b => .ok b
    | none => fail .badRecord

/-- `getLink`, chains/storage.go:579-589 -/
def getLink (db : KV.DB Bytes) (n : UInt64) : Go LinkRec :=
  match KV.get db (numKey chainPrefix n) with
  | none => fail .notFound
  | some v =>
    match decLink v with
    | some l => .ok l
    | none => fail .badRecord

/-- `getHeadByBlockNum`, chains/storage.go:652-661 -/
def getHeadByBlockNum (db : KV.DB Bytes) (n : UInt64) : Go UInt64 :=
  match KV.get db (numKey blockToHeadPrefix n) with
  | none => fail .notFound
  | some v => if v.length = 8 then be64Dec v else fail .badSize

/-- `getLeash`, chains/storage.go:599-612 -/
def getLeash (db : KV.DB Bytes) (a : Addr) : Go BlockID :=
  match KV.get db (addrKey a) with
  | none => fail .notFound
  | some v => if v.length ≠ 32 ∧ v.length ≠ 64 then fail .badSize else newBlockIDFromBytes v

/-- body of the iteration of `leashes`, chains/storage.go:428-433 -/
def leashOf (p : Bytes × Bytes) : Go Leash := do
  let addr ← addrKeyFrom p.1
  let id ← newBlockIDFromBytes p.2
  pure { addr := addr, blockID := id }

/-- `leashes`, chains/storage.go:412-436 -/
def leashes (db : KV.DB Bytes) : Go (List Leash) := mapGo leashOf (KV.scan db leashesStart leashesLimit)

/-- body of the iteration of `getHeads`, chains/storage.go:674-679 -/
def headOf (p : Bytes × Bytes) : Go (UInt64 × UInt64) := do
  let (pre, n) ← numKeyFrom p.1
  if pre ≠ headToBlockPrefix then fail .badPrefix
  else do
    let b ← be64Dec p.2
    pure (n, b)

/-- `getHeads`, chains/storage.go:664-682 -/
def getHeads (db : KV.DB Bytes) : Go (List (UInt64 × UInt64)) :=
  mapGo headOf (KV.scan db (numKey headToBlockPrefix 0) (numKey headToBlockPrefix (UInt64.ofNat (2^64 - 1))))

end Verif.Cbor
