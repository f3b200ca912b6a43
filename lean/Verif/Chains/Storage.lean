import Verif.Chains.Types
/-
Model of chains/storage.go, chains/storage_entities.go and chains/utils.go.

Snapshots: every method takes one snapshot and only reads from it, so reads go
to the database value passed in.
-/

set_option autoImplicit false

namespace Verif.Chains

open Verif KV

/-! ### keys: chains/storage.go:27-38, chains/storage_entities.go:13-56 -/

def counterPrefix : UInt8 := 0
def blockPrefix : UInt8 := 1
def chainPrefix : UInt8 := 2
def leashPrefix : UInt8 := 3
def headToBlockPrefix : UInt8 := 4
def blockToHeadPrefix : UInt8 := 5

def blocksCounter : UInt8 := 0
def headsCounter : UInt8 := 1

/-- the key built in getCounter/putCounter, chains/storage.go:470,485 -/
def counterKey (c : UInt8) : Bytes := [counterPrefix, c]

/-- `idKeyBytes`, chains/storage_entities.go:13-19 -/
def idKey (p : UInt8) (id : BlockID) : Bytes := p :: id.1

/-- `numKeyBytes`, chains/storage_entities.go:21-26 -/
def numKey (p : UInt8) (n : UInt64) : Bytes := p :: be64 n

/-- `numKeyFromBytes`, chains/storage_entities.go:28-33 -/
def numKeyFrom (k : Bytes) : Go (UInt8 × UInt64) :=
  if k.length = 9 then
    match k with
    | [] => goPanic
    | p :: bs => do let n ← be64Dec bs; pure (p, n)
  else goPanic

/-- `addrKeyBytes`, chains/storage_entities.go:35-42 -/
def addrKey (a : Addr) : Bytes := leashPrefix :: a.slice

/-- `addrKeyFromBytes`, chains/storage_entities.go:44-56 (`netip.AddrFromSlice` gives an
IPv4 address for 4 bytes, a zone-less IPv6 address for 16 bytes) -/
def addrKeyFrom (k : Bytes) : Go Addr :=
  match k with
  | [] => goPanic
  | p :: bs =>
    if h4 : bs.length = 4 then
      if p = leashPrefix then .ok (.v4 ⟨bs, h4⟩) else goPanic
    else if h16 : bs.length = 16 then
      if p = leashPrefix then .ok (.v6 ⟨bs, h16⟩ "") else goPanic
    else goPanic

/-! ### scores: chains/utils.go -/

/-- `calculateScore`, chains/utils.go:10-25 -/
def calculateScore (baseTarget : UInt64) : Go Nat :=
  if baseTarget = 0 then .ok 0
  else if baseTarget.toNat > 2^63 - 1 then goPanic
  else .ok (18446744073709551616 / baseTarget.toNat)

/-- `calculateCumulativeScore`, chains/utils.go:27-33 (the parent score is never nil) -/
def calculateCumulativeScore (parentScore : Nat) (baseTarget : UInt64) : Go Nat := do
  let s ← calculateScore baseTarget
  pure (s + parentScore)

/-- `newBlock`, chains/storage_entities.go:67-80 -/
def newBlock (b : ProtoBlock) (height : UInt32) (parentScore : Nat) : Go BlockRec :=
  match b.generator with
  | none => fail .badGenerator
  | some ga => do
    let sc ← calculateCumulativeScore parentScore b.baseTarget
    pure { height := height, timestamp := b.timestamp, score := sc, id := b.id.1, parent := b.parent.1,
           generator := ga }

/-! ### reading single values -/

/-- `getCounter`, chains/storage.go:466-482 (a record under a counter key has a
size different from 8 and panics as well) -/
def getCounter (db : DB) (c : UInt8) : Go UInt64 :=
  match get db (counterKey c) with
  | none => .ok 0
  | some (.raw v) => if v.length = 8 then be64Dec v else goPanic
  | some _ => goPanic

/-- `getNumOfBlockID`, chains/storage.go:491-500 -/
def getNumOfBlockID (db : DB) (id : BlockID) : Go UInt64 :=
  match get db (idKey blockPrefix id) with
  | none => fail .notFound
  | some (.raw v) => if v.length = 8 then be64Dec v else fail .badSize
  | some _ => fail .badSize

/-- `getBlock`, chains/storage.go:567-577 -/
def getBlock (db : DB) (n : UInt64) : Go BlockRec :=
  match get db (numKey blockPrefix n) with
  | none => fail .notFound
  | some (.blk b) => .ok b
  | some _ => fail .badRecord

/-- `getLink`, chains/storage.go:579-589 -/
def getLink (db : DB) (n : UInt64) : Go LinkRec :=
  match get db (numKey chainPrefix n) with
  | none => fail .notFound
  | some (.lnk l) => .ok l
  | some _ => fail .badRecord

/-- `getBlockByID`, chains/storage.go:555-565; also `storage.block`, chains/storage.go:105-112 -/
def getBlockByID (db : DB) (id : BlockID) : Go BlockRec := do
  let n ← getNumOfBlockID db id
  getBlock db n

/-- `getLinkByID`, chains/storage.go:591-597 -/
def getLinkByID (db : DB) (id : BlockID) : Go LinkRec := do
  let n ← getNumOfBlockID db id
  getLink db n

/-- `getHeadByBlockNum`, chains/storage.go:652-661 -/
def getHeadByBlockNum (db : DB) (n : UInt64) : Go UInt64 :=
  match get db (numKey blockToHeadPrefix n) with
  | none => fail .notFound
  | some (.raw v) => if v.length = 8 then be64Dec v else fail .badSize
  | some _ => fail .badSize

/-- `getLeash`, chains/storage.go:599-612; also `storage.leash`, chains/storage.go:394-401 -/
def getLeash (db : DB) (a : Addr) : Go BlockID :=
  match get db (addrKey a) with
  | none => fail .notFound
  | some (.raw v) =>
    if v.length ≠ 32 ∧ v.length ≠ 64 then fail .badSize else newBlockIDFromBytes v
  | some _ => fail .badSize

/-- `hasBlock`, chains/storage.go:114-128 -/
def hasBlock (db : DB) (id : BlockID) : Go Bool :=
  match getNumOfBlockID db id with
  | .ok _ => .ok true
  | .error (.err .notFound) => .ok false
  | .error e => .error e

/-! ### building batches -/

/-- `putCounter`, chains/storage.go:484-489 -/
def putCounter (c : UInt8) (v : UInt64) : Batch := [.put (counterKey c) (.raw (be64 v))]
/-- `putID`, chains/storage.go:502-506 -/
def putID (p : UInt8) (id : BlockID) (n : UInt64) : Batch := [.put (idKey p id) (.raw (be64 n))]
/-- `putBlock`, chains/storage.go:537-544 -/
def putBlock (n : UInt64) (b : BlockRec) : Batch := [.put (numKey blockPrefix n) (.blk b)]
/-- `putLink`, chains/storage.go:546-553 -/
def putLink (n : UInt64) (l : LinkRec) : Batch := [.put (numKey chainPrefix n) (.lnk l)]
/-- `putNum`, chains/storage.go:646-650 -/
def putNum (p : UInt8) (k v : UInt64) : Batch := [.put (numKey p k) (.raw (be64 v))]
/-- `putLeash`, chains/storage.go:614-616 -/
def putLeash (a : Addr) (id : BlockID) : Batch := [.put (addrKey a) (.raw id.1)]

/-- `int(math.Ceil(math.Log2(float64(h))))` for `h > 0`, chains/storage.go:517.  For `h = 0` the
float is `-Inf` and the conversion gives the most negative `int`, so that `make` on the next
line panics; `none` stands for that. -/
def maxParents (h : UInt32) : Option Nat :=
  if h = 0 then none
  else if h = 1 then some 0
  else some (Nat.log2 (h.toNat - 1) + 1)

/-- the loop of `putNewLinkForBlock`, chains/storage.go:519-528: `k` iterations are left, the
loop variable is `l`, `pn` the current number -/
def linkParents (db : DB) : (k l : Nat) → (pn : UInt64) → Go (List UInt64)
  | 0, _, _ => .ok []
  | k + 1, l, pn => do
    let pl ← getLink db pn
    let pn' := match pl.parents[l]? with
      | some q => q
      | none => pn
    let rest ← linkParents db k (l + 1) pn'
    pure (pn :: rest)

/-- `putNewLinkForBlock`, chains/storage.go:508-535 -/
def putNewLinkForBlock (db : DB) (n : UInt64) (id : BlockID) (h : UInt32) (parentID : BlockID) : Go Batch := do
  let pn ← getNumOfBlockID db parentID
  match maxParents h with
  | none => goPanic
  | some mp =>
    let parents ← linkParents db mp 0 pn
    pure (putLink n { height := h, blockID := id.1, parents := parents })

/-- `putNewHead`, chains/storage.go:633-644 -/
def putNewHead (db : DB) (blockNum : UInt64) : Go Batch := do
  let cnt ← getCounter db headsCounter
  let headNum := cnt + 1
  pure (putCounter headsCounter headNum ++ putNum headToBlockPrefix headNum blockNum
    ++ putNum blockToHeadPrefix blockNum headNum)

/-- `putHead`, chains/storage.go:618-631 -/
def putHead (db : DB) (blockNum parentNum : UInt64) : Go Batch :=
  match getHeadByBlockNum db parentNum with
  | .error (.err .notFound) => putNewHead db blockNum
  | .error e => .error e
  | .ok headNum =>
    .ok ([.del (numKey blockToHeadPrefix parentNum)] ++ putNum headToBlockPrefix headNum blockNum
      ++ putNum blockToHeadPrefix blockNum headNum)

/-- the batch assembled by `putProtoBlock`, chains/storage.go:130-175 -/
def protoBlockBatch (db : DB) (b : ProtoBlock) : Go Batch := do
  let n ← getCounter db blocksCounter
  let parentNum ← getNumOfBlockID db b.parent
  let parent ← getBlock db parentNum
  let n := n + 1
  let rec_ ← newBlock b (parent.height + 1) parent.score
  let lnk ← putNewLinkForBlock db n b.id rec_.height b.parent
  let hd ← putHead db n parentNum
  pure (putCounter blocksCounter n ++ putID blockPrefix b.id n ++ putBlock n rec_ ++ lnk ++ hd)

/-- `putProtoBlock`, chains/storage.go:130-177 -/
def putProtoBlock (f : Fate) (db : DB) (b : ProtoBlock) : DB × Go Unit :=
  match protoBlockBatch db b with
  | .ok batch => write f db batch
  | .error e => (db, .error e)

/-- the batch assembled by `putMicroBlock`, chains/storage.go:179-232 -/
def microBlockBatch (db : DB) (inv : MicroInv) : Go Batch := do
  let n ← getCounter db blocksCounter
  let refNum ← getNumOfBlockID db inv.reference
  let ref ← getBlock db refNum
  let parentID ← newBlockIDFromBytes ref.parent
  let n := n + 1
  let b : BlockRec :=
    { height := ref.height, timestamp := ref.timestamp, score := ref.score, id := inv.totalBlockID.1,
      parent := ref.parent, generator := ref.generator }
  let lnk ← putNewLinkForBlock db n inv.totalBlockID b.height parentID
  let hd ← putHead db n refNum
  pure (putCounter blocksCounter n ++ putID blockPrefix inv.totalBlockID n ++ putBlock n b ++ lnk ++ hd)

/-- `putMicroBlock`, chains/storage.go:179-234 -/
def putMicroBlock (f : Fate) (db : DB) (inv : MicroInv) : DB × Go Unit :=
  match microBlockBatch db inv with
  | .ok batch => write f db batch
  | .error e => (db, .error e)

/-- `updateLeash`, chains/storage.go:403-410 -/
def updateLeash (f : Fate) (db : DB) (a : Addr) (id : BlockID) : DB × Go Unit :=
  write f db (putLeash a id)

/-- the batch written by `initialize` for an empty database, chains/storage.go:65-93 -/
def genesisBatch (g : ProtoBlock) : Go Batch :=
  match g.generator with
  | none => fail .badGenerator
  | some ga => do
    let sc ← calculateScore g.baseTarget
    let b : BlockRec :=
      { height := 1, timestamp := g.timestamp, score := sc, id := g.id.1, parent := [], generator := ga }
    pure (putBlock 1 b ++ putCounter blocksCounter 1 ++ putID blockPrefix g.id 1
      ++ putLink 1 { height := 1, blockID := g.id.1, parents := [] }
      ++ putCounter headsCounter 1 ++ putNum headToBlockPrefix 1 1 ++ putNum blockToHeadPrefix 1 1)

/-- `initialize`, chains/storage.go:54-99 -/
def initStorage (f : Fate) (db : DB) (g : ProtoBlock) : DB × Go Unit :=
  match getCounter db blocksCounter with
  | .error e => (db, .error e)
  | .ok n =>
    if n = 0 then
      match genesisBatch g with
      | .ok batch => write f db batch
      | .error e => (db, .error e)
    else (db, .ok ())

/-! ### queries -/

/-- `safeTimestamp`, chains/linkage.go:486-491 (the `int64` has the same value) -/
def safeTimestamp (ts : UInt64) : Go UInt64 :=
  if ts.toNat < 2^63 - 1 then .ok ts else goPanic

/-- conversion of a stored record into an API block: chains/linkage.go:461-483 and
chains/storage.go:286-309 -/
def blockOfRec (b : BlockRec) : Go Block := do
  let bID ← newBlockIDFromBytes b.id
  let pID ← if b.parent.length > 0 then newBlockIDFromBytes b.parent else pure zeroID
  let ts ← safeTimestamp b.timestamp
  pure { id := bID, parent := pID, height := b.height, generator := b.generator, score := b.score, timestamp := ts }

/-- the loop of `getAncestors`, chains/storage.go:249-264, with `k = count - i` iterations left -/
def ancestorsLoop (db : DB) : (k : Nat) → UInt64 → Go (List BlockID)
  | 0, _ => .ok []
  | k + 1, n => do
    let l ← getLink db n
    let pid ← newBlockIDFromBytes l.blockID
    match l.parents with
    | [] => pure [pid]
    | p :: _ =>
      let rest ← ancestorsLoop db k p
      pure (pid :: rest)

/-- `getAncestors`, chains/storage.go:236-266; `make` with a negative capacity panics -/
def getAncestors (db : DB) (id : BlockID) (count : Int) : Go (List BlockID) := do
  let n ← getNumOfBlockID db id
  if count < 0 then goPanic else ancestorsLoop db count.toNat n

/-- the loop of `getBlocks`, chains/storage.go:281-320 -/
def blocksLoop (db : DB) : (k : Nat) → UInt64 → Go (List Block)
  | 0, _ => .ok []
  | k + 1, n => do
    let b ← getBlock db n
    let bb ← blockOfRec b
    if b.parent.length = 0 then pure [bb]
    else
      let l ← getLink db n
      let p ← goIndex l.parents 0
      let rest ← blocksLoop db k p
      pure (bb :: rest)

/-- `getBlocks`, chains/storage.go:268-322 -/
def getBlocks (db : DB) (id : BlockID) (count : Int) : Go (List Block) := do
  let n ← getNumOfBlockID db id
  if count < 0 then goPanic else blocksLoop db count.toNat n

/-- the loop of `fastBackwardFarthest`, chains/storage.go:377-390.  The loop variable of the
code is `k - 1`; it decreases in every iteration, so `fuel ≥ k` iterations suffice.
`1 << i` has type `uint32`. -/
def fbLoop (db : DB) (other : LinkRec) : (fuel k : Nat) → LinkRec → Go LinkRec
  | 0, _, far => .ok far
  | _ + 1, 0, far => .ok far
  | fuel + 1, i + 1, far =>
    if far.height - UInt32.ofNat (2 ^ i) ≥ other.height then do
      let p ← goIndex far.parents i
      let l ← getLink db p
      if i ≥ l.parents.length then fbLoop db other fuel l.parents.length l
      else fbLoop db other fuel i l
    else fbLoop db other fuel i far

/-- `fastBackwardFarthest`, chains/storage.go:375-392 -/
def fastBackwardFarthest (db : DB) (far other : LinkRec) : Go LinkRec :=
  fbLoop db other far.parents.length far.parents.length far

/-- the loop of `lca`, chains/storage.go:356-367; the loop variable of the code is `k - 1` -/
def lcaLoop (db : DB) : (k : Nat) → LinkRec → LinkRec → Go (LinkRec × LinkRec)
  | 0, far, other => .ok (far, other)
  | i + 1, far, other => do
    let p ← goIndex far.parents i
    let q ← goIndex other.parents i
    if p ≠ q then do
      let far' ← getLink db p
      let other' ← getLink db q
      lcaLoop db i far' other'
    else lcaLoop db i far other

/-- `lca`, chains/storage.go:324-373 -/
def lca (db : DB) (id1 id2 : BlockID) : Go BlockID := do
  let l1 ← getLinkByID db id1
  let l2 ← getLinkByID db id2
  let (far, other) := if l1.height < l2.height then (l2, l1) else (l1, l2)
  let far ← fastBackwardFarthest db far other
  if far.blockID = other.blockID then newBlockIDFromBytes far.blockID
  else do
    let (far, _) ← lcaLoop db far.parents.length far other
    let p ← goIndex far.parents 0
    let l ← getLink db p
    newBlockIDFromBytes l.blockID

/-- map over a slice with a function that may return early with an error -/
def mapGo {α β : Type} (f : α → Go β) : List α → Go (List β)
  | [] => .ok []
  | a :: l => do
    let b ← f a
    let bs ← mapGo f l
    pure (b :: bs)

/-- `util.Range` of `leashes`, chains/storage.go:419-424 -/
def leashesStart : Bytes := addrKey (.v4 ⟨[0, 0, 0, 0], rfl⟩)
def leashesLimit : Bytes := addrKey (.v6 ⟨List.replicate 16 0xff, rfl⟩ "")

/-- body of the iteration of `leashes`, chains/storage.go:428-433 (a record has no valid
id size) -/
def leashOf (p : Bytes × Val) : Go Leash := do
  let addr ← addrKeyFrom p.1
  match p.2 with
  | .raw v => do
    let id ← newBlockIDFromBytes v
    pure { addr := addr, blockID := id }
  | _ => fail .badID

/-- `leashes`, chains/storage.go:412-436 -/
def leashes (db : DB) : Go (List Leash) := mapGo leashOf (scan db leashesStart leashesLimit)

/-- body of the iteration of `getHeads`, chains/storage.go:674-679 (a record is longer
than 8 bytes and would be read as some number; not reachable) -/
def headOf (p : Bytes × Val) : Go (UInt64 × UInt64) := do
  let (pre, n) ← numKeyFrom p.1
  if pre ≠ headToBlockPrefix then fail .badPrefix
  else match p.2 with
    | .raw v => do
      let b ← be64Dec v
      pure (n, b)
    | _ => fail .badRecord

/-- `getHeads`, chains/storage.go:664-682; pairs (head number, block number) -/
def getHeads (db : DB) : Go (List (UInt64 × UInt64)) :=
  mapGo headOf (scan db (numKey headToBlockPrefix 0) (numKey headToBlockPrefix (UInt64.ofNat (2^64 - 1))))

/-- `heads`, chains/storage.go:438-464 -/
def heads (db : DB) : Go (List Head) := do
  let hs ← getHeads db
  mapGo (fun p => do
    let bl ← getBlock db p.2
    let id ← newBlockIDFromBytes bl.id
    pure { num := p.1, blockID := id }) hs

end Verif.Chains
