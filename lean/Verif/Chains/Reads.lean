import Verif.Chains.Spec
/-
The functions of chains/storage.go and chains/linkage.go once more, on a disk
that may fail to read.

`Verif.Chains.Storage` and `Verif.Chains.Linkage` model the same functions for
a database whose reads succeed; here each of them gets the faults of the disk
as one more argument, and the definitions follow the same lines of the code.
`Safe.exact` (ReadsLemmas) shows that without faults nothing is different.
-/

set_option autoImplicit false

namespace Verif.Chains.Rd

open Verif KV

/-- What is wrong with the disk during one call.

`bad`: `Get` of such a key returns an error that is not `leveldb.ErrNotFound` (an I/O error, or a
table block with a wrong checksum).

`missed`: an iterator does not deliver such an entry.  A goleveldb iterator that meets an I/O error
becomes invalid, so that the loop ends as if the range was exhausted, and says so only in
`it.Error()`, which is not called anywhere in the program (chains/storage.go:425-435, 671-681,
peers/storage.go:130-155); a block with a wrong checksum is skipped unless the strict mode is on. -/
structure Faults where
  bad : Bytes → Bool
  missed : Bytes → Bool

/-- a disk that reads well -/
def Faults.none : Faults := { bad := fun _ => false, missed := fun _ => false }

/-- the error of a failed read; `errors.Is(err, leveldb.ErrNotFound)` is false -/
def readFailed : Err := .other "read"

/-- `sn.Get(key, nil)` -/
def get {V : Type} (F : Faults) (db : KV.DB V) (k : Bytes) : Go (Option V) :=
  if F.bad k then fail readFailed else .ok (KV.get db k)

/-- what an iterator over a range delivers -/
def scan {V : Type} (F : Faults) (db : KV.DB V) (lo hi : Bytes) : KV.DB V :=
  (KV.scan db lo hi).filter (fun p => !F.missed p.1)

/-! ### reading single values -/

/-- `getCounter`, chains/storage.go:466-482 -/
def getCounter (F : Faults) (db : DB) (c : UInt8) : Go UInt64 := do
  match ← get F db (counterKey c) with
  | none => .ok 0
  | some (.raw v) => if v.length = 8 then be64Dec v else goPanic
  | some _ => goPanic

/-- `getNumOfBlockID`, chains/storage.go:491-500 -/
def getNumOfBlockID (F : Faults) (db : DB) (id : BlockID) : Go UInt64 := do
  match ← get F db (idKey blockPrefix id) with
  | none => fail .notFound
  | some (.raw v) => if v.length = 8 then be64Dec v else fail .badSize
  | some _ => fail .badSize

/-- `getBlock`, chains/storage.go:567-577 -/
def getBlock (F : Faults) (db : DB) (n : UInt64) : Go BlockRec := do
  match ← get F db (numKey blockPrefix n) with
  | none => fail .notFound
  | some (.blk b) => .ok b
  | some _ => fail .badRecord

/-- `getLink`, chains/storage.go:579-589 -/
def getLink (F : Faults) (db : DB) (n : UInt64) : Go LinkRec := do
  match ← get F db (numKey chainPrefix n) with
  | none => fail .notFound
  | some (.lnk l) => .ok l
  | some _ => fail .badRecord

/-- `getBlockByID`, chains/storage.go:555-565; also `storage.block`, 105-112 -/
def getBlockByID (F : Faults) (db : DB) (id : BlockID) : Go BlockRec := do
  let n ← getNumOfBlockID F db id
  getBlock F db n

/-- `getLinkByID`, chains/storage.go:591-597 -/
def getLinkByID (F : Faults) (db : DB) (id : BlockID) : Go LinkRec := do
  let n ← getNumOfBlockID F db id
  getLink F db n

/-- `getHeadByBlockNum`, chains/storage.go:652-661 -/
def getHeadByBlockNum (F : Faults) (db : DB) (n : UInt64) : Go UInt64 := do
  match ← get F db (numKey blockToHeadPrefix n) with
  | none => fail .notFound
  | some (.raw v) => if v.length = 8 then be64Dec v else fail .badSize
  | some _ => fail .badSize

/-- `getLeash`, chains/storage.go:599-612; also `storage.leash`, 394-401 -/
def getLeash (F : Faults) (db : DB) (a : Addr) : Go BlockID := do
  match ← get F db (addrKey a) with
  | none => fail .notFound
  | some (.raw v) =>
    if v.length ≠ 32 ∧ v.length ≠ 64 then fail .badSize else newBlockIDFromBytes v
  | some _ => fail .badSize

/-- `hasBlock`, chains/storage.go:114-128 -/
def hasBlock (F : Faults) (db : DB) (id : BlockID) : Go Bool :=
  match getNumOfBlockID F db id with
  | .ok _ => .ok true
  | .error (.err .notFound) => .ok false
  | .error e => .error e

/-! ### building batches -/

/-- the loop of `putNewLinkForBlock`, chains/storage.go:519-528 -/
def linkParents (F : Faults) (db : DB) : (k l : Nat) → (pn : UInt64) → Go (List UInt64)
  | 0, _, _ => .ok []
  | k + 1, l, pn => do
    let pl ← getLink F db pn
    let pn' := match pl.parents[l]? with
      | some q => q
      | none => pn
    let rest ← linkParents F db k (l + 1) pn'
    pure (pn :: rest)

/-- `putNewLinkForBlock`, chains/storage.go:508-535 -/
def putNewLinkForBlock (F : Faults) (db : DB) (n : UInt64) (id : BlockID) (h : UInt32) (parentID : BlockID) :
    Go Batch := do
  let pn ← getNumOfBlockID F db parentID
  match maxParents h with
  | none => goPanic
  | some mp =>
    let parents ← linkParents F db mp 0 pn
    pure (putLink n { height := h, blockID := id.1, parents := parents })

/-- `putNewHead`, chains/storage.go:633-644 -/
def putNewHead (F : Faults) (db : DB) (blockNum : UInt64) : Go Batch := do
  let cnt ← getCounter F db headsCounter
  let headNum := cnt + 1
  pure (putCounter headsCounter headNum ++ putNum headToBlockPrefix headNum blockNum
    ++ putNum blockToHeadPrefix blockNum headNum)

/-- `putHead`, chains/storage.go:618-631 -/
def putHead (F : Faults) (db : DB) (blockNum parentNum : UInt64) : Go Batch :=
  match getHeadByBlockNum F db parentNum with
  | .error (.err .notFound) => putNewHead F db blockNum
  | .error e => .error e
  | .ok headNum =>
    .ok ([.del (numKey blockToHeadPrefix parentNum)] ++ putNum headToBlockPrefix headNum blockNum
      ++ putNum blockToHeadPrefix blockNum headNum)

/-- the batch assembled by `putProtoBlock`, chains/storage.go:130-175 -/
def protoBlockBatch (F : Faults) (db : DB) (b : ProtoBlock) : Go Batch := do
  let n ← getCounter F db blocksCounter
  let parentNum ← getNumOfBlockID F db b.parent
  let parent ← getBlock F db parentNum
  let n := n + 1
  let rec_ ← newBlock b (parent.height + 1) parent.score
  let lnk ← putNewLinkForBlock F db n b.id rec_.height b.parent
  let hd ← putHead F db n parentNum
  pure (putCounter blocksCounter n ++ putID blockPrefix b.id n ++ putBlock n rec_ ++ lnk ++ hd)

/-- `putProtoBlock`, chains/storage.go:130-177 -/
def putProtoBlock (F : Faults) (f : Fate) (db : DB) (b : ProtoBlock) : DB × Go Unit :=
  match protoBlockBatch F db b with
  | .ok batch => write f db batch
  | .error e => (db, .error e)

/-- the batch assembled by `putMicroBlock`, chains/storage.go:179-232 -/
def microBlockBatch (F : Faults) (db : DB) (inv : MicroInv) : Go Batch := do
  let n ← getCounter F db blocksCounter
  let refNum ← getNumOfBlockID F db inv.reference
  let ref ← getBlock F db refNum
  let parentID ← newBlockIDFromBytes ref.parent
  let n := n + 1
  let b : BlockRec :=
    { height := ref.height, timestamp := ref.timestamp, score := ref.score, id := inv.totalBlockID.1,
      parent := ref.parent, generator := ref.generator }
  let lnk ← putNewLinkForBlock F db n inv.totalBlockID b.height parentID
  let hd ← putHead F db n refNum
  pure (putCounter blocksCounter n ++ putID blockPrefix inv.totalBlockID n ++ putBlock n b ++ lnk ++ hd)

/-- `putMicroBlock`, chains/storage.go:179-234 -/
def putMicroBlock (F : Faults) (f : Fate) (db : DB) (inv : MicroInv) : DB × Go Unit :=
  match microBlockBatch F db inv with
  | .ok batch => write f db batch
  | .error e => (db, .error e)

/-- `initialize`, chains/storage.go:54-99 -/
def initStorage (F : Faults) (f : Fate) (db : DB) (g : ProtoBlock) : DB × Go Unit :=
  match getCounter F db blocksCounter with
  | .error e => (db, .error e)
  | .ok n =>
    if n = 0 then
      match genesisBatch g with
      | .ok batch => write f db batch
      | .error e => (db, .error e)
    else (db, .ok ())

/-! ### queries of the storage -/

/-- the loop of `getAncestors`, chains/storage.go:249-264 -/
def ancestorsLoop (F : Faults) (db : DB) : (k : Nat) → UInt64 → Go (List BlockID)
  | 0, _ => .ok []
  | k + 1, n => do
    let l ← getLink F db n
    let pid ← newBlockIDFromBytes l.blockID
    match l.parents with
    | [] => pure [pid]
    | p :: _ =>
      let rest ← ancestorsLoop F db k p
      pure (pid :: rest)

/-- `getAncestors`, chains/storage.go:236-266 -/
def getAncestors (F : Faults) (db : DB) (id : BlockID) (count : Int) : Go (List BlockID) := do
  let n ← getNumOfBlockID F db id
  if count < 0 then goPanic else ancestorsLoop F db count.toNat n

/-- the loop of `getBlocks`, chains/storage.go:281-320 -/
def blocksLoop (F : Faults) (db : DB) : (k : Nat) → UInt64 → Go (List Block)
  | 0, _ => .ok []
  | k + 1, n => do
    let b ← getBlock F db n
    let bb ← blockOfRec b
    if b.parent.length = 0 then pure [bb]
    else
      let l ← getLink F db n
      let p ← goIndex l.parents 0
      let rest ← blocksLoop F db k p
      pure (bb :: rest)

/-- `getBlocks`, chains/storage.go:268-322 -/
def getBlocks (F : Faults) (db : DB) (id : BlockID) (count : Int) : Go (List Block) := do
  let n ← getNumOfBlockID F db id
  if count < 0 then goPanic else blocksLoop F db count.toNat n

/-- the loop of `fastBackwardFarthest`, chains/storage.go:377-390 -/
def fbLoop (F : Faults) (db : DB) (other : LinkRec) : (fuel k : Nat) → LinkRec → Go LinkRec
  | 0, _, far => .ok far
  | _ + 1, 0, far => .ok far
  | fuel + 1, i + 1, far =>
    if far.height - UInt32.ofNat (2 ^ i) ≥ other.height then do
      let p ← goIndex far.parents i
      let l ← getLink F db p
      if i ≥ l.parents.length then fbLoop F db other fuel l.parents.length l
      else fbLoop F db other fuel i l
    else fbLoop F db other fuel i far

/-- `fastBackwardFarthest`, chains/storage.go:375-392 -/
def fastBackwardFarthest (F : Faults) (db : DB) (far other : LinkRec) : Go LinkRec :=
  fbLoop F db other far.parents.length far.parents.length far

/-- the loop of `lca`, chains/storage.go:356-367 -/
def lcaLoop (F : Faults) (db : DB) : (k : Nat) → LinkRec → LinkRec → Go (LinkRec × LinkRec)
  | 0, far, other => .ok (far, other)
  | i + 1, far, other => do
    let p ← goIndex far.parents i
    let q ← goIndex other.parents i
    if p ≠ q then do
      let far' ← getLink F db p
      let other' ← getLink F db q
      lcaLoop F db i far' other'
    else lcaLoop F db i far other

/-- `lca`, chains/storage.go:324-373 -/
def lca (F : Faults) (db : DB) (id1 id2 : BlockID) : Go BlockID := do
  let l1 ← getLinkByID F db id1
  let l2 ← getLinkByID F db id2
  let (far, other) := if l1.height < l2.height then (l2, l1) else (l1, l2)
  let far ← fastBackwardFarthest F db far other
  if far.blockID = other.blockID then newBlockIDFromBytes far.blockID
  else do
    let (far, _) ← lcaLoop F db far.parents.length far other
    let p ← goIndex far.parents 0
    let l ← getLink F db p
    newBlockIDFromBytes l.blockID

/-- `leashes`, chains/storage.go:412-436 -/
def leashes (F : Faults) (db : DB) : Go (List Leash) := mapGo leashOf (scan F db leashesStart leashesLimit)

/-- `getHeads`, chains/storage.go:664-682 -/
def getHeads (F : Faults) (db : DB) : Go (List (UInt64 × UInt64)) :=
  mapGo headOf (scan F db (numKey headToBlockPrefix 0) (numKey headToBlockPrefix (UInt64.ofNat (2^64 - 1))))

/-- `heads`, chains/storage.go:438-464 -/
def heads (F : Faults) (db : DB) : Go (List Head) := do
  let hs ← getHeads F db
  mapGo (fun p => do
    let bl ← getBlock F db p.2
    let id ← newBlockIDFromBytes bl.id
    pure { num := p.1, blockID := id }) hs

/-! ### the methods of `Linkage` -/

/-- `NewLinkage`, chains/linkage.go:49-63 -/
def NewLinkage (F : Faults) (f : Fate) (db : DB) (g : ProtoBlock) : DB × Go Linkage :=
  match initStorage F f db g with
  | (db', .ok ()) => (db', .ok { genesis := g.id, db := db' })
  | (db', .error e) => (db', .error e)

/-- `PutBlock`, chains/linkage.go:72-100 -/
def PutBlock (F : Faults) (f1 f2 : Fate) (db : DB) (b : ProtoBlock) (a : Addr) : DB × Go Unit :=
  match hasBlock F db b.id with
  | .error e => (db, .error e)
  | .ok true => updateLeash f1 db a b.id
  | .ok false =>
    match hasBlock F db b.parent with
    | .error e => (db, .error e)
    | .ok false => (db, fail .parentNotFound)
    | .ok true =>
      match putProtoBlock F f1 db b with
      | (db', .error e) => (db', .error e)
      | (db', .ok ()) => updateLeash f2 db' a b.id

/-- `PutMicroBlock`, chains/linkage.go:102-130 -/
def PutMicroBlock (F : Faults) (f1 f2 : Fate) (db : DB) (inv : MicroInv) (a : Addr) : DB × Go Unit :=
  match hasBlock F db inv.totalBlockID with
  | .error e => (db, .error e)
  | .ok true => updateLeash f1 db a inv.totalBlockID
  | .ok false =>
    match hasBlock F db inv.reference with
    | .error e => (db, .error e)
    | .ok false => (db, fail .refNotFound)
    | .ok true =>
      match putMicroBlock F f1 db inv with
      | (db', .error e) => (db', .error e)
      | (db', .ok ()) => updateLeash f2 db' a inv.totalBlockID

/-- `HasLeash`, chains/linkage.go:132-144 -/
def HasLeash (F : Faults) (db : DB) (a : Addr) : Go Bool :=
  match getLeash F db a with
  | .ok _ => .ok true
  | .error (.err .notFound) => .ok false
  | .error e => .error e

/-- `Leash`, chains/linkage.go:147-159 -/
def LeashOf (F : Faults) (l : Linkage) (a : Addr) : Go BlockID :=
  match getLeash F l.db a with
  | .ok id => .ok id
  | .error (.err .notFound) => .ok l.genesis
  | .error e => .error e

/-- `LeashScore`, chains/linkage.go:163-178 -/
def LeashScore (F : Faults) (l : Linkage) (a : Addr) : Go Nat := do
  let id := match getLeash F l.db a with
    | .ok id => id
    | .error (.err .notFound) => l.genesis
    | .error _ => zeroID
  let bl ← getBlockByID F l.db id
  pure bl.score

/-- `Heads`, chains/linkage.go:181-186 -/
def Heads (F : Faults) (db : DB) : Go (List Head) := heads F db

/-- `LastIDs`, chains/linkage.go:196-201 -/
def LastIDs (F : Faults) (db : DB) (id : BlockID) (count : Int) : Go (List BlockID) := getAncestors F db id count

/-- `HasBlock`, chains/linkage.go:203-208 -/
def HasBlock (F : Faults) (db : DB) (id : BlockID) : Go Bool := hasBlock F db id

/-- `block`, chains/linkage.go:456-484, and `Block`, 210-215 -/
def BlockOf (F : Faults) (db : DB) (id : BlockID) : Go Block := do
  let b ← getBlockByID F db id
  blockOfRec b

/-- `Leashes`, chains/linkage.go:224-229 -/
def Leashes (F : Faults) (db : DB) : Go (List Leash) := leashes F db

/-- `activeHeads`, chains/linkage.go:430-450, and `ActiveHeads`, 189-194 -/
def ActiveHeads (F : Faults) (db : DB) : Go (List Head) := do
  let hs ← heads F db
  let ls ← leashes F db
  pure (hs.filter (fun h => (ls.map (·.blockID)).contains h.blockID))

/-- one round of the final loop of `forks`, chains/linkage.go:531-540 -/
def finishFork (F : Faults) (db : DB) (longest : BlockID) (f : Fork) : Go Fork := do
  let lcaID ← lca F db longest f.headBlock
  let lb ← getBlockByID F db lcaID
  pure { f with lastCommonBlock := lcaID, length := f.length - lb.height.toNat }

/-- `forks`, chains/linkage.go:493-544, and `Forks`, 332-337 -/
def Forks (F : Faults) (env : Env) (db : DB) (peers : List Addr) : Go (List Fork) := do
  let ls ← leashes F db
  let m := groupLeashes (selected peers ls)
  let r ← mapGo (fun (p : BlockID × List Addr) => do
    let b ← BlockOf F db p.1
    pure (mkFork b p.2)) (env.mapOrder m)
  match env.sort forkLess r with
  | [] => goPanic
  | longest :: rest => mapGo (finishFork F db longest.headBlock) ({ longest with longest := true } :: rest)

/-- `Stats`, chains/linkage.go:260-277 -/
def StatsOf (F : Faults) (env : Env) (db : DB) : Go Stats := do
  let fs ← Forks F env db []
  pure { short := (fs.filter (fun f => ¬ (f.length > 5))).length, long := (fs.filter (fun f => f.length > 5)).length }

/-- the loop of `LCB`, chains/linkage.go:302-319 -/
def bestLoop (F : Faults) (db : DB) : Best → List (BlockID × List Addr) → Go Best
  | s, [] => .ok s
  | s, (k, v) :: m => do
    let b ← BlockOf F db k
    bestLoop F db (s.step k b.score v.length) m

/-- `LCB`, chains/linkage.go:280-328 -/
def LCB (F : Faults) (env : Env) (l : Linkage) (peer : Addr) : Go BlockID :=
  match getLeash F l.db peer with
  | .error (.err .notFound) => .ok l.genesis
  | .error e => .error e
  | .ok head => do
    let ls ← leashes F l.db
    let best ← bestLoop F l.db Best.init (env.mapOrder (groupLeashes ls))
    if head = best.longest then pure head
    else lca F l.db best.longest head

/-- the loop of `Fork`, chains/linkage.go:355-386 -/
def forkLoop (F : Faults) (db : DB) (peer : Addr) : Best → Fork → List (BlockID × List Addr) → Go (Best × Fork)
  | s, f, [] => .ok (s, f)
  | s, f, (k, v) :: m => do
    let b ← BlockOf F db k
    forkLoop F db peer (s.step k b.score v.length) (if v.contains peer then mkFork b v else f) m

/-- `Fork`, chains/linkage.go:339-404 -/
def ForkOf (F : Faults) (env : Env) (db : DB) (peer : Addr) : Go Fork := do
  let ls ← leashes F db
  let (best, fork) ← forkLoop F db peer Best.init zeroFork (env.mapOrder (groupLeashes ls))
  if fork.headBlock = best.longest then pure { fork with longest := true, length := 0 }
  else do
    let lcaID ← lca F db best.longest fork.headBlock
    let lb ← getBlockByID F db lcaID
    pure { fork with lastCommonBlock := lcaID, length := fork.length - lb.height.toNat }

/-- `ForkGenerators`, chains/linkage.go:408-428 -/
def ForkGenerators (F : Faults) (env : Env) (db : DB) (id : BlockID) (count : Int) : Go (List GeneratorStats) := do
  let bs ← getBlocks F db id count
  let m := (bs.map (·.generator)).foldl countInsert []
  pure (env.sort genLess ((env.mapOrder m).map (fun p => { generator := p.1, blocks := p.2 })))

/-! ### histories -/

/-- effect and result of one call of the history on a disk with the given faults -/
def step (F : Faults) (l : Linkage) : Spec.Op → Linkage × Go Unit
  | .putBlock b a f1 f2 => ({ l with db := (PutBlock F f1 f2 l.db b a).1 }, (PutBlock F f1 f2 l.db b a).2)
  | .putMicro inv a f1 f2 =>
    ({ l with db := (PutMicroBlock F f1 f2 l.db inv a).1 }, (PutMicroBlock F f1 f2 l.db inv a).2)
  | .moveLeash id a f => ({ l with db := (MoveLeash f l.db id a).1 }, (MoveLeash f l.db id a).2)
  | .reopen g f =>
    match NewLinkage F f l.db g with
    | (_, .ok l') => (l', .ok ())
    | (db', .error e) => ({ l with db := db' }, .error e)

/-- a history in which the disk may be in another condition at every call -/
def exec (l : Linkage) (ops : List (Faults × Spec.Op)) : Linkage := ops.foldl (fun l o => (step o.1 l o.2).1) l

end Verif.Chains.Rd
