import Verif.Chains.Linkage
/-
How many records are read from the database: the functions of chains/storage.go and chains/linkage.go once more, as in `Storage.lean` and
`Linkage.lean`, with a count of the records that are asked for (`Get`) or visited by an iterator (`Next`).  That the results are the same is
proved in `Verif/Chains/WorkLemmas.lean`.  Simplification: an iteration that ends with an error is counted as if it had gone on to the end.
-/

set_option autoImplicit false

namespace Verif.Chains.Work

open Verif KV

/-- a computation that reads records, and how many it has read when it ends, be it with an error or a panic -/
structure Cnt (α : Type) where
  val : Go α
  reads : Nat

/-- nothing is read -/
def free {α : Type} (x : Go α) : Cnt α := ⟨x, 0⟩

/-- one record is read -/
def one {α : Type} (x : Go α) : Cnt α := ⟨x, 1⟩

def Cnt.bind {α β : Type} (x : Cnt α) (f : α → Cnt β) : Cnt β :=
  match x.val with
  | .ok a => ⟨(f a).val, x.reads + (f a).reads⟩
  | .error e => ⟨.error e, x.reads⟩

instance : Monad Cnt where
  pure a := free (.ok a)
  bind := Cnt.bind

/-- `getNumOfBlockID`, chains/storage.go:491-500 -/
def getNumOfBlockID (db : DB) (id : BlockID) : Cnt UInt64 := one (Chains.getNumOfBlockID db id)
/-- `getCounter`, chains/storage.go:466-482 -/
def getCounter (db : DB) (c : UInt8) : Cnt UInt64 := one (Chains.getCounter db c)
/-- `getBlock`, chains/storage.go:567-577 -/
def getBlock (db : DB) (n : UInt64) : Cnt BlockRec := one (Chains.getBlock db n)
/-- `getLink`, chains/storage.go:579-589 -/
def getLink (db : DB) (n : UInt64) : Cnt LinkRec := one (Chains.getLink db n)

/-- `getBlockByID`, chains/storage.go:555-565 -/
def getBlockByID (db : DB) (id : BlockID) : Cnt BlockRec := do
  let n ← getNumOfBlockID db id
  getBlock db n

/-- `getLinkByID`, chains/storage.go:591-597 -/
def getLinkByID (db : DB) (id : BlockID) : Cnt LinkRec := do
  let n ← getNumOfBlockID db id
  getLink db n

/-- the loop of `putNewLinkForBlock`, chains/storage.go:519-528 -/
def linkParents (db : DB) : (k l : Nat) → (pn : UInt64) → Cnt (List UInt64)
  | 0, _, _ => free (.ok [])
  | k + 1, l, pn => do
    let pl ← getLink db pn
    let pn' := match pl.parents[l]? with
      | some q => q
      | none => pn
    let rest ← linkParents db k (l + 1) pn'
    pure (pn :: rest)

/-- `putNewLinkForBlock`, chains/storage.go:508-535 -/
def putNewLinkForBlock (db : DB) (n : UInt64) (id : BlockID) (h : UInt32) (parentID : BlockID) : Cnt Batch := do
  let pn ← getNumOfBlockID db parentID
  match maxParents h with
  | none => free goPanic
  | some mp =>
    let parents ← linkParents db mp 0 pn
    pure (putLink n { height := h, blockID := id.1, parents := parents })

/-- `putNewHead`, chains/storage.go:633-644 -/
def putNewHead (db : DB) (blockNum : UInt64) : Cnt Batch := do
  let cnt ← getCounter db headsCounter
  let headNum := cnt + 1
  pure (putCounter headsCounter headNum ++ putNum headToBlockPrefix headNum blockNum
    ++ putNum blockToHeadPrefix blockNum headNum)

/-- `putHead`, chains/storage.go:618-631 -/
def putHead (db : DB) (blockNum parentNum : UInt64) : Cnt Batch :=
  match getHeadByBlockNum db parentNum with
  | .error (.err .notFound) => ⟨(putNewHead db blockNum).val, 1 + (putNewHead db blockNum).reads⟩
  | .error e => one (.error e)
  | .ok headNum =>
    one (.ok ([.del (numKey blockToHeadPrefix parentNum)] ++ putNum headToBlockPrefix headNum blockNum
      ++ putNum blockToHeadPrefix blockNum headNum))

/-- the batch assembled by `putProtoBlock`, chains/storage.go:130-175 -/
def protoBlockBatch (db : DB) (b : ProtoBlock) : Cnt Batch := do
  let n ← getCounter db blocksCounter
  let parentNum ← getNumOfBlockID db b.parent
  let parent ← getBlock db parentNum
  let n := n + 1
  let rec_ ← free (newBlock b (parent.height + 1) parent.score)
  let lnk ← putNewLinkForBlock db n b.id rec_.height b.parent
  let hd ← putHead db n parentNum
  pure (putCounter blocksCounter n ++ putID blockPrefix b.id n ++ putBlock n rec_ ++ lnk ++ hd)

/-- the batch assembled by `putMicroBlock`, chains/storage.go:179-232 -/
def microBlockBatch (db : DB) (inv : MicroInv) : Cnt Batch := do
  let n ← getCounter db blocksCounter
  let refNum ← getNumOfBlockID db inv.reference
  let ref ← getBlock db refNum
  let parentID ← free (newBlockIDFromBytes ref.parent)
  let n := n + 1
  let b : BlockRec :=
    { height := ref.height, timestamp := ref.timestamp, score := ref.score, id := inv.totalBlockID.1,
      parent := ref.parent, generator := ref.generator }
  let lnk ← putNewLinkForBlock db n inv.totalBlockID b.height parentID
  let hd ← putHead db n refNum
  pure (putCounter blocksCounter n ++ putID blockPrefix inv.totalBlockID n ++ putBlock n b ++ lnk ++ hd)

/-- the result of a call that writes, and the number of records read -/
structure Written where
  res : DB × Go Unit
  reads : Nat

/-- `PutBlock`, chains/linkage.go:72-100 with `putProtoBlock`; `hasBlock` reads one record -/
def PutBlock (f1 f2 : Fate) (db : DB) (b : ProtoBlock) (a : Addr) : Written :=
  match hasBlock db b.id with
  | .error e => ⟨(db, .error e), 1⟩
  | .ok true => ⟨updateLeash f1 db a b.id, 1⟩
  | .ok false =>
    match hasBlock db b.parent with
    | .error e => ⟨(db, .error e), 2⟩
    | .ok false => ⟨(db, fail .parentNotFound), 2⟩
    | .ok true =>
      match (protoBlockBatch db b).val with
      | .error e => ⟨(db, .error e), 2 + (protoBlockBatch db b).reads⟩
      | .ok batch =>
        match write f1 db batch with
        | (db', .error e) => ⟨(db', .error e), 2 + (protoBlockBatch db b).reads⟩
        | (db', .ok ()) => ⟨updateLeash f2 db' a b.id, 2 + (protoBlockBatch db b).reads⟩

/-- `PutMicroBlock`, chains/linkage.go:102-130 with `putMicroBlock` -/
def PutMicroBlock (f1 f2 : Fate) (db : DB) (inv : MicroInv) (a : Addr) : Written :=
  match hasBlock db inv.totalBlockID with
  | .error e => ⟨(db, .error e), 1⟩
  | .ok true => ⟨updateLeash f1 db a inv.totalBlockID, 1⟩
  | .ok false =>
    match hasBlock db inv.reference with
    | .error e => ⟨(db, .error e), 2⟩
    | .ok false => ⟨(db, fail .refNotFound), 2⟩
    | .ok true =>
      match (microBlockBatch db inv).val with
      | .error e => ⟨(db, .error e), 2 + (microBlockBatch db inv).reads⟩
      | .ok batch =>
        match write f1 db batch with
        | (db', .error e) => ⟨(db', .error e), 2 + (microBlockBatch db inv).reads⟩
        | (db', .ok ()) => ⟨updateLeash f2 db' a inv.totalBlockID, 2 + (microBlockBatch db inv).reads⟩

/-- the loop of `getAncestors`, chains/storage.go:249-264 -/
def ancestorsLoop (db : DB) : (k : Nat) → UInt64 → Cnt (List BlockID)
  | 0, _ => free (.ok [])
  | k + 1, n => do
    let l ← getLink db n
    let pid ← free (newBlockIDFromBytes l.blockID)
    match l.parents with
    | [] => pure [pid]
    | p :: _ =>
      let rest ← ancestorsLoop db k p
      pure (pid :: rest)

/-- `getAncestors`, chains/storage.go:236-266, and `LastIDs`, chains/linkage.go:196-201 -/
def LastIDs (db : DB) (id : BlockID) (count : Int) : Cnt (List BlockID) := do
  let n ← getNumOfBlockID db id
  if count < 0 then free goPanic else ancestorsLoop db count.toNat n

/-- the loop of `getBlocks`, chains/storage.go:281-320 -/
def blocksLoop (db : DB) : (k : Nat) → UInt64 → Cnt (List Block)
  | 0, _ => free (.ok [])
  | k + 1, n => do
    let b ← getBlock db n
    let bb ← free (blockOfRec b)
    if b.parent.length = 0 then pure [bb]
    else
      let l ← getLink db n
      let p ← free (goIndex l.parents 0)
      let rest ← blocksLoop db k p
      pure (bb :: rest)

/-- `getBlocks`, chains/storage.go:268-322 -/
def getBlocks (db : DB) (id : BlockID) (count : Int) : Cnt (List Block) := do
  let n ← getNumOfBlockID db id
  if count < 0 then free goPanic else blocksLoop db count.toNat n

/-- `ForkGenerators`, chains/linkage.go:408-428 -/
def ForkGenerators (env : Env) (db : DB) (id : BlockID) (count : Int) : Cnt (List GeneratorStats) := do
  let bs ← getBlocks db id count
  let m := (bs.map (·.generator)).foldl countInsert []
  pure (env.sort genLess ((env.mapOrder m).map (fun p => { generator := p.1, blocks := p.2 })))

/-- the loop of `fastBackwardFarthest`, chains/storage.go:377-390 -/
def fbLoop (db : DB) (other : LinkRec) : (fuel k : Nat) → LinkRec → Cnt LinkRec
  | 0, _, far => free (.ok far)
  | _ + 1, 0, far => free (.ok far)
  | fuel + 1, i + 1, far =>
    if far.height - UInt32.ofNat (2 ^ i) ≥ other.height then do
      let p ← free (goIndex far.parents i)
      let l ← getLink db p
      if i ≥ l.parents.length then fbLoop db other fuel l.parents.length l
      else fbLoop db other fuel i l
    else fbLoop db other fuel i far

/-- `fastBackwardFarthest`, chains/storage.go:375-392 -/
def fastBackwardFarthest (db : DB) (far other : LinkRec) : Cnt LinkRec :=
  fbLoop db other far.parents.length far.parents.length far

/-- the loop of `lca`, chains/storage.go:356-367 -/
def lcaLoop (db : DB) : (k : Nat) → LinkRec → LinkRec → Cnt (LinkRec × LinkRec)
  | 0, far, other => free (.ok (far, other))
  | i + 1, far, other => do
    let p ← free (goIndex far.parents i)
    let q ← free (goIndex other.parents i)
    if p ≠ q then do
      let far' ← getLink db p
      let other' ← getLink db q
      lcaLoop db i far' other'
    else lcaLoop db i far other

/-- `lca`, chains/storage.go:324-373 -/
def lca (db : DB) (id1 id2 : BlockID) : Cnt BlockID := do
  let l1 ← getLinkByID db id1
  let l2 ← getLinkByID db id2
  let (far, other) := if l1.height < l2.height then (l2, l1) else (l1, l2)
  let far ← fastBackwardFarthest db far other
  if far.blockID = other.blockID then free (newBlockIDFromBytes far.blockID)
  else do
    let (far, _) ← lcaLoop db far.parents.length far other
    let p ← free (goIndex far.parents 0)
    let l ← getLink db p
    free (newBlockIDFromBytes l.blockID)

/-- a loop over a slice that may return early with an error -/
def mapC {α β : Type} (f : α → Cnt β) : List α → Cnt (List β)
  | [] => free (.ok [])
  | a :: l => do
    let b ← f a
    let bs ← mapC f l
    pure (b :: bs)

/-- `leashes`, chains/storage.go:412-436: one record for every step of the iterator -/
def leashes (db : DB) : Cnt (List Leash) := ⟨Chains.leashes db, (scan db leashesStart leashesLimit).length⟩

/-- `block`, chains/linkage.go:456-484 -/
def BlockOf (db : DB) (id : BlockID) : Cnt Block := do
  let b ← getBlockByID db id
  free (blockOfRec b)

/-- one round of the final loop of `forks`, chains/linkage.go:531-540 -/
def finishFork (db : DB) (longest : BlockID) (f : Fork) : Cnt Fork := do
  let lcaID ← lca db longest f.headBlock
  let lb ← getBlockByID db lcaID
  pure { f with lastCommonBlock := lcaID, length := f.length - lb.height.toNat }

/-- `forks`, chains/linkage.go:493-544, and `Forks`, 332-337 -/
def Forks (env : Env) (db : DB) (peers : List Addr) : Cnt (List Fork) := do
  let ls ← leashes db
  let m := groupLeashes (selected peers ls)
  let r ← mapC (fun (p : BlockID × List Addr) => do
    let b ← BlockOf db p.1
    pure (mkFork b p.2)) (env.mapOrder m)
  match env.sort forkLess r with
  | [] => free goPanic
  | longest :: rest => mapC (finishFork db longest.headBlock) ({ longest with longest := true } :: rest)

/-- the loop of `LCB`, chains/linkage.go:302-319 -/
def bestLoop (db : DB) : Best → List (BlockID × List Addr) → Cnt Best
  | s, [] => free (.ok s)
  | s, (k, v) :: m => do
    let b ← BlockOf db k
    bestLoop db (s.step k b.score v.length) m

/-- `LCB`, chains/linkage.go:280-328 -/
def LCB (env : Env) (l : Linkage) (peer : Addr) : Cnt BlockID :=
  match getLeash l.db peer with
  | .error (.err .notFound) => one (.ok l.genesis)
  | .error e => one (.error e)
  | .ok head => do
    let _ ← one (.ok ())
    let ls ← leashes l.db
    let best ← bestLoop l.db Best.init (env.mapOrder (groupLeashes ls))
    if head = best.longest then pure head
    else lca l.db best.longest head

/-- the loop of `Fork`, chains/linkage.go:355-386 -/
def forkLoop (db : DB) (peer : Addr) : Best → Fork → List (BlockID × List Addr) → Cnt (Best × Fork)
  | s, f, [] => free (.ok (s, f))
  | s, f, (k, v) :: m => do
    let b ← BlockOf db k
    forkLoop db peer (s.step k b.score v.length) (if v.contains peer then mkFork b v else f) m

/-- `Fork`, chains/linkage.go:339-404 -/
def ForkOf (env : Env) (db : DB) (peer : Addr) : Cnt Fork := do
  let ls ← leashes db
  let (best, fork) ← forkLoop db peer Best.init zeroFork (env.mapOrder (groupLeashes ls))
  if fork.headBlock = best.longest then pure { fork with longest := true, length := 0 }
  else do
    let lcaID ← lca db best.longest fork.headBlock
    let lb ← getBlockByID db lcaID
    pure { fork with lastCommonBlock := lcaID, length := fork.length - lb.height.toNat }

end Verif.Chains.Work
