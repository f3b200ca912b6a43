import Verif.Chains.Storage
/-
Model of chains/linkage.go: the exported `Linkage` API.

All methods hold the mutex for their whole duration (`Lock` for the mutating
ones, `RLock` for the queries), so they are atomic with respect to each other;
the locking itself is the subject of `Verif.Services.RWLock`.

Go's random map iteration order and the unstable `sort.Sort` are parameters
(`Env`).
-/

set_option autoImplicit false

namespace Verif.Chains

open Verif KV

/-- `less` is a strict weak order, the contract `sort.Sort` asks for. -/
structure StrictWeak {α : Type} (less : α → α → Bool) : Prop where
  irrefl : ∀ a, less a a = false
  trans : ∀ a b c, less a b = true → less b c = true → less a c = true
  incomp : ∀ a b c, less a b = false → less b a = false → less b c = false → less c b = false →
    less a c = false ∧ less c a = false

/-- The nondeterminism of one API call: the order in which `range` visits a map,
and which sorted permutation `sort.Sort` produces. -/
structure Env where
  mapOrder : {α : Type} → List α → List α
  mapOrder_perm : ∀ {α : Type} (l : List α), (mapOrder l).Perm l
  sort : {α : Type} → (α → α → Bool) → List α → List α
  sort_perm : ∀ {α : Type} (less : α → α → Bool) (l : List α), (sort less l).Perm l
  sort_sorted : ∀ {α : Type} (less : α → α → Bool) (l : List α), StrictWeak less →
    (sort less l).Pairwise (fun a b => less b a = false)

/-- a `*Linkage`: the genesis id it was opened with and the database -/
structure Linkage where
  genesis : BlockID
  db : DB

/-- `NewLinkage`, chains/linkage.go:49-63.  Returns the database after the call as well, since
it survives when the call fails. -/
def NewLinkage (f : Fate) (db : DB) (g : ProtoBlock) : DB × Go Linkage :=
  match initStorage f db g with
  | (db', .ok ()) => (db', .ok { genesis := g.id, db := db' })
  | (db', .error e) => (db', .error e)

/-- `PutBlock`, chains/linkage.go:72-100.  `f1` is the fate of the first write, `f2` of the
second one. -/
def PutBlock (f1 f2 : Fate) (db : DB) (b : ProtoBlock) (a : Addr) : DB × Go Unit :=
  match hasBlock db b.id with
  | .error e => (db, .error e)
  | .ok true => updateLeash f1 db a b.id
  | .ok false =>
    match hasBlock db b.parent with
    | .error e => (db, .error e)
    | .ok false => (db, fail .parentNotFound)
    | .ok true =>
      match putProtoBlock f1 db b with
      | (db', .error e) => (db', .error e)
      | (db', .ok ()) => updateLeash f2 db' a b.id

/-- `PutMicroBlock`, chains/linkage.go:102-130 -/
def PutMicroBlock (f1 f2 : Fate) (db : DB) (inv : MicroInv) (a : Addr) : DB × Go Unit :=
  match hasBlock db inv.totalBlockID with
  | .error e => (db, .error e)
  | .ok true => updateLeash f1 db a inv.totalBlockID
  | .ok false =>
    match hasBlock db inv.reference with
    | .error e => (db, .error e)
    | .ok false => (db, fail .refNotFound)
    | .ok true =>
      match putMicroBlock f1 db inv with
      | (db', .error e) => (db', .error e)
      | (db', .ok ()) => updateLeash f2 db' a inv.totalBlockID

/-- `MoveLeash`, chains/linkage.go:217-222 -/
def MoveLeash (f : Fate) (db : DB) (id : BlockID) (a : Addr) : DB × Go Unit := updateLeash f db a id

/-- `HasLeash`, chains/linkage.go:132-144 -/
def HasLeash (db : DB) (a : Addr) : Go Bool :=
  match getLeash db a with
  | .ok _ => .ok true
  | .error (.err .notFound) => .ok false
  | .error e => .error e

/-- `Leash`, chains/linkage.go:147-159 -/
def LeashOf (l : Linkage) (a : Addr) : Go BlockID :=
  match getLeash l.db a with
  | .ok id => .ok id
  | .error (.err .notFound) => .ok l.genesis
  | .error e => .error e

/-- `LeashScore`, chains/linkage.go:163-178.  On an error other than not-found the code goes on
with the zero id. -/
def LeashScore (l : Linkage) (a : Addr) : Go Nat := do
  let id := match getLeash l.db a with
    | .ok id => id
    | .error (.err .notFound) => l.genesis
    | .error _ => zeroID
  let bl ← getBlockByID l.db id
  pure bl.score

/-- `Heads`, chains/linkage.go:181-186 -/
def Heads (db : DB) : Go (List Head) := heads db

/-- `LastIDs`, chains/linkage.go:196-201 -/
def LastIDs (db : DB) (id : BlockID) (count : Int) : Go (List BlockID) := getAncestors db id count

/-- `HasBlock`, chains/linkage.go:203-208; also `hasBlock`, chains/linkage.go:452-454 -/
def HasBlock (db : DB) (id : BlockID) : Go Bool := hasBlock db id

/-- `block`, chains/linkage.go:456-484, and `Block`, 210-215 -/
def BlockOf (db : DB) (id : BlockID) : Go Block := do
  let b ← getBlockByID db id
  blockOfRec b

/-- `Leashes`, chains/linkage.go:224-229 -/
def Leashes (db : DB) : Go (List Leash) := leashes db

/-- `activeHeads`, chains/linkage.go:430-450, and `ActiveHeads`, 189-194 -/
def ActiveHeads (db : DB) : Go (List Head) := do
  let hs ← heads db
  let ls ← leashes db
  pure (hs.filter (fun h => (ls.map (·.blockID)).contains h.blockID))

/-- `m[id] = append(m[id], addr)` on a Go map kept as an association list -/
def groupInsert (m : List (BlockID × List Addr)) (l : Leash) : List (BlockID × List Addr) :=
  match m with
  | [] => [(l.blockID, [l.addr])]
  | (k, v) :: m => if k = l.blockID then (k, v ++ [l.addr]) :: m else (k, v) :: groupInsert m l

/-- the map built in chains/linkage.go:295-298, 347-350, 498-504 -/
def groupLeashes (ls : List Leash) : List (BlockID × List Addr) := ls.foldl groupInsert []

/-- `byScoreAndPeersDesc.Less`, chains/entities.go:63-69 -/
def forkLess (a b : Fork) : Bool :=
  if a.score = b.score then decide (a.peers.length > b.peers.length) else decide (a.score > b.score)

/-- the `Fork` value built in chains/linkage.go:373-384, 511-522 -/
def mkFork (b : Block) (v : List Addr) : Fork :=
  { longest := false, headBlock := b.id, headTimestamp := b.timestamp, headGenerator := b.generator,
    headHeight := b.height, score := b.score, peersCount := v.length, peers := v,
    lastCommonBlock := b.id, length := b.height.toNat }

/-- one round of the final loop of `forks`, chains/linkage.go:531-540 -/
def finishFork (db : DB) (longest : BlockID) (f : Fork) : Go Fork := do
  let lcaID ← lca db longest f.headBlock
  let lb ← getBlockByID db lcaID
  pure { f with lastCommonBlock := lcaID, length := f.length - lb.height.toNat }

/-- the selection of chains/linkage.go:500: an empty (or nil) filter selects everybody -/
def selected (peers : List Addr) (ls : List Leash) : List Leash :=
  ls.filter (fun l => peers.isEmpty || peers.contains l.addr)

/-- `forks`, chains/linkage.go:493-544, and `Forks`, 332-337 -/
def Forks (env : Env) (db : DB) (peers : List Addr) : Go (List Fork) := do
  let ls ← leashes db
  let m := groupLeashes (selected peers ls)
  let r ← mapGo (fun (p : BlockID × List Addr) => do
    let b ← BlockOf db p.1
    pure (mkFork b p.2)) (env.mapOrder m)
  match env.sort forkLess r with
  | [] => goPanic
  | longest :: rest => mapGo (finishFork db longest.headBlock) ({ longest with longest := true } :: rest)

/-- `Stats`, chains/linkage.go:260-277 -/
def StatsOf (env : Env) (db : DB) : Go Stats := do
  let fs ← Forks env db []
  pure { short := (fs.filter (fun f => ¬ (f.length > 5))).length, long := (fs.filter (fun f => f.length > 5)).length }

/-- accumulator of the best-block loops: score, peers, longest -/
structure Best where
  score : Nat
  peers : Nat
  longest : BlockID
deriving DecidableEq

/-- `score := big.NewInt(0); peers := 0; var longest proto.BlockID` -/
def Best.init : Best := { score := 0, peers := 0, longest := zeroID }

/-- the `switch` of chains/linkage.go:307-318 and 360-371 -/
def Best.step (s : Best) (k : BlockID) (sc np : Nat) : Best :=
  if s.score = sc then (if np > s.peers then { score := sc, peers := np, longest := k } else s)
  else if s.score < sc then { score := sc, peers := np, longest := k }
  else s

/-- the loop of `LCB`, chains/linkage.go:302-319 -/
def bestLoop (db : DB) : Best → List (BlockID × List Addr) → Go Best
  | s, [] => .ok s
  | s, (k, v) :: m => do
    let b ← BlockOf db k
    bestLoop db (s.step k b.score v.length) m

/-- `LCB`, chains/linkage.go:280-328 -/
def LCB (env : Env) (l : Linkage) (peer : Addr) : Go BlockID :=
  match getLeash l.db peer with
  | .error (.err .notFound) => .ok l.genesis
  | .error e => .error e
  | .ok head => do
    let ls ← leashes l.db
    let best ← bestLoop l.db Best.init (env.mapOrder (groupLeashes ls))
    if head = best.longest then pure head
    else lca l.db best.longest head

/-- the zero value `Fork{}` (zero time, nil score) -/
def zeroFork : Fork :=
  { longest := false, headBlock := zeroID, headTimestamp := 0, headGenerator := ⟨List.replicate 26 0, rfl⟩,
    headHeight := 0, score := 0, peersCount := 0, peers := [], lastCommonBlock := zeroID, length := 0 }

/-- the loop of `Fork`, chains/linkage.go:355-386 -/
def forkLoop (db : DB) (peer : Addr) : Best → Fork → List (BlockID × List Addr) → Go (Best × Fork)
  | s, f, [] => .ok (s, f)
  | s, f, (k, v) :: m => do
    let b ← BlockOf db k
    forkLoop db peer (s.step k b.score v.length) (if v.contains peer then mkFork b v else f) m

/-- `Fork`, chains/linkage.go:339-404 -/
def ForkOf (env : Env) (db : DB) (peer : Addr) : Go Fork := do
  let ls ← leashes db
  let (best, fork) ← forkLoop db peer Best.init zeroFork (env.mapOrder (groupLeashes ls))
  if fork.headBlock = best.longest then pure { fork with longest := true, length := 0 }
  else do
    let lcaID ← lca db best.longest fork.headBlock
    let lb ← getBlockByID db lcaID
    pure { fork with lastCommonBlock := lcaID, length := fork.length - lb.height.toNat }

/-- `m[b.Generator]++` -/
def countInsert (m : List (WavesAddr × Nat)) (g : WavesAddr) : List (WavesAddr × Nat) :=
  match m with
  | [] => [(g, 1)]
  | (k, v) :: m => if k = g then (k, v + 1) :: m else (k, v) :: countInsert m g

/-- `byBlocksCountDesc.Less`, chains/entities.go:86-88 -/
def genLess (a b : GeneratorStats) : Bool := decide (a.blocks > b.blocks)

/-- `ForkGenerators`, chains/linkage.go:408-428 -/
def ForkGenerators (env : Env) (db : DB) (id : BlockID) (count : Int) : Go (List GeneratorStats) := do
  let bs ← getBlocks db id count
  let m := (bs.map (·.generator)).foldl countInsert []
  pure (env.sort genLess ((env.mapOrder m).map (fun p => { generator := p.1, blocks := p.2 })))

end Verif.Chains
