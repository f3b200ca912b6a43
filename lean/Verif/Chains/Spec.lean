import Verif.Chains.Linkage
/-
Specification vocabulary for the chains package.  Nothing here depends on how
the store is organised: it only talks about API calls and their results.
-/
set_option autoImplicit false

namespace Verif.Chains.Spec

open Verif KV Chains

/-! ### histories -/

/-- One call on a `Linkage`, with the fates of the writes it may do.  A call whose write has a
fate other than `ok` also stands for the process stopping at that point; `reopen` starts a new
process on the same database. -/
inductive Op where
  | putBlock (b : ProtoBlock) (a : Addr) (f1 f2 : Fate)
  | putMicro (inv : MicroInv) (a : Addr) (f1 f2 : Fate)
  | moveLeash (id : BlockID) (a : Addr) (f : Fate)
  | reopen (g : ProtoBlock) (f : Fate)

/-- effect and result of one call -/
def step (l : Linkage) : Op → Linkage × Go Unit
  | .putBlock b a f1 f2 => ({ l with db := (PutBlock f1 f2 l.db b a).1 }, (PutBlock f1 f2 l.db b a).2)
  | .putMicro inv a f1 f2 =>
    ({ l with db := (PutMicroBlock f1 f2 l.db inv a).1 }, (PutMicroBlock f1 f2 l.db inv a).2)
  | .moveLeash id a f => ({ l with db := (MoveLeash f l.db id a).1 }, (MoveLeash f l.db id a).2)
  | .reopen g f =>
    match NewLinkage f l.db g with
    | (_, .ok l') => (l', .ok ())
    | (db', .error e) => ({ l with db := db' }, .error e)

/-- effect of a sequence of calls -/
def exec (l : Linkage) (ops : List Op) : Linkage := ops.foldl (fun l o => (step l o).1) l

/-- number of calls that may insert a block -/
def inserts (ops : List Op) : Nat :=
  (ops.filter (fun o => match o with | .putBlock .. => true | .putMicro .. => true | _ => false)).length

/-- a store just created for the given genesis block -/
def Fresh (g : ProtoBlock) (l : Linkage) : Prop := NewLinkage .ok [] g = (l.db, .ok l)

/-- A store that some history leads to.  The bound keeps block heights within `uint32`. -/
def Reachable (g : ProtoBlock) (l : Linkage) : Prop :=
  ∃ l0 ops, Fresh g l0 ∧ inserts ops + 2 < 2 ^ 32 ∧ l = exec l0 ops

/-! ### the block tree as seen through queries -/

/-- `id` is stored -/
def Stored (db : DB) (id : BlockID) : Prop := HasBlock db id = .ok true

/-- `p` is the parent of the stored block `c` -/
def IsParent (db : DB) (p c : BlockID) : Prop := ∃ r, getBlockByID db c = .ok r ∧ r.parent = p.1

/-- `a` is `b` or an ancestor of `b` -/
inductive Anc (db : DB) : BlockID → BlockID → Prop where
  | refl (a : BlockID) : Anc db a a
  | step {a p b : BlockID} : Anc db a p → IsParent db p b → Anc db a b

/-- `c` is the lowest common ancestor of `a` and `b` -/
def IsLCA (db : DB) (a b c : BlockID) : Prop :=
  Anc db c a ∧ Anc db c b ∧ ∀ d, Anc db d a → Anc db d b → Anc db d c

/-- height of a stored block -/
def HeightOf (db : DB) (id : BlockID) (h : Nat) : Prop := ∃ r, getBlockByID db id = .ok r ∧ r.height.toNat = h

/-- score of a stored block -/
def ScoreOf (db : DB) (id : BlockID) (s : Nat) : Prop := ∃ r, getBlockByID db id = .ok r ∧ r.score = s

/-- `ids` is a chain walked from child to parent -/
def IsWalk (db : DB) : List BlockID → Prop
  | [] => True
  | [a] => Stored db a
  | a :: b :: rest => IsParent db b a ∧ IsWalk db (b :: rest)

/-- the two stores answer every query about blocks, chains and heads identically -/
structure SameTree (db db' : DB) : Prop where
  has : ∀ id, HasBlock db' id = HasBlock db id
  record : ∀ id, getBlockByID db' id = getBlockByID db id
  block : ∀ id, BlockOf db' id = BlockOf db id
  last : ∀ id c, LastIDs db' id c = LastIDs db id c
  blocks : ∀ id c, getBlocks db' id c = getBlocks db id c
  common : ∀ a b, lca db' a b = lca db a b
  heads : Heads db' = Heads db

/-- score contribution of one block: floor(2^64 / base target), nothing for base target 0 -/
def blockScore (bt : Nat) : Nat := if bt = 0 then 0 else 2 ^ 64 / bt

/-! ### leashes along a history -/

/-- the peer a call is made for and the block it moves the peer to -/
def target : Op → Option (Addr × BlockID)
  | .putBlock b a _ _ => some (a, b.id)
  | .putMicro inv a _ _ => some (a, inv.totalBlockID)
  | .moveLeash id a _ => some (a, id)
  | .reopen _ _ => none

/-- some write of the call may be applied although the caller sees an error -/
def lossy : Op → Bool
  | .putBlock _ _ f1 f2 => f1 == .lostAck || f2 == .lostAck
  | .putMicro _ _ f1 f2 => f1 == .lostAck || f2 == .lostAck
  | .moveLeash _ _ f => f == .lostAck
  | .reopen _ f => f == .lostAck

/-- block of the most recent successful call made for `a` -/
def lastMoved (l : Linkage) : List Op → Addr → Option BlockID
  | [], _ => none
  | o :: ops, a =>
    match lastMoved (step l o).1 ops a with
    | some id => some id
    | none =>
      match target o with
      | some (a0, id) => if a0.plain = a.plain ∧ (step l o).2 = .ok () then some id else none
      | none => none

/-- What the leash of `a` may be after a history with lost acknowledgements, starting from one of
the values in `S`: a successful call determines it, an unsuccessful call with a lost acknowledgement
adds a possibility, any other call adds nothing. -/
def possible (l : Linkage) : List Op → Addr → List (Option BlockID) → List (Option BlockID)
  | [], _, S => S
  | o :: ops, a, S =>
    possible (step l o).1 ops a
      (match target o with
       | some (a0, id) =>
         if a0.plain = a.plain then
           if (step l o).2 = .ok () then [some id] else if lossy o then some id :: S else S
         else S
       | none => S)

/-- id of the genesis block the process serving after the history was started with -/
def openedWith (g : BlockID) : List Op → BlockID
  | [] => g
  | .reopen g' _ :: ops => openedWith g'.id ops
  | _ :: ops => openedWith g ops

/-- every `MoveLeash` of the history names a block stored at that time -/
def Disciplined (l : Linkage) : List Op → Prop
  | [] => True
  | o :: ops => (match o with | .moveLeash id _ _ => Stored l.db id | _ => True) ∧ Disciplined (step l o).1 ops

/-! ### who was built on whom -/

/-- the pair `(i, j)` if `i` is stored after but not before -/
def edgeOf (db db' : DB) (i j : BlockID) : Option (BlockID × BlockID) :=
  if HasBlock db i = .ok false ∧ HasBlock db' i = .ok true then some (i, j) else none

/-- If the call stored a new block: that block, and the block it extends (a block extends its
parent, a micro-block extends its reference). -/
def newEdge (l : Linkage) (o : Op) : Option (BlockID × BlockID) :=
  match o with
  | .putBlock b _ _ _ => edgeOf l.db (step l o).1.db b.id b.parent
  | .putMicro inv _ _ _ => edgeOf l.db (step l o).1.db inv.totalBlockID inv.reference
  | _ => none

/-- all pairs (new block, block it extends) of a history -/
def edges (l : Linkage) : List Op → List (BlockID × BlockID)
  | [] => []
  | o :: ops => (newEdge l o).toList ++ edges (step l o).1 ops

/-! ### forks -/

/-- the listed peers a fork report with the given filter is about -/
def Selected (filter : List Addr) (ls : List Leash) (p : Addr) (id : BlockID) : Prop :=
  { addr := p, blockID := id } ∈ ls ∧ (filter = [] ∨ p ∈ filter)

/-- the listed peers leashed to `id` -/
def peersOn (ls : List Leash) (id : BlockID) : List Addr := (ls.filter (fun l => l.blockID = id)).map (·.addr)

/-- `b` is a best leashed block: maximal score, ties broken by the number of peers -/
def IsBest (db : DB) (ls : List Leash) (b : BlockID) : Prop :=
  b ∈ ls.map (·.blockID) ∧ ∃ sb, ScoreOf db b sb ∧ ∀ c, c ∈ ls.map (·.blockID) → ∃ sc, ScoreOf db c sc ∧
    (sc < sb ∨ (sc = sb ∧ (peersOn ls c).length ≤ (peersOn ls b).length))

/-- the block is stored and its timestamp can be reported -/
def Readable (db : DB) (id : BlockID) : Prop := ∃ r, getBlockByID db id = .ok r ∧ r.timestamp.toNat < 2 ^ 63 - 1

/-- The lower of the two blocks is at most 2 * (height of the last common block) + 2 above the last common
block; a sufficient condition for comparing the two (C13). -/
def Close (db : DB) (a b : BlockID) : Prop :=
  ∀ c ha hb hc, IsLCA db a b c → HeightOf db a ha → HeightOf db b hb → HeightOf db c hc → min ha hb ≤ 3 * hc + 2

/-! ### arrival order -/

/-- what is delivered under a block id: a block, or a micro-block with its reference -/
inductive Content where
  | blk (b : ProtoBlock)
  | micro (ref : BlockID)
deriving DecidableEq

/-- the delivery made by a call -/
def content : Op → Option (BlockID × Content)
  | .putBlock b _ _ _ => some (b.id, .blk b)
  | .putMicro inv _ _ _ => some (inv.totalBlockID, .micro inv.reference)
  | _ => none

/-- deliveries under the same id are the same (ids are hashes of the content) -/
def Agree (ops : List Op) : Prop :=
  ∀ o o' i c c', o ∈ ops → o' ∈ ops → content o = some (i, c) → content o' = some (i, c') → c = c'

/-- the history delivering the listed blocks, all writes succeeding -/
def deliver (bs : List (ProtoBlock × Addr)) : List Op := bs.map (fun p => .putBlock p.1 p.2 .ok .ok)

/-- every block is preceded by its parent -/
def ParentFirst (known : List BlockID) : List (ProtoBlock × Addr) → Prop
  | [] => True
  | (b, _) :: bs => b.parent ∈ known ∧ ParentFirst (b.id :: known) bs

/-- the two stores answer all queries about blocks and chains identically and have the same set of head blocks -/
structure SameChains (db db' : DB) : Prop where
  has : ∀ id, HasBlock db' id = HasBlock db id
  record : ∀ id, getBlockByID db' id = getBlockByID db id
  block : ∀ id, BlockOf db' id = BlockOf db id
  last : ∀ id c, LastIDs db' id c = LastIDs db id c
  blocks : ∀ id c, getBlocks db' id c = getBlocks db id c
  common : ∀ a b, lca db' a b = lca db a b
  heads : ∀ hd hd', Heads db = .ok hd → Heads db' = .ok hd' → ∀ id, id ∈ hd'.map (·.blockID) ↔ id ∈ hd.map (·.blockID)

end Verif.Chains.Spec
