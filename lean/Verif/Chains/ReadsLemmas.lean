import Verif.Chains.Reads
import Verif.Chains.Queries
/-
Reads that fail: every query that looks up single keys gives the right answer
or the error of the disk.
-/

set_option autoImplicit false

namespace Verif.Chains.Rd

open Verif KV

/-- the first result is the second one, or the error of the disk -/
def Safe {α : Type} (F : Faults) (x y : Go α) : Prop := x = y ∨ ((∃ k, F.bad k = true) ∧ x = fail readFailed)

theorem Safe.refl {α : Type} {F : Faults} (x : Go α) : Safe F x x := Or.inl rfl

theorem Safe.exact {α : Type} {x y : Go α} (h : Safe Faults.none x y) : x = y := by
  rcases h with h | ⟨⟨k, hk⟩, _⟩
  · exact h
  · simp [Faults.none] at hk

theorem Safe.out {α : Type} {F : Faults} {x y : Go α} (h : Safe F x y) : x = y ∨ x = fail readFailed :=
  h.imp id And.right

theorem Safe.bind {α β : Type} {F : Faults} {x y : Go α} {f g : α → Go β} (h : Safe F x y)
    (hf : ∀ a, Safe F (f a) (g a)) : Safe F (x >>= f) (y >>= g) := by
  rcases h with rfl | ⟨hk, rfl⟩
  · cases x with
    | ok a => exact hf a
    | error e => exact Or.inl rfl
  · exact Or.inr ⟨hk, rfl⟩

theorem Safe.ite {α : Type} {F : Faults} {c : Prop} [Decidable c] {x y x' y' : Go α} (h : Safe F x x')
    (h' : Safe F y y') : Safe F (if c then x else y) (if c then x' else y') := by
  split
  · exact h
  · exact h'

theorem Safe.mapGo {α β : Type} {F : Faults} {f g : α → Go β} (h : ∀ a, Safe F (f a) (g a)) (l : List α) :
    Safe F (mapGo f l) (mapGo g l) := by
  induction l with
  | nil => exact .refl _
  | cons a l ih => exact (h a).bind fun b => ih.bind fun bs => .refl _

/-- a read followed by code that does not read -/
theorem safe_get {V α : Type} (F : Faults) (db : KV.DB V) (k : Bytes) (f : Option V → Go α) :
    Safe F (get F db k >>= f) (f (KV.get db k)) := by
  unfold get
  by_cases hk : F.bad k = true
  · rw [if_pos hk]; exact Or.inr ⟨⟨k, hk⟩, rfl⟩
  · rw [if_neg hk]; exact Or.inl rfl

section single

variable (F : Faults) (db : DB)

theorem safe_getCounter (c : UInt8) : Safe F (getCounter F db c) (Chains.getCounter db c) := safe_get F db _ _
theorem safe_getNum (id : BlockID) : Safe F (getNumOfBlockID F db id) (Chains.getNumOfBlockID db id) := safe_get F db _ _
theorem safe_getBlock (n : UInt64) : Safe F (getBlock F db n) (Chains.getBlock db n) := safe_get F db _ _
theorem safe_getLink (n : UInt64) : Safe F (getLink F db n) (Chains.getLink db n) := safe_get F db _ _
theorem safe_getHead (n : UInt64) : Safe F (getHeadByBlockNum F db n) (Chains.getHeadByBlockNum db n) := safe_get F db _ _
theorem safe_getLeash (a : Addr) : Safe F (getLeash F db a) (Chains.getLeash db a) := safe_get F db _ _

theorem safe_getBlockByID (id : BlockID) : Safe F (getBlockByID F db id) (Chains.getBlockByID db id) :=
  (safe_getNum F db id).bind fun n => safe_getBlock F db n

theorem safe_getLinkByID (id : BlockID) : Safe F (getLinkByID F db id) (Chains.getLinkByID db id) :=
  (safe_getNum F db id).bind fun n => safe_getLink F db n

theorem safe_hasBlock (id : BlockID) : Safe F (hasBlock F db id) (Chains.hasBlock db id) := by
  unfold hasBlock Chains.hasBlock
  rcases safe_getNum F db id with h | ⟨hk, h⟩
  · rw [h]; exact .refl _
  · rw [h]; exact Or.inr ⟨hk, rfl⟩

theorem safe_linkParents : ∀ (k l : Nat) (pn : UInt64), Safe F (linkParents F db k l pn) (Chains.linkParents db k l pn)
  | 0, _, _ => .refl _
  | k + 1, l, pn => (safe_getLink F db pn).bind fun _ => (safe_linkParents k (l + 1) _).bind fun _ => .refl _

theorem safe_putNewLink (n : UInt64) (id : BlockID) (h : UInt32) (p : BlockID) :
    Safe F (putNewLinkForBlock F db n id h p) (Chains.putNewLinkForBlock db n id h p) := by
  refine (safe_getNum F db p).bind fun pn => ?_
  cases maxParents h with
  | none => exact .refl _
  | some mp => exact (safe_linkParents F db mp 0 pn).bind fun _ => .refl _

theorem safe_putNewHead (n : UInt64) : Safe F (putNewHead F db n) (Chains.putNewHead db n) :=
  (safe_getCounter F db _).bind fun _ => .refl _

theorem safe_putHead (n p : UInt64) : Safe F (putHead F db n p) (Chains.putHead db n p) := by
  unfold putHead Chains.putHead
  rcases safe_getHead F db p with h | ⟨hk, h⟩
  · rw [h]
    generalize Chains.getHeadByBlockNum db p = x
    rcases x with ((e | _) | n)
    · cases e <;> first | exact safe_putNewHead F db n | exact .refl _
    · exact .refl _
    · exact .refl _
  · rw [h]; exact Or.inr ⟨hk, rfl⟩

theorem safe_protoBlockBatch (b : ProtoBlock) : Safe F (protoBlockBatch F db b) (Chains.protoBlockBatch db b) :=
  (safe_getCounter F db _).bind fun _ => (safe_getNum F db _).bind fun _ => (safe_getBlock F db _).bind fun _ =>
    (Safe.refl _).bind fun _ => (safe_putNewLink F db _ _ _ _).bind fun _ => (safe_putHead F db _ _).bind fun _ => .refl _

theorem safe_microBlockBatch (inv : MicroInv) : Safe F (microBlockBatch F db inv) (Chains.microBlockBatch db inv) :=
  (safe_getCounter F db _).bind fun _ => (safe_getNum F db _).bind fun _ => (safe_getBlock F db _).bind fun _ =>
    (Safe.refl _).bind fun _ => (safe_putNewLink F db _ _ _ _).bind fun _ => (safe_putHead F db _ _).bind fun _ => .refl _

theorem safe_ancestorsLoop : ∀ (k : Nat) (n : UInt64), Safe F (ancestorsLoop F db k n) (Chains.ancestorsLoop db k n)
  | 0, _ => .refl _
  | k + 1, n => by
    refine (safe_getLink F db n).bind fun l => (Safe.refl _).bind fun pid => ?_
    cases l.parents with
    | nil => exact .refl _
    | cons p ps => exact (safe_ancestorsLoop k p).bind fun _ => .refl _

theorem safe_LastIDs (id : BlockID) (count : Int) : Safe F (LastIDs F db id count) (Chains.LastIDs db id count) :=
  (safe_getNum F db id).bind fun n => (Safe.refl _).ite (safe_ancestorsLoop F db _ n)

theorem safe_blocksLoop : ∀ (k : Nat) (n : UInt64), Safe F (blocksLoop F db k n) (Chains.blocksLoop db k n)
  | 0, _ => .refl _
  | k + 1, n => (safe_getBlock F db n).bind fun _ => (Safe.refl _).bind fun _ =>
      (Safe.refl _).ite ((safe_getLink F db n).bind fun _ => (Safe.refl _).bind fun p =>
        (safe_blocksLoop k p).bind fun _ => .refl _)

theorem safe_getBlocks (id : BlockID) (count : Int) : Safe F (getBlocks F db id count) (Chains.getBlocks db id count) :=
  (safe_getNum F db id).bind fun n => (Safe.refl _).ite (safe_blocksLoop F db _ n)

theorem safe_fbLoop (other : LinkRec) : ∀ (fuel k : Nat) (far : LinkRec),
    Safe F (fbLoop F db other fuel k far) (Chains.fbLoop db other fuel k far)
  | 0, _, _ => by simp only [fbLoop, Chains.fbLoop]; exact .refl _
  | _ + 1, 0, _ => by simp only [fbLoop, Chains.fbLoop]; exact .refl _
  | fuel + 1, i + 1, far => by
    simp only [fbLoop, Chains.fbLoop]
    exact Safe.ite ((Safe.refl _).bind fun _ => (safe_getLink F db _).bind fun l =>
      (safe_fbLoop other fuel _ l).ite (safe_fbLoop other fuel i l)) (safe_fbLoop other fuel i far)

theorem safe_lcaLoop : ∀ (k : Nat) (far other : LinkRec), Safe F (lcaLoop F db k far other) (Chains.lcaLoop db k far other)
  | 0, _, _ => .refl _
  | i + 1, far, other => (Safe.refl _).bind fun _ => (Safe.refl _).bind fun _ =>
      ((safe_getLink F db _).bind fun _ => (safe_getLink F db _).bind fun _ => safe_lcaLoop i _ _).ite
        (safe_lcaLoop i far other)

theorem safe_lca (a b : BlockID) : Safe F (lca F db a b) (Chains.lca db a b) := by
  refine (safe_getLinkByID F db a).bind fun l1 => (safe_getLinkByID F db b).bind fun l2 => ?_
  generalize (if l1.height < l2.height then (l2, l1) else (l1, l2)) = q
  refine Safe.bind (safe_fbLoop F db _ _ _ _) fun far => ?_
  refine Safe.ite (.refl _) ?_
  refine Safe.bind (safe_lcaLoop F db _ _ _) fun p => ?_
  exact (Safe.refl _).bind fun _ => (safe_getLink F db _).bind fun _ => .refl _

theorem safe_BlockOf (id : BlockID) : Safe F (BlockOf F db id) (Chains.BlockOf db id) :=
  (safe_getBlockByID F db id).bind fun _ => .refl _

theorem safe_ForkGenerators (env : Env) (id : BlockID) (count : Int) :
    Safe F (ForkGenerators F env db id count) (Chains.ForkGenerators env db id count) :=
  (safe_getBlocks F db id count).bind fun _ => .refl _

theorem safe_HasLeash (a : Addr) : Safe F (HasLeash F db a) (Chains.HasLeash db a) := by
  unfold HasLeash Chains.HasLeash
  rcases safe_getLeash F db a with h | ⟨hk, h⟩
  · rw [h]; exact .refl _
  · rw [h]; exact Or.inr ⟨hk, rfl⟩

theorem safe_LeashOf (l : Linkage) (a : Addr) : Safe F (LeashOf F l a) (Chains.LeashOf l a) := by
  unfold LeashOf Chains.LeashOf
  rcases safe_getLeash F l.db a with h | ⟨hk, h⟩
  · rw [h]; exact .refl _
  · rw [h]; exact Or.inr ⟨hk, rfl⟩

end single

/-! ### leashes that an iterator misses -/

/-- everything but the leashes that the iterator misses -/
def keep (F : Faults) (k : Bytes) : Bool := !(F.missed k && (!(bytesLt k leashesStart) && bytesLt k leashesLimit))

/-- the store without the leashes that the iterator misses -/
def unseen (F : Faults) (db : DB) : DB := db.filter (fun p => keep F p.1)

theorem get_filter {V : Type} (q : Bytes → Bool) (db : KV.DB V) (k : Bytes) (hk : q k = true) :
    KV.get (db.filter (fun p => q p.1)) k = KV.get db k := by
  induction db with
  | nil => rfl
  | cons p db ih =>
    obtain ⟨a, b⟩ := p
    by_cases e : k = a
    · subst e; simp [hk, KV.get]
    · by_cases ha : q a = true
      · simp [ha, KV.get, e, ih]
      · simp [ha, KV.get, e, ih]

theorem keep_other (F : Faults) {k : Bytes} (h : k.head? ≠ some leashPrefix) : keep F k = true := by
  unfold keep
  cases h1 : bytesLt k leashesStart with
  | true => simp
  | false =>
    cases h2 : bytesLt k leashesLimit with
    | false => simp
    | true =>
      obtain ⟨r, rfl⟩ := prefix_in_range h1 h2
      exact absurd rfl h

theorem get_unseen (F : Faults) (db : DB) (k : Bytes) (h : k.head? ≠ some leashPrefix) :
    KV.get (unseen F db) k = KV.get db k := get_filter (keep F) db k (keep_other F h)

theorem getBlock_unseen (F : Faults) (db : DB) : Chains.getBlock (unseen F db) = Chains.getBlock db := by
  funext n
  unfold Chains.getBlock
  rw [get_unseen F db _ (by simp [numKey])]

theorem getLink_unseen (F : Faults) (db : DB) : Chains.getLink (unseen F db) = Chains.getLink db := by
  funext n
  unfold Chains.getLink
  rw [get_unseen F db _ (by simp [numKey])]

theorem getNum_unseen (F : Faults) (db : DB) : Chains.getNumOfBlockID (unseen F db) = Chains.getNumOfBlockID db := by
  funext n
  unfold Chains.getNumOfBlockID
  rw [get_unseen F db _ (by simp [idKey])]

theorem getBlockByID_unseen (F : Faults) (db : DB) : Chains.getBlockByID (unseen F db) = Chains.getBlockByID db := by
  funext n
  unfold Chains.getBlockByID
  rw [getBlock_unseen, getNum_unseen]

theorem fbLoop_unseen (F : Faults) (db : DB) (other : LinkRec) : ∀ (fuel k : Nat) (far : LinkRec),
    Chains.fbLoop (unseen F db) other fuel k far = Chains.fbLoop db other fuel k far
  | 0, _, _ => by simp only [Chains.fbLoop]
  | _ + 1, 0, _ => by simp only [Chains.fbLoop]
  | fuel + 1, i + 1, far => by
    simp only [Chains.fbLoop, getLink_unseen, fbLoop_unseen F db other fuel]

theorem lcaLoop_unseen (F : Faults) (db : DB) : ∀ (k : Nat) (far other : LinkRec),
    Chains.lcaLoop (unseen F db) k far other = Chains.lcaLoop db k far other
  | 0, _, _ => by simp only [Chains.lcaLoop]
  | i + 1, far, other => by simp only [Chains.lcaLoop, getLink_unseen, lcaLoop_unseen F db i]

theorem lca_unseen (F : Faults) (db : DB) : Chains.lca (unseen F db) = Chains.lca db := by
  funext a b
  simp only [Chains.lca, Chains.getLinkByID, Chains.fastBackwardFarthest, getNum_unseen, getLink_unseen, fbLoop_unseen,
    lcaLoop_unseen]

theorem BlockOf_unseen (F : Faults) (db : DB) : Chains.BlockOf (unseen F db) = Chains.BlockOf db := by
  funext a
  simp only [Chains.BlockOf, getBlockByID_unseen]

theorem finishFork_unseen (F : Faults) (db : DB) : Chains.finishFork (unseen F db) = Chains.finishFork db := by
  funext a f
  simp only [Chains.finishFork, getBlockByID_unseen, lca_unseen]

theorem bestLoop_unseen (F : Faults) (db : DB) : ∀ (m : List (BlockID × List Addr)) (s : Best),
    Chains.bestLoop (unseen F db) s m = Chains.bestLoop db s m
  | [], _ => rfl
  | (k, v) :: m, s => by simp only [Chains.bestLoop, BlockOf_unseen, bestLoop_unseen F db m]

theorem forkLoop_unseen (F : Faults) (db : DB) (peer : Addr) : ∀ (m : List (BlockID × List Addr)) (s : Best) (f : Fork),
    Chains.forkLoop (unseen F db) peer s f m = Chains.forkLoop db peer s f m
  | [], _, _ => rfl
  | (k, v) :: m, s, f => by simp only [Chains.forkLoop, BlockOf_unseen, forkLoop_unseen F db peer m]

/-- the leashes that are seen -/
theorem leashes_eq (F : Faults) (db : DB) : leashes F db = Chains.leashes (unseen F db) := by
  unfold leashes Chains.leashes scan KV.scan unseen keep
  rw [List.filter_filter, List.filter_filter]
  congr 2
  funext p
  cases F.missed p.1 <;> cases bytesLt p.1 leashesStart <;> cases bytesLt p.1 leashesLimit <;> rfl

theorem safe_finishFork (F : Faults) (db : DB) (id : BlockID) (f : Fork) :
    Safe F (finishFork F db id f) (Chains.finishFork db id f) :=
  (safe_lca F db _ _).bind fun _ => (safe_getBlockByID F db _).bind fun _ => .refl _

theorem safe_Forks (F : Faults) (env : Env) (db : DB) (ps : List Addr) :
    Safe F (Forks F env db ps) (Chains.Forks env (unseen F db) ps) := by
  unfold Forks Chains.Forks
  rw [leashes_eq, BlockOf_unseen, finishFork_unseen]
  refine (Safe.refl _).bind fun ls => ?_
  refine (Safe.mapGo (fun (p : BlockID × List Addr) => (safe_BlockOf F db p.1).bind fun _ => .refl _) _).bind fun r => ?_
  cases env.sort forkLess r with
  | nil => exact .refl _
  | cons longest rest => exact Safe.mapGo (fun f => safe_finishFork F db _ f) _

theorem safe_StatsOf (F : Faults) (env : Env) (db : DB) : Safe F (StatsOf F env db) (Chains.StatsOf env (unseen F db)) :=
  (safe_Forks F env db []).bind fun _ => .refl _

theorem safe_bestLoop (F : Faults) (db : DB) : ∀ (m : List (BlockID × List Addr)) (s : Best),
    Safe F (bestLoop F db s m) (Chains.bestLoop db s m)
  | [], _ => .refl _
  | (k, _) :: m, _ => (safe_BlockOf F db k).bind fun _ => safe_bestLoop F db m _

theorem safe_forkLoop (F : Faults) (db : DB) (peer : Addr) : ∀ (m : List (BlockID × List Addr)) (s : Best) (f : Fork),
    Safe F (forkLoop F db peer s f m) (Chains.forkLoop db peer s f m)
  | [], _, _ => .refl _
  | (k, _) :: m, _, _ => (safe_BlockOf F db k).bind fun _ => safe_forkLoop F db peer m _ _

theorem safe_ForkOf (F : Faults) (env : Env) (db : DB) (peer : Addr) :
    Safe F (ForkOf F env db peer) (Chains.ForkOf env (unseen F db) peer) := by
  unfold ForkOf Chains.ForkOf
  rw [leashes_eq, lca_unseen, getBlockByID_unseen]
  refine (Safe.refl _).bind fun ls => ?_
  rw [forkLoop_unseen]
  refine (safe_forkLoop F db peer _ _ _).bind fun p => ?_
  exact (Safe.refl _).ite ((safe_lca F db _ _).bind fun _ => (safe_getBlockByID F db _).bind fun _ => .refl _)

/-- a peer whose own leash is seen is compared with the others that are seen -/
theorem safe_LCB (F : Faults) (env : Env) (l : Linkage) (peer : Addr) (hp : F.missed (addrKey peer) = false) :
    Safe F (LCB F env l peer) (Chains.LCB env { l with db := unseen F l.db } peer) := by
  have hg : Chains.getLeash (unseen F l.db) peer = Chains.getLeash l.db peer := by
    unfold Chains.getLeash
    rw [show KV.get (unseen F l.db) (addrKey peer) = KV.get l.db (addrKey peer) from
      get_filter (keep F) l.db _ (by simp [keep, hp])]
  unfold LCB Chains.LCB
  simp only [hg, leashes_eq, lca_unseen]
  rcases safe_getLeash F l.db peer with h | ⟨hk, h⟩
  · rw [h]
    generalize Chains.getLeash l.db peer = x
    rcases x with ((e | _) | head)
    · cases e <;> exact .refl _
    · exact .refl _
    · refine (Safe.refl _).bind fun ls => ?_
      rw [bestLoop_unseen]
      exact (safe_bestLoop F l.db _ _).bind fun _ => (Safe.refl _).ite (safe_lca F l.db _ _)
  · rw [h]; exact Or.inr ⟨hk, rfl⟩

/-- when no leash is missed -/
theorem unseen_eq {F : Faults} {db : DB} (h : ∀ a, F.missed (addrKey a) = false) (hk : ∀ r v, KV.get db (leashPrefix :: r) = some v →
    ∃ a, addrKey a = leashPrefix :: r) (hs : Sorted db) : unseen F db = db := by
  unfold unseen keep
  rw [List.filter_eq_self]
  intro ⟨k, v⟩ hm
  cases h1 : bytesLt k leashesStart with
  | true => simp
  | false =>
    cases h2 : bytesLt k leashesLimit with
    | false => simp
    | true =>
      obtain ⟨r, rfl⟩ := prefix_in_range h1 h2
      obtain ⟨a, ha⟩ := hk r v (get_of_mem hs hm)
      rw [← ha]
      simp [h a]

/-! ### calls that write -/

/-- the call does what it would do on a disk that reads well, or fails and leaves the store alone -/
def SafeW (F : Faults) (db : DB) (x y : DB × Go Unit) : Prop :=
  x = y ∨ ((∃ k, F.bad k = true) ∧ x = (db, fail readFailed))

theorem SafeW.out {F : Faults} {db : DB} {x y : DB × Go Unit} (h : SafeW F db x y) : x = y ∨ x = (db, fail readFailed) :=
  h.imp id And.right

theorem safe_PutBlock (F : Faults) (f1 f2 : Fate) (db : DB) (b : ProtoBlock) (a : Addr) :
    SafeW F db (PutBlock F f1 f2 db b a) (Chains.PutBlock f1 f2 db b a) := by
  unfold PutBlock Chains.PutBlock
  rcases safe_hasBlock F db b.id with h | ⟨hk, h⟩
  · rw [h]
    rcases Chains.hasBlock db b.id with (e | (_ | _))
    · exact Or.inl rfl
    · rcases safe_hasBlock F db b.parent with h' | ⟨hk, h'⟩
      · rw [h']
        rcases Chains.hasBlock db b.parent with (e | (_ | _))
        · exact Or.inl rfl
        · exact Or.inl rfl
        · unfold putProtoBlock Chains.putProtoBlock
          rcases safe_protoBlockBatch F db b with h'' | ⟨hk, h''⟩
          · rw [h'']; exact Or.inl rfl
          · rw [h'']; exact Or.inr ⟨hk, rfl⟩
      · rw [h']; exact Or.inr ⟨hk, rfl⟩
    · exact Or.inl rfl
  · rw [h]; exact Or.inr ⟨hk, rfl⟩

theorem safe_PutMicroBlock (F : Faults) (f1 f2 : Fate) (db : DB) (b : MicroInv) (a : Addr) :
    SafeW F db (PutMicroBlock F f1 f2 db b a) (Chains.PutMicroBlock f1 f2 db b a) := by
  unfold PutMicroBlock Chains.PutMicroBlock
  rcases safe_hasBlock F db b.totalBlockID with h | ⟨hk, h⟩
  · rw [h]
    rcases Chains.hasBlock db b.totalBlockID with (e | (_ | _))
    · exact Or.inl rfl
    · rcases safe_hasBlock F db b.reference with h' | ⟨hk, h'⟩
      · rw [h']
        rcases Chains.hasBlock db b.reference with (e | (_ | _))
        · exact Or.inl rfl
        · exact Or.inl rfl
        · unfold putMicroBlock Chains.putMicroBlock
          rcases safe_microBlockBatch F db b with h'' | ⟨hk, h''⟩
          · rw [h'']; exact Or.inl rfl
          · rw [h'']; exact Or.inr ⟨hk, rfl⟩
      · rw [h']; exact Or.inr ⟨hk, rfl⟩
    · exact Or.inl rfl
  · rw [h]; exact Or.inr ⟨hk, rfl⟩

theorem safe_NewLinkage (F : Faults) (f : Fate) (db : DB) (g : ProtoBlock) :
    NewLinkage F f db g = Chains.NewLinkage f db g ∨
    ((∃ k, F.bad k = true) ∧ NewLinkage F f db g = (db, fail readFailed)) := by
  unfold NewLinkage Chains.NewLinkage initStorage Chains.initStorage
  rcases safe_getCounter F db blocksCounter with h | ⟨hk, h⟩
  · rw [h]; exact Or.inl rfl
  · rw [h]; exact Or.inr ⟨hk, rfl⟩

/-- one call of a history -/
theorem safe_step (F : Faults) (l : Linkage) (o : Spec.Op) :
    step F l o = Spec.step l o ∨ ((∃ k, F.bad k = true) ∧ step F l o = (l, fail readFailed)) := by
  cases o with
  | putBlock b a f1 f2 =>
    rcases safe_PutBlock F f1 f2 l.db b a with h | ⟨hk, h⟩
    · left; simp only [step, Spec.step, h]
    · right; refine ⟨hk, ?_⟩; simp only [step, h]
  | putMicro b a f1 f2 =>
    rcases safe_PutMicroBlock F f1 f2 l.db b a with h | ⟨hk, h⟩
    · left; simp only [step, Spec.step, h]
    · right; refine ⟨hk, ?_⟩; simp only [step, h]
  | moveLeash id a f => exact Or.inl rfl
  | reopen g f =>
    rcases safe_NewLinkage F f l.db g with h | ⟨hk, h⟩
    · simp only [step, Spec.step, h]; exact Or.inl rfl
    · simp only [step, h]; exact Or.inr ⟨hk, rfl⟩

end Verif.Chains.Rd
