import Verif.Chains.Work
import Verif.Chains.History
import Verif.Chains.Queries
import Verif.Chains.Lca
/-
Lemmas about the counted functions of `Work.lean`: the results are those of the functions without a count, and bounds on the count.
-/

set_option autoImplicit false

namespace Verif.Chains.Work

open Verif KV

theorem bind_val {α β : Type} (x : Cnt α) (f : α → Cnt β) : (x >>= f).val = x.val >>= fun a => (f a).val := by
  show (Cnt.bind x f).val = _
  unfold Cnt.bind
  cases h : x.val <;> rfl

theorem pure_val {α : Type} (a : α) : (pure a : Cnt α).val = pure a := rfl

theorem bind_reads {α β : Type} {x : Cnt α} {f : α → Cnt β} {m n : Nat} (hx : x.reads ≤ m)
    (hf : ∀ a, x.val = .ok a → (f a).reads ≤ n) : (x >>= f).reads ≤ m + n := by
  show (Cnt.bind x f).reads ≤ _
  unfold Cnt.bind
  cases h : x.val with
  | error e => simp only; omega
  | ok a => have := hf a h; simp only; omega

theorem pure_reads {α : Type} (a : α) (n : Nat) : (pure a : Cnt α).reads ≤ n := Nat.zero_le _

theorem free_reads {α : Type} (x : Go α) (n : Nat) : (free x).reads ≤ n := Nat.zero_le _

/-! ### the same results -/

theorem getBlockByID_val (db : DB) (id : BlockID) : (getBlockByID db id).val = Chains.getBlockByID db id := by
  simp only [getBlockByID, bind_val]; rfl

theorem getLinkByID_val (db : DB) (id : BlockID) : (getLinkByID db id).val = Chains.getLinkByID db id := by
  simp only [getLinkByID, bind_val]; rfl

theorem linkParents_val (db : DB) (k : Nat) : ∀ l pn, (linkParents db k l pn).val = Chains.linkParents db k l pn := by
  induction k with
  | zero => intros; rfl
  | succ k ih =>
    intro l pn
    simp only [linkParents, Chains.linkParents, bind_val, ih, pure_val]
    rfl

theorem putNewLinkForBlock_val (db : DB) (n : UInt64) (id : BlockID) (h : UInt32) (pid : BlockID) :
    (putNewLinkForBlock db n id h pid).val = Chains.putNewLinkForBlock db n id h pid := by
  simp only [putNewLinkForBlock, Chains.putNewLinkForBlock, bind_val]
  show (Chains.getNumOfBlockID db pid >>= _) = _
  congr 1; funext pn
  cases maxParents h with
  | none => rfl
  | some mp => simp only [bind_val, linkParents_val, pure_val]

theorem putNewHead_val (db : DB) (n : UInt64) : (putNewHead db n).val = Chains.putNewHead db n := by
  simp only [putNewHead, Chains.putNewHead, bind_val, pure_val]; rfl

theorem putHead_val (db : DB) (n pn : UInt64) : (putHead db n pn).val = Chains.putHead db n pn := by
  unfold putHead Chains.putHead
  split
  · next h => simp only [h, putNewHead_val]
  · next e hne h => rw [h]; split <;> simp_all [one]
  · next h => simp only [h]; rfl

theorem protoBlockBatch_val (db : DB) (b : ProtoBlock) : (protoBlockBatch db b).val = Chains.protoBlockBatch db b := by
  simp only [protoBlockBatch, Chains.protoBlockBatch, bind_val, putNewLinkForBlock_val, putHead_val, pure_val]
  rfl

theorem microBlockBatch_val (db : DB) (inv : MicroInv) : (microBlockBatch db inv).val = Chains.microBlockBatch db inv := by
  simp only [microBlockBatch, Chains.microBlockBatch, bind_val, putNewLinkForBlock_val, putHead_val, pure_val]
  rfl

theorem PutBlock_res (f1 f2 : Fate) (db : DB) (b : ProtoBlock) (a : Addr) :
    (PutBlock f1 f2 db b a).res = Chains.PutBlock f1 f2 db b a := by
  unfold PutBlock Chains.PutBlock putProtoBlock
  rw [protoBlockBatch_val]
  rcases hasBlock db b.id with e | _ | _ <;> simp only []
  rcases hasBlock db b.parent with e | _ | _ <;> simp only []
  cases Chains.protoBlockBatch db b with
  | error e => rfl
  | ok batch =>
    simp only []
    rcases write f1 db batch with ⟨db', e | u⟩ <;> rfl

theorem PutMicroBlock_res (f1 f2 : Fate) (db : DB) (inv : MicroInv) (a : Addr) :
    (PutMicroBlock f1 f2 db inv a).res = Chains.PutMicroBlock f1 f2 db inv a := by
  unfold PutMicroBlock Chains.PutMicroBlock putMicroBlock
  rw [microBlockBatch_val]
  rcases hasBlock db inv.totalBlockID with e | _ | _ <;> simp only []
  rcases hasBlock db inv.reference with e | _ | _ <;> simp only []
  cases Chains.microBlockBatch db inv with
  | error e => rfl
  | ok batch =>
    simp only []
    rcases write f1 db batch with ⟨db', e | u⟩ <;> rfl

theorem ancestorsLoop_val (db : DB) (k : Nat) : ∀ n, (ancestorsLoop db k n).val = Chains.ancestorsLoop db k n := by
  induction k with
  | zero => intros; rfl
  | succ k ih =>
    intro n
    simp only [ancestorsLoop, Chains.ancestorsLoop, bind_val]
    show (Chains.getLink db n >>= _) = _
    congr 1; funext l
    show (newBlockIDFromBytes l.blockID >>= _) = _
    congr 1; funext pid
    cases l.parents with
    | nil => rfl
    | cons p ps => simp only [bind_val, ih, pure_val]

theorem LastIDs_val (db : DB) (id : BlockID) (count : Int) : (LastIDs db id count).val = Chains.LastIDs db id count := by
  simp only [LastIDs, Chains.LastIDs, getAncestors, bind_val]
  show (Chains.getNumOfBlockID db id >>= _) = _
  congr 1; funext n
  split
  · rfl
  · exact ancestorsLoop_val db _ n

theorem blocksLoop_val (db : DB) (k : Nat) : ∀ n, (blocksLoop db k n).val = Chains.blocksLoop db k n := by
  induction k with
  | zero => intros; rfl
  | succ k ih =>
    intro n
    simp only [blocksLoop, Chains.blocksLoop, bind_val]
    show (Chains.getBlock db n >>= _) = _
    congr 1; funext b
    show (blockOfRec b >>= _) = _
    congr 1; funext bb
    split
    · rfl
    · simp only [bind_val, ih, pure_val]
      rfl

theorem getBlocks_val (db : DB) (id : BlockID) (count : Int) : (getBlocks db id count).val = Chains.getBlocks db id count := by
  simp only [getBlocks, Chains.getBlocks, bind_val]
  show (Chains.getNumOfBlockID db id >>= _) = _
  congr 1; funext n
  split
  · rfl
  · exact blocksLoop_val db _ n

theorem ForkGenerators_val (env : Env) (db : DB) (id : BlockID) (count : Int) :
    (ForkGenerators env db id count).val = Chains.ForkGenerators env db id count := by
  simp only [ForkGenerators, Chains.ForkGenerators, bind_val, pure_val, getBlocks_val]

theorem fbLoop_val (db : DB) (other : LinkRec) (fuel : Nat) :
    ∀ k far, (fbLoop db other fuel k far).val = Chains.fbLoop db other fuel k far := by
  induction fuel with
  | zero => intros; rfl
  | succ fuel ih =>
    intro k far
    cases k with
    | zero => rfl
    | succ i =>
      simp only [fbLoop, Chains.fbLoop]
      split
      · simp only [bind_val]
        show (goIndex far.parents i >>= _) = _
        congr 1; funext p
        show (Chains.getLink db p >>= _) = _
        congr 1; funext l
        split <;> exact ih _ _
      · exact ih _ _

theorem lcaLoop_val (db : DB) (k : Nat) : ∀ far other, (lcaLoop db k far other).val = Chains.lcaLoop db k far other := by
  induction k with
  | zero => intros; rfl
  | succ i ih =>
    intro far other
    simp only [lcaLoop, Chains.lcaLoop, bind_val]
    show (goIndex far.parents i >>= _) = _
    congr 1; funext p
    show (goIndex other.parents i >>= _) = _
    congr 1; funext q
    split
    · simp only [bind_val, ih]; rfl
    · exact ih _ _

theorem lca_val (db : DB) (id1 id2 : BlockID) : (lca db id1 id2).val = Chains.lca db id1 id2 := by
  simp only [lca, Chains.lca, bind_val, getLinkByID_val]
  congr 1; funext l1
  congr 1; funext l2
  simp only [fastBackwardFarthest, Chains.fastBackwardFarthest, fbLoop_val]
  congr 1; funext far
  generalize (if l1.height < l2.height then (l2, l1) else (l1, l2)).2 = other
  by_cases he : far.blockID = other.blockID
  · simp only [if_pos he]; rfl
  · simp only [if_neg he, bind_val, lcaLoop_val]; rfl

theorem mapC_val {α β : Type} (f : α → Cnt β) (g : α → Go β) (h : ∀ a, (f a).val = g a) (l : List α) :
    (mapC f l).val = mapGo g l := by
  induction l with
  | nil => rfl
  | cons a l ih => simp only [mapC, mapGo, bind_val, h, ih, pure_val]

theorem BlockOf_val (db : DB) (id : BlockID) : (BlockOf db id).val = Chains.BlockOf db id := by
  simp only [BlockOf, Chains.BlockOf, bind_val, getBlockByID_val]; rfl

theorem finishFork_val (db : DB) (i : BlockID) (f : Fork) : (finishFork db i f).val = Chains.finishFork db i f := by
  simp only [finishFork, Chains.finishFork, bind_val, lca_val, getBlockByID_val, pure_val]

theorem Forks_val (env : Env) (db : DB) (peers : List Addr) : (Forks env db peers).val = Chains.Forks env db peers := by
  simp only [Forks, Chains.Forks, bind_val]
  show (Chains.leashes db >>= _) = _
  congr 1; funext ls
  rw [mapC_val _ (fun (p : BlockID × List Addr) => do let b ← Chains.BlockOf db p.1; pure (mkFork b p.2))
    (fun a => by simp only [bind_val, BlockOf_val, pure_val])]
  congr 1; funext r
  cases env.sort forkLess r with
  | nil => rfl
  | cons x xs => exact mapC_val _ _ (finishFork_val db _) _

theorem bestLoop_val (db : DB) (m : List (BlockID × List Addr)) :
    ∀ s, (bestLoop db s m).val = Chains.bestLoop db s m := by
  induction m with
  | nil => intros; rfl
  | cons p m ih =>
    intro s
    obtain ⟨k, v⟩ := p
    simp only [bestLoop, Chains.bestLoop, bind_val, BlockOf_val, ih]

theorem LCB_val (env : Env) (l : Linkage) (peer : Addr) : (LCB env l peer).val = Chains.LCB env l peer := by
  unfold LCB Chains.LCB
  split
  · next h => simp only [h]; rfl
  · next e hne h => rw [h]; split <;> simp_all [one]
  · next h =>
    simp only [h, bind_val, bestLoop_val]
    show (Chains.leashes l.db >>= _) = _
    congr 1; funext ls
    congr 1; funext best
    split
    · rfl
    · exact lca_val _ _ _

theorem forkLoop_val (db : DB) (peer : Addr) (m : List (BlockID × List Addr)) :
    ∀ s f, (forkLoop db peer s f m).val = Chains.forkLoop db peer s f m := by
  induction m with
  | nil => intros; rfl
  | cons p m ih =>
    intro s f
    obtain ⟨k, v⟩ := p
    simp only [forkLoop, Chains.forkLoop, bind_val, BlockOf_val, ih]

theorem ForkOf_val (env : Env) (db : DB) (peer : Addr) : (ForkOf env db peer).val = Chains.ForkOf env db peer := by
  simp only [ForkOf, Chains.ForkOf, bind_val, forkLoop_val]
  show (Chains.leashes db >>= _) = _
  congr 1; funext ls
  congr 1; funext ⟨best, fork⟩
  simp only []
  split
  · rfl
  · simp only [bind_val, lca_val, getBlockByID_val, pure_val]

/-! ### bounds -/

/-- no link has more than `k` parents -/
def Short (k : Nat) (db : DB) : Prop := ∀ n l, Chains.getLink db n = .ok l → l.parents.length ≤ k

theorem getBlockByID_reads (db : DB) (id : BlockID) : (getBlockByID db id).reads ≤ 2 :=
  bind_reads (m := 1) (n := 1) (Nat.le_refl _) (fun _ _ => Nat.le_refl _)

theorem getLinkByID_reads (db : DB) (id : BlockID) : (getLinkByID db id).reads ≤ 2 :=
  bind_reads (m := 1) (n := 1) (Nat.le_refl _) (fun _ _ => Nat.le_refl _)

theorem linkParents_reads (db : DB) (k : Nat) : ∀ l pn, (linkParents db k l pn).reads ≤ k := by
  induction k with
  | zero => intros; exact free_reads _ _
  | succ k ih =>
    intro l pn
    refine Nat.le_trans (bind_reads (m := 1) (n := k) (Nat.le_refl _) (fun pl _ => ?_)) (by omega)
    exact bind_reads (m := k) (n := 0) (ih _ _) (fun _ _ => pure_reads _ _)

theorem putNewLinkForBlock_reads {h : UInt32} {k : Nat} (hk : ∀ mp, maxParents h = some mp → mp ≤ k) (db : DB) (n : UInt64)
    (id pid : BlockID) : (putNewLinkForBlock db n id h pid).reads ≤ 1 + k := by
  refine bind_reads (Nat.le_refl _) (fun pn _ => ?_)
  cases hm : maxParents h with
  | none => exact free_reads _ _
  | some mp =>
    refine bind_reads (m := k) (n := 0) ?_ (fun _ _ => pure_reads _ _)
    exact Nat.le_trans (linkParents_reads db mp 0 pn) (hk mp hm)

theorem putHead_reads (db : DB) (n pn : UInt64) : (putHead db n pn).reads ≤ 2 := by
  have h1 : (putNewHead db n).reads ≤ 1 := bind_reads (m := 1) (n := 0) (Nat.le_refl _) (fun _ _ => pure_reads _ _)
  unfold putHead
  split
  · simp only; omega
  · simp [one]
  · simp [one]

/-- the number of parents of a block at most `2 ^ k` high -/
theorem maxParents_le {h : UInt32} {k mp : Nat} (hm : maxParents h = some mp) (hh : h.toNat ≤ 2 ^ k) : mp ≤ k := by
  have h0 : h ≠ 0 := by
    intro e; subst e; revert hm; simp [maxParents]
  rw [maxParents_eq h0] at hm
  injection hm with hm
  subst hm
  refine Nat.le_of_not_lt (fun hl => ?_)
  have := lt_clog2.mp hl
  omega

theorem newBlock_height {b : ProtoBlock} {h : UInt32} {s : Nat} {r : BlockRec} (e : newBlock b h s = .ok r) : r.height = h := by
  unfold newBlock at e
  cases hg : b.generator with
  | none => rw [hg] at e; cases e
  | some ga =>
    rw [hg] at e
    cases hc : calculateCumulativeScore s b.baseTarget with
    | error x => simp only [hc] at e; cases e
    | ok sc => simp only [hc] at e; cases e; rfl

theorem protoBlockBatch_reads {k : Nat} {db : DB} {b : ProtoBlock} (hb : ∀ n r, Chains.getNumOfBlockID db b.parent = .ok n → Chains.getBlock db n = .ok r → r.height.toNat < 2 ^ k) :
    (protoBlockBatch db b).reads ≤ 6 + k := by
  have : 6 + k = 1 + (1 + (1 + (0 + ((1 + k) + (2 + 0))))) := by omega
  rw [this]
  refine bind_reads (Nat.le_refl _) (fun n _ => ?_)
  refine bind_reads (Nat.le_refl _) (fun pn hpn => ?_)
  refine bind_reads (Nat.le_refl _) (fun par hpar => ?_)
  refine bind_reads (free_reads _ _) (fun rc hrc => ?_)
  refine bind_reads (putNewLinkForBlock_reads (fun mp hm => ?_) db _ _ _) (fun _ _ => ?_)
  · refine maxParents_le hm ?_
    rw [newBlock_height hrc]
    have := hb pn par hpn hpar
    rw [UInt32.toNat_add]
    refine Nat.le_trans (Nat.mod_le _ _) ?_
    simp; omega
  · exact bind_reads (putHead_reads _ _ _) (fun _ _ => pure_reads _ _)

theorem microBlockBatch_reads {k : Nat} {db : DB} {inv : MicroInv}
    (hb : ∀ n r, Chains.getNumOfBlockID db inv.reference = .ok n → Chains.getBlock db n = .ok r → r.height.toNat ≤ 2 ^ k) :
    (microBlockBatch db inv).reads ≤ 6 + k := by
  have : 6 + k = 1 + (1 + (1 + (0 + ((1 + k) + (2 + 0))))) := by omega
  rw [this]
  refine bind_reads (Nat.le_refl _) (fun n _ => ?_)
  refine bind_reads (Nat.le_refl _) (fun pn hpn => ?_)
  refine bind_reads (Nat.le_refl _) (fun par hpar => ?_)
  refine bind_reads (free_reads _ _) (fun rc hrc => ?_)
  refine bind_reads (putNewLinkForBlock_reads (fun mp hm => ?_) db _ _ _) (fun _ _ => ?_)
  · exact maxParents_le hm (hb pn par hpn hpar)
  · exact bind_reads (putHead_reads _ _ _) (fun _ _ => pure_reads _ _)

theorem PutBlock_reads {k : Nat} {db : DB} {b : ProtoBlock} (h : (protoBlockBatch db b).reads ≤ k) (f1 f2 : Fate) (a : Addr) :
    (PutBlock f1 f2 db b a).reads ≤ 2 + k := by
  unfold PutBlock
  repeat' split
  all_goals (simp only; omega)

theorem PutMicroBlock_reads {k : Nat} {db : DB} {inv : MicroInv} (h : (microBlockBatch db inv).reads ≤ k) (f1 f2 : Fate) (a : Addr) :
    (PutMicroBlock f1 f2 db inv a).reads ≤ 2 + k := by
  unfold PutMicroBlock
  repeat' split
  all_goals (simp only; omega)

theorem ancestorsLoop_reads (db : DB) (k : Nat) : ∀ n, (ancestorsLoop db k n).reads ≤ k := by
  induction k with
  | zero => intros; exact free_reads _ _
  | succ k ih =>
    intro n
    refine Nat.le_trans (bind_reads (m := 1) (n := 0 + k) (Nat.le_refl _) (fun l _ => ?_)) (by omega)
    refine bind_reads (free_reads _ _) (fun pid _ => ?_)
    cases l.parents with
    | nil => exact pure_reads _ _
    | cons p ps => exact bind_reads (m := k) (n := 0) (ih p) (fun _ _ => pure_reads _ _)

theorem LastIDs_reads (db : DB) (id : BlockID) (count : Int) : (LastIDs db id count).reads ≤ 1 + count.toNat := by
  refine bind_reads (Nat.le_refl _) (fun n _ => ?_)
  split
  · exact free_reads _ _
  · exact ancestorsLoop_reads db _ n

theorem blocksLoop_reads (db : DB) (k : Nat) : ∀ n, (blocksLoop db k n).reads ≤ 2 * k := by
  induction k with
  | zero => intros; exact free_reads _ _
  | succ k ih =>
    intro n
    have : 2 * (k + 1) = 1 + (0 + (1 + (0 + (2 * k + 0)))) := by omega
    rw [this]
    refine bind_reads (Nat.le_refl _) (fun b _ => ?_)
    refine bind_reads (free_reads _ _) (fun bb _ => ?_)
    split
    · exact pure_reads _ _
    · refine bind_reads (Nat.le_refl _) (fun l _ => ?_)
      refine bind_reads (free_reads _ _) (fun p _ => ?_)
      exact bind_reads (ih p) (fun _ _ => pure_reads _ _)

theorem ForkGenerators_reads (env : Env) (db : DB) (id : BlockID) (count : Int) :
    (ForkGenerators env db id count).reads ≤ 1 + 2 * count.toNat := by
  refine bind_reads (m := 1 + 2 * count.toNat) (n := 0) ?_ (fun _ _ => pure_reads _ _)
  refine bind_reads (Nat.le_refl _) (fun n _ => ?_)
  split
  · exact free_reads _ _
  · exact blocksLoop_reads db _ n

theorem fbLoop_reads (db : DB) (other : LinkRec) (fuel : Nat) : ∀ k far, (fbLoop db other fuel k far).reads ≤ fuel := by
  induction fuel with
  | zero => intros; exact free_reads _ _
  | succ fuel ih =>
    intro k far
    cases k with
    | zero => exact free_reads _ _
    | succ i =>
      simp only [fbLoop]
      split
      · have : fuel + 1 = 0 + (1 + fuel) := by omega
        rw [this]
        refine bind_reads (free_reads _ _) (fun p _ => ?_)
        refine bind_reads (Nat.le_refl _) (fun l _ => ?_)
        split <;> exact ih _ _
      · exact Nat.le_trans (ih _ _) (by omega)

/-- what the way back leaves us with has not more parents -/
theorem fbLoop_short {c : Nat} {db : DB} (hs : Short c db) (other : LinkRec) (fuel : Nat) :
    ∀ k far r, far.parents.length ≤ c → Chains.fbLoop db other fuel k far = .ok r → r.parents.length ≤ c := by
  induction fuel with
  | zero => intro k far r hf h; simp only [Chains.fbLoop] at h; injection h with h; subst h; exact hf
  | succ fuel ih =>
    intro k far r hf h
    cases k with
    | zero => simp only [Chains.fbLoop] at h; injection h with h; subst h; exact hf
    | succ i =>
      simp only [Chains.fbLoop] at h
      split at h
      · cases hp : goIndex far.parents i with
        | error e => rw [hp] at h; cases h
        | ok p =>
          cases hl : Chains.getLink db p with
          | error e => rw [hp] at h; simp only [bind, Except.bind, hl] at h; cases h
          | ok l =>
            rw [hp] at h
            simp only [bind, Except.bind, hl] at h
            split at h <;> exact ih _ _ _ (hs p l hl) h
      · exact ih _ _ _ hf h

theorem lcaLoop_reads (db : DB) (k : Nat) : ∀ far other, (lcaLoop db k far other).reads ≤ 2 * k := by
  induction k with
  | zero => intros; exact free_reads _ _
  | succ i ih =>
    intro far other
    have : 2 * (i + 1) = 0 + (0 + (1 + (1 + 2 * i))) := by omega
    rw [this]
    refine bind_reads (free_reads _ _) (fun p _ => ?_)
    refine bind_reads (free_reads _ _) (fun q _ => ?_)
    split
    · refine bind_reads (Nat.le_refl _) (fun _ _ => ?_)
      exact bind_reads (Nat.le_refl _) (fun _ _ => ih _ _)
    · exact Nat.le_trans (ih _ _) (by omega)

theorem getLinkByID_short {k : Nat} {db : DB} (hs : Short k db) {id : BlockID} {l : LinkRec}
    (h : (getLinkByID db id).val = .ok l) : l.parents.length ≤ k := by
  rw [getLinkByID_val] at h
  unfold Chains.getLinkByID at h
  cases hn : Chains.getNumOfBlockID db id with
  | error e => rw [hn] at h; cases h
  | ok n => rw [hn] at h; exact hs n l h

theorem lca_reads {k : Nat} {db : DB} (hs : Short k db) (id1 id2 : BlockID) : (lca db id1 id2).reads ≤ 5 + 3 * k := by
  have : 5 + 3 * k = 2 + (2 + (k + (2 * k + (0 + (1 + 0))))) := by omega
  rw [this]
  refine bind_reads (getLinkByID_reads _ _) (fun l1 h1 => ?_)
  refine bind_reads (getLinkByID_reads _ _) (fun l2 h2 => ?_)
  have s1 := getLinkByID_short hs h1
  have s2 := getLinkByID_short hs h2
  have hf : (if l1.height < l2.height then (l2, l1) else (l1, l2)).1.parents.length ≤ k := by split <;> assumption
  revert hf
  generalize (if l1.height < l2.height then (l2, l1) else (l1, l2)) = fo
  intro hf
  obtain ⟨far, other⟩ := fo
  refine bind_reads (Nat.le_trans (fbLoop_reads _ _ _ _ _) hf) (fun far' hfar => ?_)
  have s3 : far'.parents.length ≤ k := fbLoop_short hs other _ _ _ _ hf (by rw [← hfar]; exact (fbLoop_val ..).symm)
  split
  · exact free_reads _ _
  · refine bind_reads (Nat.le_trans (lcaLoop_reads _ _ _ _) (by omega)) (fun _ _ => ?_)
    refine bind_reads (free_reads _ _) (fun _ _ => ?_)
    exact bind_reads (Nat.le_refl _) (fun _ _ => free_reads _ _)

theorem mapC_reads {α β : Type} {f : α → Cnt β} {c : Nat} (l : List α) (h : ∀ a, a ∈ l → (f a).reads ≤ c) :
    (mapC f l).reads ≤ l.length * c := by
  induction l with
  | nil => exact free_reads _ _
  | cons a l ih =>
    have : (a :: l).length * c = c + (l.length * c + 0) := by simp [Nat.add_mul]; omega
    rw [this]
    refine bind_reads (h a (by simp)) (fun b _ => ?_)
    exact bind_reads (ih (fun x hx => h x (by simp [hx]))) (fun _ _ => pure_reads _ _)

theorem BlockOf_reads (db : DB) (id : BlockID) : (BlockOf db id).reads ≤ 2 :=
  bind_reads (m := 2) (n := 0) (getBlockByID_reads _ _) (fun _ _ => free_reads _ _)

theorem groupInsert_length (m : List (BlockID × List Addr)) (l : Leash) : (groupInsert m l).length ≤ m.length + 1 := by
  induction m with
  | nil => simp [groupInsert]
  | cons p m ih =>
    obtain ⟨k, v⟩ := p
    simp only [groupInsert]
    split
    · simp
    · simpa using ih

theorem foldl_groupInsert_length (ls : List Leash) :
    ∀ m : List (BlockID × List Addr), (ls.foldl groupInsert m).length ≤ m.length + ls.length := by
  induction ls with
  | nil => intro m; simp
  | cons x ls ih =>
    intro m
    have h1 := ih (groupInsert m x)
    have h2 := groupInsert_length m x
    simp only [List.foldl_cons, List.length_cons]
    omega

theorem groupLeashes_length (ls : List Leash) : (groupLeashes ls).length ≤ ls.length := by
  simpa [groupLeashes] using foldl_groupInsert_length ls []

theorem selected_length (peers : List Addr) (ls : List Leash) : (selected peers ls).length ≤ ls.length :=
  List.length_filter_le _ _

theorem leashes_reads {db : DB} {ls : List Leash} (h : Chains.leashes db = .ok ls) : (leashes db).reads = ls.length :=
  (mapGo_length h).symm

/-- `p` peers have been seen, `q` of which are asked for -/
theorem Forks_reads {k : Nat} {db : DB} (hs : Short k db) {ls : List Leash} (hl : Chains.leashes db = .ok ls) (env : Env)
    (peers : List Addr) :
    (Forks env db peers).reads ≤ ls.length + (selected peers ls).length * (9 + 3 * k) := by
  refine bind_reads (Nat.le_of_eq (leashes_reads hl)) (fun ls' hls' => ?_)
  have : ls' = ls := by have h : Chains.leashes db = .ok ls' := hls'; rw [hl] at h; injection h with h; exact h.symm
  subst this
  have hg : (env.mapOrder (groupLeashes (selected peers ls'))).length ≤ (selected peers ls').length := by
    rw [(env.mapOrder_perm _).length_eq]; exact groupLeashes_length _
  have : (selected peers ls').length * (9 + 3 * k) =
      (selected peers ls').length * 2 + (selected peers ls').length * (7 + 3 * k) := by
    rw [← Nat.mul_add]; congr 1; omega
  rw [this]
  refine bind_reads (Nat.le_trans (mapC_reads _ (fun a _ => ?_)) (Nat.mul_le_mul_right 2 hg)) (fun r hr => ?_)
  · exact bind_reads (m := 2) (n := 0) (BlockOf_reads _ _) (fun _ _ => pure_reads _ _)
  · have hr' := mapGo_length ((mapC_val _ (fun (p : BlockID × List Addr) => do let b ← Chains.BlockOf db p.1; pure (mkFork b p.2))
      (fun a => by simp only [bind_val, BlockOf_val, pure_val]) _).symm.trans hr)
    have hp := (env.sort_perm forkLess r).length_eq
    revert hp
    cases env.sort forkLess r with
    | nil => intro _; exact free_reads _ _
    | cons x xs =>
      intro hp
      refine Nat.le_trans (mapC_reads (c := 7 + 3 * k) _ (fun f _ => ?_)) (Nat.mul_le_mul_right _ ?_)
      · have : 7 + 3 * k = (5 + 3 * k) + (2 + 0) := by omega
        rw [this]
        refine bind_reads (lca_reads hs _ _) (fun _ _ => ?_)
        exact bind_reads (getBlockByID_reads _ _) (fun _ _ => pure_reads _ _)
      · simp only [List.length_cons] at hp ⊢; omega

theorem bestLoop_reads (db : DB) (m : List (BlockID × List Addr)) : ∀ s, (bestLoop db s m).reads ≤ 2 * m.length := by
  induction m with
  | nil => intros; exact free_reads _ _
  | cons p m ih =>
    intro s
    obtain ⟨k, v⟩ := p
    have : 2 * ((k, v) :: m).length = 2 + 2 * m.length := by simp; omega
    rw [this]
    exact bind_reads (BlockOf_reads _ _) (fun _ _ => ih _)

theorem LCB_reads {k : Nat} {l : Linkage} (hs : Short k l.db) {ls : List Leash} (hl : Chains.leashes l.db = .ok ls) (env : Env)
    (peer : Addr) : (LCB env l peer).reads ≤ 6 + 3 * ls.length + 3 * k := by
  unfold LCB
  split
  · simp [one]; omega
  · simp [one]; omega
  · have : 6 + 3 * ls.length + 3 * k = 1 + (ls.length + (2 * ls.length + (5 + 3 * k))) := by omega
    rw [this]
    refine bind_reads (Nat.le_refl _) (fun _ _ => ?_)
    refine bind_reads (Nat.le_of_eq (leashes_reads hl)) (fun ls' hls' => ?_)
    have : ls' = ls := by have h : Chains.leashes l.db = .ok ls' := hls'; rw [hl] at h; injection h with h; exact h.symm
    subst this
    refine bind_reads (Nat.le_trans (bestLoop_reads _ _ _) ?_) (fun best _ => ?_)
    · rw [(env.mapOrder_perm _).length_eq]; have := groupLeashes_length ls'; omega
    · split
      · exact pure_reads _ _
      · exact lca_reads hs _ _

theorem forkLoop_reads (db : DB) (peer : Addr) (m : List (BlockID × List Addr)) :
    ∀ s f, (forkLoop db peer s f m).reads ≤ 2 * m.length := by
  induction m with
  | nil => intros; exact free_reads _ _
  | cons p m ih =>
    intro s f
    obtain ⟨k, v⟩ := p
    have : 2 * ((k, v) :: m).length = 2 + 2 * m.length := by simp; omega
    rw [this]
    exact bind_reads (BlockOf_reads _ _) (fun _ _ => ih _ _)

theorem ForkOf_reads {k : Nat} {db : DB} (hs : Short k db) {ls : List Leash} (hl : Chains.leashes db = .ok ls) (env : Env)
    (peer : Addr) : (ForkOf env db peer).reads ≤ 7 + 3 * ls.length + 3 * k := by
  have : 7 + 3 * ls.length + 3 * k = ls.length + (2 * ls.length + ((5 + 3 * k) + (2 + 0))) := by omega
  rw [this]
  refine bind_reads (Nat.le_of_eq (leashes_reads hl)) (fun ls' hls' => ?_)
  have : ls' = ls := by have h : Chains.leashes db = .ok ls' := hls'; rw [hl] at h; injection h with h; exact h.symm
  subst this
  refine bind_reads (Nat.le_trans (forkLoop_reads _ _ _ _ _) ?_) (fun bf _ => ?_)
  · rw [(env.mapOrder_perm _).length_eq]; have := groupLeashes_length ls'; omega
  · obtain ⟨best, fork⟩ := bf
    simp only []
    split
    · exact pure_reads _ _
    · refine bind_reads (lca_reads hs _ _) (fun _ _ => ?_)
      exact bind_reads (getBlockByID_reads _ _) (fun _ _ => pure_reads _ _)

/-- a store whose blocks are at most `2 ^ k` high -/
theorem short_of_heights {g : ProtoBlock} {l : Linkage} (H : Spec.Reachable g l) {k : Nat}
    (hk : ∀ id h, Spec.HeightOf l.db id h → h ≤ 2 ^ k) : Short k l.db := by
  obtain ⟨ns, hs, R, -⟩ := reachable_rep H
  intro n lk hl
  unfold Chains.getLink at hl
  rw [R.links] at hl
  cases hx : at1 ns n.toNat with
  | none => rw [hx] at hl; cases hl
  | some x =>
    rw [hx] at hl
    simp only [Option.map] at hl
    injection hl with hl
    subst hl
    rw [linkOf_parents_length]
    refine Nat.le_of_not_lt (fun hlt => ?_)
    have h1 := lt_clog2.mp hlt
    have h2 := hk ⟨x.br.id, R.tree.idlen _ _ hx⟩ _ ((R.heightOf (R.tree.numOf_eq hx rfl)).mpr rfl)
    omega

theorem leashes_ok {g : ProtoBlock} {l : Linkage} (H : Spec.Reachable g l) : ∃ ls, Chains.leashes l.db = .ok ls := by
  obtain ⟨ns, hs, R, -⟩ := reachable_rep H
  obtain ⟨ls, h, -⟩ := R.leashes
  exact ⟨ls, h⟩

/-- heights are 32 bit numbers -/
theorem height_le {db : DB} {id : BlockID} {h : Nat} (H : Spec.HeightOf db id h) : h ≤ 2 ^ 32 := by
  obtain ⟨r, -, rfl⟩ := H
  exact Nat.le_of_lt r.height.toNat_lt

/-- a store is not higher than the number of blocks it was given -/
theorem height_inserts {g : ProtoBlock} {l0 : Linkage} {ops : List Spec.Op} (hf : Spec.Fresh g l0) (hb : Spec.inserts ops + 2 < 2 ^ 32)
    {id : BlockID} {h : Nat} (H : Spec.HeightOf (Spec.exec l0 ops).db id h) : h ≤ Spec.inserts ops + 1 := by
  obtain ⟨ga, sc, _, _, _, R⟩ := fresh_rep hf
  obtain ⟨ns, hs, R', _, hl⟩ := R.exec ops (by simp; omega)
  simp only [List.length_cons, List.length_nil] at hl
  cases hn : numOf ns id with
  | none =>
    obtain ⟨r, hr, -⟩ := H
    unfold Chains.getBlockByID at hr
    rw [R'.getNum, hn] at hr
    cases hr
  | some n =>
    have h1 := (R'.heightOf hn).mp H
    obtain ⟨x, hx, _⟩ := numOf_some hn
    have h2 := R'.tree.ht_le n
    have h3 := (at1_le hx).2
    omega

/-! ### the count is honest: as many records decide -/

/-- the answer is decided by as many records as were counted -/
def Honest {α : Type} (c : DB → Cnt α) (db : DB) : Prop :=
  ∃ ks : List Bytes, ks.length ≤ (c db).reads ∧ ∀ db', (∀ k, k ∈ ks → get db' k = get db k) → (c db').val = (c db).val

theorem honest_free {α : Type} (x : Go α) (db : DB) : Honest (fun _ => free x) db := ⟨[], Nat.zero_le _, fun _ _ => rfl⟩

theorem honest_one {α : Type} (f : DB → Go α) (k : Bytes) (db : DB) (h : ∀ db', get db' k = get db k → f db' = f db) :
    Honest (fun d => one (f d)) db :=
  ⟨[k], Nat.le_refl _, fun db' hd => h db' (hd k (by simp))⟩

theorem honest_bind {α β : Type} {x : DB → Cnt α} {f : α → DB → Cnt β} {db : DB} (hx : Honest x db)
    (hf : ∀ a, Honest (f a) db) : Honest (fun d => x d >>= fun a => f a d) db := by
  obtain ⟨ks, hk, h⟩ := hx
  cases hv : (x db).val with
  | error e =>
    refine ⟨ks, ?_, fun db' hd => ?_⟩
    · show ks.length ≤ (Cnt.bind _ _).reads
      simp only [Cnt.bind, hv]; exact hk
    · simp only [bind_val, h db' hd, hv]; rfl
  | ok a =>
    obtain ⟨ks2, hk2, h2⟩ := hf a
    refine ⟨ks ++ ks2, ?_, fun db' hd => ?_⟩
    · show _ ≤ (Cnt.bind _ _).reads
      simp only [Cnt.bind, hv, List.length_append]; omega
    · simp only [bind_val, h db' (fun k m => hd k (by simp [m])), hv]
      exact h2 db' (fun k m => hd k (by simp [m]))

theorem honest_num (db : DB) (id : BlockID) : Honest (fun d => getNumOfBlockID d id) db :=
  honest_one _ (idKey blockPrefix id) db (fun db' h => by simp only [Chains.getNumOfBlockID, h])

theorem honest_counter (db : DB) (c : UInt8) : Honest (fun d => getCounter d c) db :=
  honest_one _ (counterKey c) db (fun db' h => by simp only [Chains.getCounter, h])

theorem honest_block (db : DB) (n : UInt64) : Honest (fun d => getBlock d n) db :=
  honest_one _ (numKey blockPrefix n) db (fun db' h => by simp only [Chains.getBlock, h])

theorem honest_link (db : DB) (n : UInt64) : Honest (fun d => getLink d n) db :=
  honest_one _ (numKey chainPrefix n) db (fun db' h => by simp only [Chains.getLink, h])

theorem honest_linkByID (db : DB) (id : BlockID) : Honest (fun d => getLinkByID d id) db :=
  honest_bind (honest_num db id) (fun n => honest_link db n)

theorem honest_linkParents (db : DB) (k : Nat) : ∀ l pn, Honest (fun d => linkParents d k l pn) db := by
  induction k with
  | zero => intro l pn; exact honest_free _ _
  | succ k ih =>
    intro l pn
    refine honest_bind (honest_link db pn) (fun pl => ?_)
    exact honest_bind (ih _ _) (fun _ => honest_free _ _)

theorem honest_newLink (db : DB) (n : UInt64) (id : BlockID) (h : UInt32) (pid : BlockID) :
    Honest (fun d => putNewLinkForBlock d n id h pid) db := by
  refine honest_bind (honest_num db pid) (fun pn => ?_)
  cases maxParents h with
  | none => exact honest_free _ _
  | some mp => exact honest_bind (honest_linkParents db mp 0 pn) (fun _ => honest_free _ _)

theorem honest_newHead (db : DB) (n : UInt64) : Honest (fun d => putNewHead d n) db :=
  honest_bind (honest_counter db headsCounter) (fun _ => honest_free _ _)

theorem honest_head (db : DB) (n pn : UInt64) : Honest (fun d => putHead d n pn) db := by
  obtain ⟨ks, hk, h⟩ := honest_newHead db n
  have hg : ∀ db', get db' (numKey blockToHeadPrefix pn) = get db (numKey blockToHeadPrefix pn) →
      getHeadByBlockNum db' pn = getHeadByBlockNum db pn := fun db' h => by simp only [getHeadByBlockNum, h]
  by_cases hn : getHeadByBlockNum db pn = .error (.err .notFound)
  · refine ⟨numKey blockToHeadPrefix pn :: ks, ?_, fun db' hd => ?_⟩
    · simp only [putHead, hn, List.length_cons] at hk ⊢; omega
    · have h1 := hg db' (hd _ (by simp))
      simp only [putHead, h1, hn]
      exact h db' (fun k m => hd k (by simp [m]))
  · refine ⟨[numKey blockToHeadPrefix pn], ?_, fun db' hd => ?_⟩
    · show 1 ≤ (putHead db n pn).reads
      unfold putHead
      split
      · next e => exact absurd e hn
      · simp [one]
      · simp [one]
    · have h1 := hg db' (hd _ (by simp))
      show (putHead db' n pn).val = (putHead db n pn).val
      unfold putHead
      rw [h1]
      cases he : getHeadByBlockNum db pn with
      | ok m => rfl
      | error e =>
        cases e with
        | panic => rfl
        | err e => cases e <;> first | rfl | exact absurd he hn

theorem honest_proto (db : DB) (b : ProtoBlock) : Honest (fun d => protoBlockBatch d b) db := by
  refine honest_bind (honest_counter db _) (fun n => ?_)
  refine honest_bind (honest_num db _) (fun pn => ?_)
  refine honest_bind (honest_block db _) (fun par => ?_)
  refine honest_bind (honest_free _ _) (fun rc => ?_)
  refine honest_bind (honest_newLink db _ _ _ _) (fun lnk => ?_)
  exact honest_bind (honest_head db _ _) (fun _ => honest_free _ _)

theorem honest_micro (db : DB) (inv : MicroInv) : Honest (fun d => microBlockBatch d inv) db := by
  refine honest_bind (honest_counter db _) (fun n => ?_)
  refine honest_bind (honest_num db _) (fun pn => ?_)
  refine honest_bind (honest_block db _) (fun par => ?_)
  refine honest_bind (honest_free _ _) (fun rc => ?_)
  refine honest_bind (honest_newLink db _ _ _ _) (fun lnk => ?_)
  exact honest_bind (honest_head db _ _) (fun _ => honest_free _ _)

theorem honest_ancestors (db : DB) (k : Nat) : ∀ n, Honest (fun d => ancestorsLoop d k n) db := by
  induction k with
  | zero => intro n; exact honest_free _ _
  | succ k ih =>
    intro n
    refine honest_bind (honest_link db n) (fun l => ?_)
    refine honest_bind (honest_free _ _) (fun pid => ?_)
    cases l.parents with
    | nil => exact honest_free _ _
    | cons p ps => exact honest_bind (ih p) (fun _ => honest_free _ _)

theorem honest_ids (db : DB) (id : BlockID) (count : Int) : Honest (fun d => LastIDs d id count) db := by
  refine honest_bind (honest_num db id) (fun n => ?_)
  by_cases h : count < 0
  · simp only [if_pos h]; exact honest_free _ _
  · simp only [if_neg h]; exact honest_ancestors db _ n

theorem honest_blocks (db : DB) (k : Nat) : ∀ n, Honest (fun d => blocksLoop d k n) db := by
  induction k with
  | zero => intro n; exact honest_free _ _
  | succ k ih =>
    intro n
    refine honest_bind (honest_block db n) (fun b => ?_)
    refine honest_bind (honest_free _ _) (fun bb => ?_)
    by_cases h : b.parent.length = 0
    · simp only [if_pos h]; exact honest_free _ _
    · simp only [if_neg h]
      refine honest_bind (honest_link db n) (fun l => ?_)
      refine honest_bind (honest_free _ _) (fun p => ?_)
      exact honest_bind (ih p) (fun _ => honest_free _ _)

theorem honest_generators (env : Env) (db : DB) (id : BlockID) (count : Int) :
    Honest (fun d => ForkGenerators env d id count) db := by
  refine honest_bind ?_ (fun _ => honest_free _ _)
  refine honest_bind (honest_num db id) (fun n => ?_)
  by_cases h : count < 0
  · simp only [if_pos h]; exact honest_free _ _
  · simp only [if_neg h]; exact honest_blocks db _ n

theorem honest_fbLoop (db : DB) (other : LinkRec) (fuel : Nat) : ∀ k far, Honest (fun d => fbLoop d other fuel k far) db := by
  induction fuel with
  | zero => intro k far; exact honest_free _ _
  | succ fuel ih =>
    intro k far
    cases k with
    | zero => exact honest_free _ _
    | succ i =>
      simp only [fbLoop]
      by_cases h : far.height - UInt32.ofNat (2 ^ i) ≥ other.height
      · simp only [if_pos h]
        refine honest_bind (honest_free _ _) (fun p => ?_)
        refine honest_bind (honest_link db p) (fun l => ?_)
        by_cases hi : i ≥ l.parents.length
        · simp only [if_pos hi]; exact ih _ _
        · simp only [if_neg hi]; exact ih _ _
      · simp only [if_neg h]; exact ih _ _

theorem honest_lcaLoop (db : DB) (k : Nat) : ∀ far other, Honest (fun d => lcaLoop d k far other) db := by
  induction k with
  | zero => intro far other; exact honest_free _ _
  | succ i ih =>
    intro far other
    refine honest_bind (honest_free _ _) (fun p => ?_)
    refine honest_bind (honest_free _ _) (fun q => ?_)
    by_cases h : p ≠ q
    · simp only [if_pos h]
      refine honest_bind (honest_link db p) (fun _ => ?_)
      exact honest_bind (honest_link db q) (fun _ => ih _ _)
    · simp only [if_neg h]; exact ih _ _

theorem honest_lca (db : DB) (id1 id2 : BlockID) : Honest (fun d => lca d id1 id2) db := by
  refine honest_bind (honest_linkByID db id1) (fun l1 => ?_)
  refine honest_bind (honest_linkByID db id2) (fun l2 => ?_)
  generalize (if l1.height < l2.height then (l2, l1) else (l1, l2)) = fo
  obtain ⟨far, other⟩ := fo
  refine honest_bind (honest_fbLoop db other _ _ far) (fun far' => ?_)
  by_cases h : far'.blockID = other.blockID
  · simp only [if_pos h]; exact honest_free _ _
  · simp only [if_neg h]
    refine honest_bind (honest_lcaLoop db _ _ _) (fun _ => ?_)
    refine honest_bind (honest_free _ _) (fun p => ?_)
    exact honest_bind (honest_link db p) (fun _ => honest_free _ _)

end Verif.Chains.Work
