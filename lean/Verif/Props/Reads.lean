import Verif.Chains.ReadsReach
import Verif.Chains.Examples
/-
C98, C99 and C100: the store of blocks on a disk that fails to read.
-/

set_option autoImplicit false

namespace Verif.Props

open Verif KV Chains Chains.Spec
open Verif.Chains.Rd (Faults readFailed)

/-! ### C98: a query about single blocks and peers is right, or an error -/

/-- Whatever cannot be read, each of these queries gives the answer that a good disk would give, or
the error of the disk. -/
theorem C98_queries (F : Faults) (l : Linkage) :
    (∀ a, Rd.HasLeash F l.db a = HasLeash l.db a ∨ Rd.HasLeash F l.db a = fail readFailed) ∧
    (∀ a, Rd.LeashOf F l a = LeashOf l a ∨ Rd.LeashOf F l a = fail readFailed) ∧
    (∀ id, Rd.HasBlock F l.db id = HasBlock l.db id ∨ Rd.HasBlock F l.db id = fail readFailed) ∧
    (∀ id, Rd.BlockOf F l.db id = BlockOf l.db id ∨ Rd.BlockOf F l.db id = fail readFailed) ∧
    (∀ id n, Rd.LastIDs F l.db id n = LastIDs l.db id n ∨ Rd.LastIDs F l.db id n = fail readFailed) ∧
    (∀ a b, Rd.lca F l.db a b = lca l.db a b ∨ Rd.lca F l.db a b = fail readFailed) ∧
    (∀ env id n, Rd.ForkGenerators F env l.db id n = ForkGenerators env l.db id n ∨
      Rd.ForkGenerators F env l.db id n = fail readFailed) :=
  ⟨fun a => (Rd.safe_HasLeash F l.db a).out, fun a => (Rd.safe_LeashOf F l a).out,
    fun id => (Rd.safe_hasBlock F l.db id).out, fun id => (Rd.safe_BlockOf F l.db id).out,
    fun id n => (Rd.safe_LastIDs F l.db id n).out, fun a b => (Rd.safe_lca F l.db a b).out,
    fun env id n => (Rd.safe_ForkGenerators F l.db env id n).out⟩

/-- The score of the block a peer is at: right, or an error, as long as there is no block whose id
consists of zeros.  Missing for the full claim: stores with such a block, see `C98_score_wrong`. -/
theorem C98_score_partial (F : Faults) (l : Linkage) (a : Addr) (hz : HasBlock l.db zeroID = .ok false) :
    Rd.LeashScore F l a = LeashScore l a ∨ ∃ e, Rd.LeashScore F l a = fail e := by
  have hn : getNumOfBlockID l.db zeroID = fail .notFound := by
    unfold HasBlock hasBlock at hz
    split at hz
    · cases hz
    · rename_i h; exact h
    · cases hz
  have hb : getBlockByID l.db zeroID = fail .notFound := by simp [getBlockByID, hn, fail]
  unfold Rd.LeashScore LeashScore
  rcases Rd.safe_getLeash F l.db a with h | ⟨_, h⟩
  · rw [h]
    have key : ∀ id, (Rd.getBlockByID F l.db id >>= fun b => pure b.score) =
          (getBlockByID l.db id >>= fun b => pure b.score) ∨
        ∃ e, (Rd.getBlockByID F l.db id >>= fun b => pure b.score) = (fail e : Go _) := by
      intro id
      rcases (Rd.safe_getBlockByID F l.db id).out with h' | h'
      · left; rw [h']
      · right; exact ⟨readFailed, by rw [h']; rfl⟩
    exact key _
  · rw [h]
    right
    simp only [fail, readFailed]
    rcases (Rd.safe_getBlockByID F l.db zeroID).out with h' | h'
    · exact ⟨.notFound, by rw [h', hb]; rfl⟩
    · exact ⟨readFailed, by rw [h']; rfl⟩

/-- a block whose id consists of zeros -/
def zeroBlock : ProtoBlock := { Ex.blk 1 0 with id := zeroID }
/-- a store with that block, and a peer that is on another block of another height -/
def zeroStore : Linkage := exec Ex.l0 [.putBlock zeroBlock (Ex.ip 9) .ok .ok, Ex.pb 1 0 1, Ex.pb 2 1 1]
/-- the leash of one peer cannot be read -/
def badLeash : Faults := { bad := fun k => decide (k = addrKey (Ex.ip 1)), missed := fun _ => false }

/-- A peer sends a block whose id consists of zeros (ids are not checked); then the leash of another
peer cannot be read: that peer is given the score of the block with the zero id, and no error. -/
theorem C98_score_wrong : Reachable Ex.g0 zeroStore ∧ Rd.HasLeash badLeash zeroStore.db (Ex.ip 1) = fail readFailed ∧
    ∃ s s', LeashScore zeroStore (Ex.ip 1) = .ok s ∧ Rd.LeashScore badLeash zeroStore (Ex.ip 1) = .ok s' ∧ s' < s := by
  refine ⟨⟨Ex.l0, _, Ex.fresh, by decide +kernel, rfl⟩, by decide +kernel,
    553402322211286548, 368934881474191032, by decide +kernel, by decide +kernel, by decide⟩

/-- a disk that fails: some queries fail, others do not, and none lies -/
example : Rd.HasLeash badLeash Ex.l1.db (Ex.ip 1) = fail readFailed ∧ HasLeash Ex.l1.db (Ex.ip 1) = .ok true ∧
    Rd.HasLeash badLeash Ex.l1.db (Ex.ip 2) = .ok true ∧ Rd.HasLeash badLeash Ex.l1.db (Ex.ip 7) = .ok false ∧
    HasBlock Ex.l1.db zeroID = .ok false := by decide +kernel

/-! ### C99: reports about all peers -/

/-- The list of leashes has everybody whose entry was not missed, in the same order, and nobody
else.  No error says that somebody is missing. -/
theorem C99_leashes {g : ProtoBlock} {l : Linkage} (h : Reachable g l) (F : Faults) :
    ∃ ls, Leashes l.db = .ok ls ∧ Rd.Leashes F l.db = .ok (ls.filter (fun x => !F.missed (addrKey x.addr))) := by
  obtain ⟨ns, hs, R, _⟩ := reachable_rep h
  obtain ⟨ls, hls, _⟩ := R.leashes
  exact ⟨ls, hls, Rd.leashes_filter F R hls⟩

/-- The same for the heads, apart from the blocks themselves, which are read one by one. -/
theorem C99_heads {g : ProtoBlock} {l : Linkage} (h : Reachable g l) (F : Faults) :
    ∃ hd, Heads l.db = .ok hd ∧
      (Rd.Heads F l.db = .ok (hd.filter (fun x => !F.missed (numKey headToBlockPrefix x.num))) ∨
        Rd.Heads F l.db = fail readFailed) := by
  obtain ⟨ns, hs, R, _⟩ := reachable_rep h
  obtain ⟨hd, hhd, _⟩ := R.heads
  exact ⟨hd, hhd, (Rd.heads_filter F R hhd).out⟩

/-- Every report about forks is an error, or the report of another store that could have come
about, with the same blocks, in which the peers whose entries were missed are nowhere.  Missing for
the full claim: that it is the report of this store; see `C99_wrong`. -/
theorem C99_reports_partial {g : ProtoBlock} {l : Linkage} (h : Reachable g l) (F : Faults) :
    ∃ l', Reachable g l' ∧ l'.genesis = l.genesis ∧ (∀ id, HasBlock l'.db id = HasBlock l.db id) ∧
      (∀ id, BlockOf l'.db id = BlockOf l.db id) ∧
      (∀ a, Listed a → HasLeash l'.db a = if F.missed (addrKey a) then .ok false else HasLeash l.db a) ∧
      (∀ a, F.missed (addrKey a) = false → LeashOf l' a = LeashOf l a) ∧
      (∀ env ps, Rd.Forks F env l.db ps = Forks env l'.db ps ∨ Rd.Forks F env l.db ps = fail readFailed) ∧
      (∀ env, Rd.StatsOf F env l.db = StatsOf env l'.db ∨ Rd.StatsOf F env l.db = fail readFailed) ∧
      (∀ env a, Rd.ForkOf F env l.db a = ForkOf env l'.db a ∨ Rd.ForkOf F env l.db a = fail readFailed) ∧
      (∀ env a, F.missed (addrKey a) = false → Rd.LCB F env l a = LCB env l' a ∨ Rd.LCB F env l a = fail readFailed) := by
  refine ⟨_, Rd.unseen_reachable F h, rfl, ?_, ?_, ?_, ?_, ?_, ?_, ?_, ?_⟩
  · intro id; simp only [HasBlock, hasBlock, Rd.getNum_unseen]
  · intro id; simp only [Rd.BlockOf_unseen]
  · intro a ha
    have hr := (addrKey_in_range a).mpr ha
    simp only [HasLeash, Rd.getLeash_unseen, Rd.keep, hr.1, hr.2]
    cases F.missed (addrKey a) with
    | true => rfl
    | false => rfl
  · intro a ha
    simp only [LeashOf, Rd.getLeash_unseen, Rd.keep, ha]
    rfl
  · intro env ps; exact (Rd.safe_Forks F env l.db ps).out
  · intro env; exact (Rd.safe_StatsOf F env l.db).out
  · intro env a; exact (Rd.safe_ForkOf F env l.db a).out
  · intro env a ha; exact (Rd.safe_LCB F env l a ha).out

/-- When no leash is missed, every report is right or an error. -/
theorem C99_none_missed {g : ProtoBlock} {l : Linkage} (h : Reachable g l) (F : Faults)
    (hm : ∀ a, F.missed (addrKey a) = false) :
    (∀ env ps, Rd.Forks F env l.db ps = Forks env l.db ps ∨ Rd.Forks F env l.db ps = fail readFailed) ∧
    (∀ env, Rd.StatsOf F env l.db = StatsOf env l.db ∨ Rd.StatsOf F env l.db = fail readFailed) ∧
    (∀ env a, Rd.ForkOf F env l.db a = ForkOf env l.db a ∨ Rd.ForkOf F env l.db a = fail readFailed) ∧
    (∀ env a, Rd.LCB F env l a = LCB env l a ∨ Rd.LCB F env l a = fail readFailed) := by
  obtain ⟨ns, hs, R, _⟩ := reachable_rep h
  have hu : Rd.unseen F l.db = l.db := Rd.unseen_eq hm (fun r v hg => by
    obtain ⟨a, rfl⟩ := R.k3 r v hg; exact ⟨a, rfl⟩) R.sorted
  refine ⟨?_, ?_, ?_, ?_⟩
  · intro env ps; have := (Rd.safe_Forks F env l.db ps).out; rwa [hu] at this
  · intro env; have := (Rd.safe_StatsOf F env l.db).out; rwa [hu] at this
  · intro env a; have := (Rd.safe_ForkOf F env l.db a).out; rwa [hu] at this
  · intro env a; have := (Rd.safe_LCB F env l a (hm a)).out; rwa [hu] at this

/-- the iterator stops before the leash of the second peer -/
def stopped : Faults := { bad := fun _ => false, missed := fun k => !bytesLt k (addrKey (Ex.ip 2)) }
/-- peer 1 has two blocks, peer 2 has three others -/
def twoForks : Linkage := exec Ex.l0 [Ex.pb 1 0 1, Ex.pb 2 1 1, Ex.pb 3 0 2, Ex.pb 4 3 2, Ex.pb 5 4 2]

/-- The iteration over the leashes fails at the second peer.  Then the report has one fork, that of
the first peer, and calls it the longest, and there is no error; the chain of the second peer, which
is longer, is not in the report. -/
theorem C99_wrong : Reachable Ex.g0 twoForks ∧
    (Forks Ex.env twoForks.db []).map (·.map (fun f => (f.headBlock, f.longest, f.length))) =
      .ok [(Ex.bid 5, true, 0), (Ex.bid 2, false, 2)] ∧
    (Rd.Forks stopped Ex.env twoForks.db []).map (·.map (fun f => (f.headBlock, f.longest, f.length))) =
      .ok [(Ex.bid 2, true, 0)] ∧
    LCB Ex.env twoForks (Ex.ip 1) = .ok (Ex.bid 0) ∧ Rd.LCB stopped Ex.env twoForks (Ex.ip 1) = .ok (Ex.bid 2) :=
  ⟨⟨Ex.l0, _, Ex.fresh, by decide +kernel, rfl⟩, by decide +kernel, by decide +kernel, by decide +kernel, by decide +kernel⟩

/-- the conditions of `C99_none_missed` can be met by a disk that fails -/
example : Reachable Ex.g0 twoForks ∧ (∀ a, badLeash.missed (addrKey a) = false) ∧
    Rd.LCB badLeash Ex.env twoForks (Ex.ip 1) = fail readFailed ∧
    Rd.LCB badLeash Ex.env twoForks (Ex.ip 2) = .ok (Ex.bid 5) :=
  ⟨⟨Ex.l0, _, Ex.fresh, by decide +kernel, rfl⟩, fun _ => rfl, by decide +kernel, by decide +kernel⟩

/-! ### C100: a disk that fails to read does not spoil the store -/

/-- A call that writes does what it would do on a good disk, or it returns the error of the disk and
changes nothing. -/
theorem C100_call (F : Faults) (l : Linkage) (o : Op) :
    Rd.step F l o = step l o ∨ Rd.step F l o = (l, fail readFailed) := (Rd.safe_step F l o).imp id And.right

/-- After any history on a disk that fails now and then, the store is the one that some of these
calls, in the same order, lead to on a good disk. -/
theorem C100_history (l : Linkage) (ops : List (Faults × Op)) :
    ∃ done : List Op, done.Sublist (ops.map (·.2)) ∧ Rd.exec l ops = exec l done := by
  induction ops generalizing l with
  | nil => exact ⟨[], List.Sublist.refl _, rfl⟩
  | cons o ops ih =>
    obtain ⟨done, hd, e⟩ := ih (Rd.step o.1 l o.2).1
    rcases Rd.safe_step o.1 l o.2 with h | ⟨_, h⟩
    · refine ⟨o.2 :: done, hd.cons_cons _, ?_⟩
      simp only [Rd.exec, exec, List.foldl_cons] at e ⊢
      rw [e, h]
    · refine ⟨done, hd.cons _, ?_⟩
      simp only [Rd.exec, exec, List.foldl_cons] at e ⊢
      rw [e, h]

/-- So it is a store of the kind that all other properties are about. -/
theorem C100_reachable {g : ProtoBlock} {l0 : Linkage} (hf : Fresh g l0) (ops : List (Faults × Op))
    (hb : inserts (ops.map (·.2)) + 2 < 2 ^ 32) : Reachable g (Rd.exec l0 ops) := by
  obtain ⟨done, hd, e⟩ := C100_history l0 ops
  refine ⟨l0, done, hf, ?_, e⟩
  have : inserts done ≤ inserts (ops.map (·.2)) := (hd.filter _).length_le
  omega

/-- A store that cannot be read when the program starts is not taken for an empty one. -/
theorem C100_start (F : Faults) (f : Fate) (db : DB) (g : ProtoBlock) (hb : F.bad (counterKey blocksCounter) = true) :
    Rd.NewLinkage F f db g = (db, fail readFailed) := by
  simp [Rd.NewLinkage, Rd.initStorage, Rd.getCounter, Rd.get, hb, fail]

/-- the number of blocks cannot be read -/
def badCounter : Faults := { bad := fun k => decide (k = counterKey blocksCounter), missed := fun _ => false }

/-- a history with a disk that fails once -/
example : Fresh Ex.g0 Ex.l0 ∧
    inserts ([(Faults.none, Ex.pb 1 0 1), (badCounter, Ex.pb 2 1 1), (Faults.none, Ex.pb 3 1 2)].map (·.2)) + 2 < 2 ^ 32 ∧
    (Heads (Rd.exec Ex.l0 [(Faults.none, Ex.pb 1 0 1), (badCounter, Ex.pb 2 1 1), (Faults.none, Ex.pb 3 1 2)]).db).map
      (·.map (·.blockID)) = .ok [Ex.bid 3] ∧
    (Rd.step badCounter (exec Ex.l0 [Ex.pb 1 0 1]) (Ex.pb 2 1 1)).2 = fail readFailed :=
  ⟨Ex.fresh, by decide +kernel, by decide +kernel, by decide +kernel⟩

end Verif.Props
