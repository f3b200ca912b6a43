import Verif.Loading.Hog
import Verif.Loading.HonestLemmas
import Verif.Loading.Outcomes
/-
Lemmas for property C115.
-/

set_option autoImplicit false

namespace Verif.Loading

open Verif
open Verif.Chains (Addr BlockID ProtoBlock Linkage LeashOf LeashScore getLeash getBlockByID)
open Verif.Chains.Spec (Stored ScoreOf SameTree)
open Verif.Peers (Lib Conn Registry)
open Verif.KV (Fate)

variable {lib : Lib} {g : ProtoBlock} {n k s : Nat} {peer : Addr} {a b : BlockID} {l0 l l' : Loader}

/-! ### what one event does to a synchronisation -/

/-- the difference stays, and no ids are requested -/
structure Same (l l' : Loader) : Prop where
  diff : l'.prevDiff = l.prevDiff
  asked : asking l'.out = asking l.out

/-- a batch was completed, and more is asked for -/
structure More (l l' : Loader) : Prop where
  more : ∃ s score, Announced l'.reg l.peerID s ∧ LeashScore l'.link l.peerID = .ok score ∧ score < s ∧
    l.prevDiff ≠ some ((s : Int) - score) ∧ l'.prevDiff = some ((s : Int) - score)
  asked : asking l'.out ≤ asking l.out + 1

/-- the peer was released -/
structure Let (l l' : Loader) : Prop where
  active : l'.active = false
  asked : asking l'.out = asking l.out

theorem requestIDs_more (c : Ctx) (l : Loader) : (requestIDs c l).1.prevDiff = l.prevDiff ∧ (requestIDs c l).1.reg = l.reg ∧
    asking (requestIDs c l).1.out ≤ asking l.out + 1 := by
  rcases requestIDs_cases c l with ⟨e, h⟩ | ⟨_, _, _, _, _, _, _, h⟩
  · rw [h]; exact ⟨rfl, rfl, Nat.le_succ _⟩
  · rw [h]
    refine ⟨rfl, rfl, ?_⟩
    unfold afterRequest
    rw [asking_append]
    have hone : ∀ m : Sent, asking [m] ≤ 1 := fun m => by unfold asking; exact List.countP_le_length
    exact Nat.add_le_add_left (hone _) _

theorem succeed_step (c : Ctx) (l : Loader) (h : Quiet l) (ha : l.active = true) (hp : (succeed c l).2 ≠ goPanic) :
    Same l (succeed c l).1 ∨ More l (succeed c l).1 ∨ Let l (succeed c l).1 := by
  have ho := succeed_outcome c l h ha
  generalize succeed c l = r at ho hp
  cases ho with
  | again p ps score hpe hps hsc lag changed =>
    obtain ⟨h1, h2, h3⟩ := requestIDs_more c { l with
        fc := reset l.fc l.peerID, prevDiff := some ((ps : Int) - score), ticking := true,
        obj := { l.obj with state := .waitingForIDs } }
    refine Or.inr (Or.inl ⟨⟨ps, score, ?_, ?_, lag, changed, h1⟩, h3⟩)
    · rw [h2]; exact ⟨p, hpe, hps⟩
    · rw [requestIDs_link]; exact hsc
  | release => exact Or.inr (Or.inr ⟨rfl, rfl⟩)
  | stuck => exact Or.inl ⟨rfl, rfl⟩
  | panic => exact absurd rfl hp

theorem active_step {e : Event} (I : Inv lib l) (ha : l.active = true) (h : step lib l e = .ok l') :
    l'.obj.peer = l.obj.peer ∧ (Same l l' ∨ (More l l' ∧ ∀ ev, e.op ≠ .registry ev) ∨ Let l l') := by
  obtain ⟨c, op⟩ := e
  have same : ∀ {x : Loader}, x = l → x.obj.peer = l.obj.peer ∧ (Same l x ∨ (More l x ∧ ∀ ev, op ≠ .registry ev) ∨ Let l x) := by
    rintro x rfl; exact ⟨rfl, Or.inl ⟨rfl, rfl⟩⟩
  cases op with
  | ids p ids =>
    simp only [Loading.step, handleIDs, ha, Bool.true_eq_false, if_false] at h
    split at h
    · cases h; exact same rfl
    · split at h
      · cases h; exact same rfl
      · obtain ⟨rfl, hnp⟩ := logged_ok h
        refine ⟨(frame_fire_ids c l ids I.quiet ha).peer, ?_⟩
        by_cases hs : l.obj.state = .waitingForIDs
        · have ho := fire_ids c l ids I.quiet hs
          generalize fire c l (.ids ids) = r at ho hnp
          cases ho with
          | failed lk e h => exact Or.inl ⟨rfl, rfl⟩
          | known lk h =>
            rcases succeed_step c { enter l .waitingForBlocks with link := lk } I.quiet ha hnp with h | h | h
            · exact Or.inl ⟨h.diff, h.asked⟩
            · exact Or.inr (Or.inl ⟨⟨h.more, h.asked⟩, fun ev h => by cases h⟩)
            · exact Or.inr (Or.inr ⟨h.active, h.asked⟩)
          | asked lk req cn h hne hc =>
            refine Or.inl ⟨rfl, ?_⟩
            show asking (l.out ++ req.map (fun id => ⟨c.now, cn, .getBlock id⟩)) = _
            rw [asking_append, asking_blocks, Nat.add_zero]
          | panic lk req h hne hc => exact absurd rfl hnp
        · rw [fire_ids_other c l ids I.quiet hs]; exact Or.inl ⟨rfl, rfl⟩
  | block p b =>
    simp only [Loading.step, handleBlock, ha, Bool.true_eq_false, if_false] at h
    split at h
    · cases h; exact same rfl
    · obtain ⟨rfl, hnp⟩ := logged_ok h
      refine ⟨(frame_fire_block c l b I.quiet ha).peer, ?_⟩
      by_cases hs : l.obj.state = .waitingForBlocks
      · have ho := fire_block c l b I.quiet hs
        generalize fire c l (.block b) = r at ho hnp
        cases ho with
        | waiting h => exact Or.inl ⟨rfl, rfl⟩
        | failed h lk e h' => exact Or.inl ⟨rfl, rfl⟩
        | complete h lk h' =>
          rcases succeed_step c { l with link := lk, obj := { l.obj with queue := putOpt l.obj.queue b } } I.quiet ha hnp with h | h | h
          · exact Or.inl ⟨h.diff, h.asked⟩
          · exact Or.inr (Or.inl ⟨⟨h.more, h.asked⟩, fun ev h => by cases h⟩)
          · exact Or.inr (Or.inr ⟨h.active, h.asked⟩)
      · rw [fire_block_other c l b I.quiet hs]; exact Or.inl ⟨rfl, rfl⟩
  | tick =>
    simp only [Loading.step, tick, ha, if_true] at h
    obtain ⟨rfl, _⟩ := logged_ok h
    by_cases hw : Waiting l
    · rw [fire_tick c l c.now I.quiet hw]
      split
      · rcases handleFailure_cases c (enter l .done) ha rfl with ⟨lk, e, h1, h2⟩ | ⟨lk, h1, h2⟩
        · rw [h2]; exact ⟨rfl, Or.inl ⟨rfl, rfl⟩⟩
        · rw [h2]; exact ⟨rfl, Or.inr (Or.inr ⟨rfl, rfl⟩)⟩
      · exact same rfl
    · rw [fire_tick_resting c l c.now I.quiet hw]; exact same rfl
  | timer =>
    simp only [Loading.step, sync, ha, if_true] at h
    cases h; exact same rfl
  | putBlock x q f1 f2 => obtain ⟨_, rfl⟩ := I.others h; exact ⟨rfl, Or.inl ⟨rfl, rfl⟩⟩
  | putMicro x q f1 f2 => obtain ⟨_, rfl⟩ := I.others h; exact ⟨rfl, Or.inl ⟨rfl, rfl⟩⟩
  | registry ev => simp only [Loading.step] at h; cases h; exact ⟨rfl, Or.inl ⟨rfl, rfl⟩⟩

/-! ### a synchronisation that goes forward -/

theorem Climbs.running (h : Climbs lib g peer l0 n k l) : Running lib g n l := by
  induction h with
  | start h => exact h
  | step e _ _ hs _ ih => exact .step e ih hs

theorem Serving.onLeash {lk : Linkage} (S : Serving g n lk) (q : Addr) {sc : Nat} (h : LeashScore lk q = .ok sc) : ∃ x, OnLeash lk q x sc := by
  obtain ⟨x, hx, _⟩ := S.leash q
  obtain ⟨sc', h1, h2⟩ := leashScore_of S q x hx
  rw [h] at h1; cases h1
  exact ⟨x, hx, h2⟩

theorem Serving.scoreOn {lk : Linkage} (S : Serving g n lk) {q : Addr} {x : BlockID} {sc : Nat} (h : OnLeash lk q x sc) : LeashScore lk q = .ok sc := by
  obtain ⟨sc', h1, h2⟩ := leashScore_of S q x h.1
  rw [h1, (OnLeash.unique h ⟨h.1, h2⟩).2]

theorem Climbs.origin (h : Climbs lib g peer l0 n k l) : ∃ m, Running lib g m l0 := by
  induction h with
  | start h => exact ⟨_, h⟩
  | step e _ _ _ _ ih => exact ih

/-- the announced score is the same as before unless the peer announces one -/
theorem announced_kept {e : Event} (I : Inv lib l) (ha : l.active = true) (h : step lib l e = .ok l') (hn : heard l.peerID e = 0) (hs : Announced l.reg l.peerID s) :
    Announced l'.reg l.peerID s := by
  obtain ⟨c, op⟩ := e
  cases op with
  | registry ev =>
    simp only [Loading.step] at h
    cases h
    refine announced_step I.reg.inv (I.scored ha) hs (fun f s' he => ?_)
    simp [heard, he] at hn
  | putBlock x q f1 f2 => obtain ⟨_, rfl⟩ := I.others h; exact hs
  | putMicro x q f1 f2 => obtain ⟨_, rfl⟩ := I.others h; exact hs
  | timer =>
    simp only [Loading.step, sync, ha, if_true] at h
    cases h; exact hs
  | ids p ids =>
    simp only [Loading.step, handleIDs, ha, Bool.true_eq_false, if_false] at h
    split at h
    · cases h; exact hs
    · split at h
      · cases h; exact hs
      · obtain ⟨rfl, hnp⟩ := logged_ok h
        rw [(frame_fire_ids c l ids I.quiet ha).reg]; exact hs
  | block p b =>
    simp only [Loading.step, handleBlock, ha, Bool.true_eq_false, if_false] at h
    split at h
    · cases h; exact hs
    · obtain ⟨rfl, hnp⟩ := logged_ok h
      rw [(frame_fire_block c l b I.quiet ha).reg]; exact hs
  | tick =>
    simp only [Loading.step, tick, ha, if_true] at h
    obtain ⟨rfl, _⟩ := logged_ok h
    rw [(frame_fire_tick c l c.now I.quiet ha).reg]; exact hs

/-- how many requests there can have been: none, or as many as the score of the position and the announcements at the last one allow -/
inductive Count (peer : Addr) (r0 sc0 : Nat) (k : Nat) (l : Loader) (sc : Nat) : Prop where
  | none (h : asking l.out ≤ r0)
  | some (s' sc' k' : Nat) (diff : l.active = true → l.prevDiff = some ((s' : Int) - sc')) (h1 : sc0 ≤ sc') (h2 : sc' ≤ sc) (h3 : k' ≤ k) (lt : sc' < s')
      (h4 : asking l.out ≤ r0 + 1 + (sc' - sc0) + k') (same : l.active = true → k' = k → Announced l.reg peer s')
      (first : ∀ s, k = 0 → Announced l0.reg peer s → s' = s)

theorem announced_back (I : Inv lib l) (ha : l.active = true) : ∃ s, Announced l.reg l.peerID s := by
  obtain ⟨s, _, _, _, h⟩ := (I.scored ha).announced I.reg.inv
  exact ⟨s, h⟩

theorem Climbs.count {sc0 sc1 : Nat} (h : Climbs lib g peer l0 n k l) (hw : l0.peerID = peer)
    (h0 : LeashScore l0.link peer = .ok sc0) (h1 : LeashScore l.link peer = .ok sc1) :
    l.peerID = peer ∧ sc0 ≤ sc1 ∧ (l.active = true → k = 0 → ∀ s, Announced l0.reg peer s → Announced l.reg peer s) ∧
      Count (l0 := l0) peer (asking l0.out) sc0 k l sc1 := by
  induction h generalizing sc1 with
  | start h => rw [h0] at h1; cases h1; exact ⟨hw, Nat.le_refl _, fun _ _ _ h => h, .none (Nat.le_refl _)⟩
  | @step n k l l' e h ha hs hu ih =>
    have R := h.running
    have I := R.reachable.inv
    obtain ⟨sc, hsc⟩ := R.serving.leashScore peer
    obtain ⟨i1, i2, i4, i3⟩ := ih hsc
    obtain ⟨x, hx⟩ := R.serving.onLeash peer hsc
    obtain ⟨y, hy⟩ := (Running.step e R hs).serving.onLeash peer h1
    have hup := hu x y sc sc1 hx hy
    obtain ⟨hpe, hcase⟩ := active_step I ha hs
    have hid : l'.peerID = peer := by unfold Loader.peerID; rw [hpe]; exact i1
    have hkeep : heard peer e = 0 → ∀ s, Announced l.reg peer s → Announced l'.reg peer s := by
      intro hz s hs'
      have := announced_kept (s := s) I ha hs (by rw [i1]; exact hz) (by rw [i1]; exact hs')
      rw [i1] at this; exact this
    refine ⟨hid, by omega, fun _ hk s h => hkeep (by omega) s (i4 ha (by omega) s h), ?_⟩
    rcases hcase with hc | ⟨hc, hnr⟩ | hc
    · cases i3 with
      | none h => exact .none (by rw [hc.asked]; exact h)
      | some s' sc' k' diff a1 a2 a3 lt a4 same first =>
        refine .some s' sc' k' (fun _ => by rw [hc.diff]; exact diff ha) a1 (by omega) (by omega) lt (by rw [hc.asked]; exact a4) (fun _ hk => ?_)
          (fun s hk => first s (by omega))
        exact hkeep (by omega) s' (same ha (by omega))
    · obtain ⟨s, score, b1, b2, b3, b4, b5⟩ := hc.more
      rw [i1] at b1 b2
      rw [h1] at b2; cases b2
      have hz : heard peer e = 0 := by
        unfold heard
        split
        · rename_i ev hev; exact absurd hev (hnr ev)
        · rfl
      have hk0 : ∀ s'', k + heard peer e = 0 → Announced l0.reg peer s'' → s = s'' := by
        intro s'' hk hs''
        exact Announced.unique b1 (hkeep hz s'' (i4 ha (by omega) s'' hs''))
      have hle : asking l'.out ≤ asking l0.out + 1 + (sc1 - sc0) + (k + heard peer e) := by
        cases i3 with
        | none h => have := hc.asked; omega
        | some s' sc' k' diff a1 a2 a3 lt a4 same first =>
          have := hc.asked
          by_cases hk : k' = k
          · have hann := hkeep hz s' (same ha hk)
            have he := Announced.unique b1 hann
            subst he
            rw [diff ha] at b4
            have : sc' ≠ sc1 := fun h => b4 (by rw [h])
            omega
          · omega
      exact .some s sc1 (k + heard peer e) (fun _ => b5) (by omega) (Nat.le_refl _) (Nat.le_refl _) b3 hle (fun _ _ => b1) hk0
    · cases i3 with
      | none h => exact .none (by rw [hc.asked]; exact h)
      | some s' sc' k' diff a1 a2 a3 lt a4 same first =>
        exact .some s' sc' k' (fun h => by rw [hc.active] at h; cases h) a1 (by omega) (by omega) lt (by rw [hc.asked]; exact a4)
          (fun h => by rw [hc.active] at h; cases h) (fun s hk => first s (by omega))

/-! ### a peer that teases -/

theorem Serving.score_put {lk : Linkage} (S : Serving g (n + 1) lk) {id : BlockID} {sc : Nat} (h : ScoreOf lk.db id sc) (o : Chains.Spec.Op)
    (ho : (∃ x q f1 f2, o = .putBlock x q f1 f2) ∨ ∃ x q f1 f2, o = .putMicro x q f1 f2) (hst : Stored lk.db id) : ScoreOf (Chains.Spec.step lk o).1.db id sc := by
  obtain ⟨r, hr, hsc⟩ := h
  obtain ⟨c0, ops, hf, _, _, hb, rfl⟩ := S
  have := Props.C01_blocks_permanent hf ops [o]
    (by
      rw [Chains.inserts_append]
      have : Chains.Spec.inserts [o] = 1 := by rcases ho with ⟨_, _, _, _, rfl⟩ | ⟨_, _, _, _, rfl⟩ <;> rfl
      omega) id hst
  rw [Chains.exec_append] at this
  exact ⟨r, this.2.2.trans hr, hsc⟩

theorem micro_others {lk : Linkage} (S : Serving g (n + 1) lk) (x : Chains.MicroInv) (q : Addr) (f1 f2 : Fate) (p : Addr) (ha : p.plain ≠ q.plain) :
    getLeash (Chains.PutMicroBlock f1 f2 lk.db x q).1 p = getLeash lk.db p := by
  obtain ⟨ns, hs, R, hb⟩ := Chains.reachable_rep S.reachable
  have := R.step_outcome (l := lk) hb (.putMicro x q f1 f2)
  simp only [Chains.Spec.target] at this
  rcases this with ⟨_, hm, _⟩ | ⟨_, hs⟩ | ⟨_, _, hm, _⟩
  · have := hm p; rw [if_neg ha] at this; exact this
  · exact hs p
  · have := hm p; rw [if_neg ha] at this; exact this

theorem stored_of_score {lk : Linkage} (S : Serving g n lk) {id : BlockID} {sc : Nat} (h : ScoreOf lk.db id sc) : Stored lk.db id := by
  obtain ⟨r, hr, _⟩ := h
  rcases S.has id with h | h
  · exact h
  · exfalso
    unfold Chains.HasBlock Chains.hasBlock at h
    unfold getBlockByID at hr
    cases hn : Chains.getNumOfBlockID lk.db id with
    | ok m => rw [hn] at h; cases h
    | error e => rw [hn] at hr; cases hr

/-- what holds while the peer teases -/
structure Toy (peer : Addr) (s : Nat) (a b : BlockID) (sa sb : Nat) (l0 l : Loader) : Prop where
  active : l.active = true
  state : l.obj.state = .waitingForIDs
  peer_eq : l.obj.peer = l0.obj.peer
  who : l.peerID = peer
  announced : Announced l.reg peer s
  scoreA : ScoreOf l.link.db a sa
  scoreB : ScoreOf l.link.db b sb
  diffA : LeashOf l.link peer ≠ .ok a → l.prevDiff ≠ some ((s : Int) - sa)
  diffB : LeashOf l.link peer = .ok a → l.prevDiff ≠ some ((s : Int) - sb)
  sent : ∃ more, l.out = l0.out ++ more ∧ ∀ m, m ∈ more → l0.obj.peer.conn = some m.to

/-- one known id: the peer is asked for more -/
theorem toy_known {sa sb sx : Nat} {x : BlockID} {c : Ctx} (R : Running lib g n l) (T : Toy peer s a b sa sb l0 l) (hf : ∀ j, c.fates j = .ok)
    (hx : ScoreOf l.link.db x sx) (hlt : sx < s) (hd : l.prevDiff ≠ some ((s : Int) - sx)) :
    ∃ l', step lib l ⟨c, .ids peer [x]⟩ = .ok l' ∧ Continued c.now l l' s x sx ∧ l'.reg = l.reg ∧ SameTree l.link.db l'.link.db ∧ LeashOf l'.link peer = .ok x ∧
      ∀ q : Addr, q.plain ≠ peer.plain → LeashOf l'.link q = LeashOf l.link q := by
  have I := R.reachable.inv
  have S := R.serving
  obtain ⟨leash, hl, _⟩ := S.leash l.peerID
  obtain ⟨lk, h1, h2, h3, h4⟩ := requestLoop_ok c l.peerID S [x] [] leash hl hf
    (fun k hk => by rw [List.mem_singleton.mp hk]; exact stored_of_score S hx) (by intro y hy; cases hy)
  rw [List.append_nil] at h1
  have I' : Inv lib { enter l .waitingForBlocks with link := lk } := (I.enter .waitingForBlocks).withLink lk
  obtain ⟨l', s', leash', score, e1, e2, e3, _, _, e6, e7, e8, _⟩ := succeed_serving c { enter l .waitingForBlocks with link := lk } I' T.active h2
  have hs' : s' = s := Announced.unique e6 (show Announced l.reg l.peerID s by rw [T.who]; exact T.announced)
  subst hs'
  have hlk : LeashOf lk l.peerID = .ok x := h4
  have hsx : ScoreOf lk.db x sx := by
    obtain ⟨r, hr, hsc⟩ := hx
    exact ⟨r, by rw [h3.tree.record]; exact hr, hsc⟩
  obtain ⟨hle, hsc⟩ := e7.unique (show OnLeash lk l.peerID x sx from ⟨hlk, hsx⟩)
  subst hle hsc
  have hC := e8 ⟨hlt, hd⟩
  refine ⟨l', ?_, ⟨hC.active, hC.state, hC.peer, hC.stamp, hC.diff, hC.sent⟩, e3, by rw [e2]; exact h3.tree, ?_, fun q hq => ?_⟩
  · have hp : ¬ (peer ≠ l.peerID) := fun h => h T.who.symm
    simp only [step, handleIDs, T.active, Bool.true_eq_false, if_false, List.cons_ne_nil, if_neg hp]
    have ho := fire_ids c l [leash'] I.quiet T.state
    generalize fire c l (.ids [leash']) = r at ho
    have h1' : requestLoop c (enter l .waitingForBlocks).peerID 0 (enter l .waitingForBlocks).link [leash'] = (lk, .ok []) := h1
    cases ho with
    | failed lk' e h => rw [h1'] at h; cases h
    | known lk' h => rw [h1'] at h; cases h; rw [e1]; rfl
    | asked lk' req cn' h hne hc => rw [h1'] at h; cases h; exact absurd rfl hne
    | panic lk' req h hne hc => rw [h1'] at h; cases h; exact absurd rfl hne
  · rw [e2, ← T.who]; exact hlk
  · rw [e2]; exact leashOf_congr h3.genesis (h3.others q (by rw [T.who]; exact hq))

theorem toy_after {sa sb sx : Nat} {x : BlockID} {now : Int} (T : Toy peer s a b sa sb l0 l) (hne : sa ≠ sb) (hx : (x = a ∧ sx = sa) ∨ (x = b ∧ x ≠ a ∧ sx = sb))
    (hC : Continued now l l' s x sx) (hr : l'.reg = l.reg) (ht : SameTree l.link.db l'.link.db) (hl : LeashOf l'.link peer = .ok x) : Toy peer s a b sa sb l0 l' := by
  have score : ∀ {id sc}, ScoreOf l.link.db id sc → ScoreOf l'.link.db id sc := by
    rintro id sc ⟨r, h1, h2⟩; exact ⟨r, by rw [ht.record]; exact h1, h2⟩
  refine ⟨hC.active, hC.state, hC.peer.trans T.peer_eq, by unfold Loader.peerID; rw [hC.peer]; exact T.who, by rw [hr]; exact T.announced, score T.scoreA, score T.scoreB, ?_, ?_, ?_⟩
  · intro h
    rw [hC.diff]
    rcases hx with ⟨rfl, rfl⟩ | ⟨rfl, _, rfl⟩
    · exact absurd hl h
    · intro he; have := Option.some.inj he; omega
  · intro h
    rw [hC.diff]
    rcases hx with ⟨rfl, rfl⟩ | ⟨rfl, h', rfl⟩
    · intro he; have := Option.some.inj he; omega
    · rw [hl] at h; exact absurd (Except.ok.inj h) h'
  · obtain ⟨more, h1, h2⟩ := T.sent
    obtain ⟨ids, cn, m, _, h4, _, h6⟩ := hC.sent
    refine ⟨more ++ [⟨now, cn, m⟩], by rw [h6, h1, List.append_assoc], fun y hy => ?_⟩
    rcases List.mem_append.mp hy with hy | hy
    · exact h2 y hy
    · rw [List.mem_singleton.mp hy, ← T.peer_eq]; exact h4

theorem toy_step {sa sb : Nat} {e : Event} (R : Running lib g (n + cost l e) l) (T : Toy peer s a b sa sb l0 l) (hne : sa ≠ sb) (hsa : sa < s) (hsb : sb < s)
    (ht : Teases peer s a b l e) : (∀ l', step lib l e = .ok l' → Toy peer s a b sa sb l0 l') ∧
      (∀ ids, e.op = .ids peer ids → ∃ l', step lib l e = .ok l' ∧ asking l'.out = asking l.out + 1) := by
  have I := R.reachable.inv
  have S := R.serving
  have hab : a ≠ b := by
    rintro rfl
    obtain ⟨r, h1, h2⟩ := T.scoreA
    obtain ⟨r', h3, h4⟩ := T.scoreB
    rw [h1] at h3; cases h3
    exact hne (h2.symm.trans h4)
  have count : ∀ {c : Ctx} {x sx l'}, Continued c.now l l' s x sx → asking l'.out = asking l.out + 1 := by
    intro c x sx l' hC
    obtain ⟨ids, cn, m, _, _, h5, h6⟩ := hC.sent
    rw [h6, asking_append]
    congr 1
    cases m with
    | getBlock _ => exact absurd h5 (by simp [AsksIDs])
    | getSignatures _ => rfl
    | getBlockIds _ => rfl
  have known : ∀ c ids, e = ⟨c, .ids peer ids⟩ → ∃ l', step lib l e = .ok l' ∧ asking l'.out = asking l.out + 1 ∧ Toy peer s a b sa sb l0 l' := by
    intro c ids he
    subst he
    obtain ⟨hf, h⟩ := ht.ids ids rfl
    rcases h with ⟨hl, rfl⟩ | ⟨hl, rfl⟩
    · obtain ⟨l', h1, h2, h3, h4, h5, _⟩ := toy_known R T hf T.scoreA hsa (T.diffA hl)
      exact ⟨l', h1, count h2, toy_after T hne (Or.inl ⟨rfl, rfl⟩) h2 h3 h4 h5⟩
    · obtain ⟨l', h1, h2, h3, h4, h5, _⟩ := toy_known R T hf T.scoreB hsb (T.diffB hl)
      exact ⟨l', h1, count h2, toy_after T hne (Or.inr ⟨rfl, fun h => hab h.symm, rfl⟩) h2 h3 h4 h5⟩
  have others : ∀ o, (∃ x q f1 f2, o = Chains.Spec.Op.putBlock x q f1 f2 ∧ peer.plain ≠ q.plain) ∨ (∃ x q f1 f2, o = .putMicro x q f1 f2 ∧ peer.plain ≠ q.plain) →
      (∃ m, Serving g (m + 1) l.link) → Toy peer s a b sa sb l0 { l with link := (Chains.Spec.step l.link o).1 } := by
    rintro o ho ⟨m, S1⟩
    have hl : getLeash (Chains.Spec.step l.link o).1.db peer = getLeash l.link.db peer := by
      rcases ho with ⟨x, q, f1, f2, rfl, hp⟩ | ⟨x, q, f1, f2, rfl, hp⟩
      · exact put_others S1 x q f1 f2 peer hp
      · exact micro_others S1 x q f1 f2 peer hp
    have hg : (Chains.Spec.step l.link o).1.genesis = l.link.genesis := by
      rcases ho with ⟨x, q, f1, f2, rfl, hp⟩ | ⟨x, q, f1, f2, rfl, hp⟩ <;> rfl
    have hle := leashOf_congr hg hl
    have ho' : (∃ x q f1 f2, o = Chains.Spec.Op.putBlock x q f1 f2) ∨ ∃ x q f1 f2, o = .putMicro x q f1 f2 := by
      rcases ho with ⟨x, q, f1, f2, rfl, hp⟩ | ⟨x, q, f1, f2, rfl, hp⟩
      · exact Or.inl ⟨_, _, _, _, rfl⟩
      · exact Or.inr ⟨_, _, _, _, rfl⟩
    exact ⟨T.active, T.state, T.peer_eq, T.who, T.announced, S1.score_put T.scoreA o ho' (stored_of_score S1 T.scoreA),
      S1.score_put T.scoreB o ho' (stored_of_score S1 T.scoreB), fun h => T.diffA (by rw [← hle]; exact h), fun h => T.diffB (by rw [← hle]; exact h), T.sent⟩
  obtain ⟨c, op⟩ := e
  refine ⟨fun l' hs => ?_, fun ids he => ?_⟩
  · cases op with
    | ids p ids =>
      by_cases hp : p = peer
      · subst hp
        obtain ⟨l1, h1, _, h3⟩ := known c ids rfl
        rw [h1] at hs; cases hs; exact h3
      · simp only [step, handleIDs, T.active, Bool.true_eq_false, if_false, T.who] at hs
        split at hs
        · cases hs; exact T
        · first
            | (cases hs; exact T)
            | (rw [if_pos hp] at hs; cases hs; exact T)
    | block p x =>
      simp only [step, handleBlock, T.active, Bool.true_eq_false, if_false] at hs
      split at hs
      · cases hs; exact T
      · rw [fire_block_other c l x I.quiet (by rw [T.state]; simp)] at hs; cases hs; exact T
    | tick =>
      have := ht.tick rfl
      simp only [step, tick, T.active, if_true] at hs
      rw [fire_tick c l c.now I.quiet (Or.inl T.state), if_neg (by unfold timeoutDuration; simp only at this; omega)] at hs
      cases hs; exact T
    | timer =>
      simp only [step, sync, T.active, if_true] at hs
      cases hs; exact T
    | putBlock x q f1 f2 =>
      obtain ⟨_, rfl⟩ := I.others hs
      exact others _ (Or.inl ⟨x, q, f1, f2, rfl, ht.putBlock x q f1 f2 rfl⟩) ⟨n, S⟩
    | putMicro x q f1 f2 =>
      obtain ⟨_, rfl⟩ := I.others hs
      exact others _ (Or.inr ⟨x, q, f1, f2, rfl, ht.putMicro x q f1 f2 rfl⟩) ⟨n, S⟩
    | registry ev =>
      simp only [step] at hs
      cases hs
      refine ⟨T.active, T.state, T.peer_eq, T.who, ?_, T.scoreA, T.scoreB, T.diffA, T.diffB, T.sent⟩
      exact announced_step I.reg.inv (by have := I.scored T.active; rw [T.who] at this; exact this) T.announced (fun f s' he => ht.score ev f s' rfl he)
  · simp only at he
    subst he
    obtain ⟨l1, h1, h2, _⟩ := known c ids rfl
    exact ⟨l1, h1, h2⟩

theorem Lags.kept {q : Addr} (h : Lags l.reg l.link q) (hr : l'.reg = l.reg) (ht : SameTree l.link.db l'.link.db) (hl : LeashOf l'.link q = LeashOf l.link q) :
    Lags l'.reg l'.link q := by
  obtain ⟨s, x, sc, h1, ⟨h2, r, h3, h4⟩, h5⟩ := h
  exact ⟨s, x, sc, by rw [hr]; exact h1, ⟨by rw [hl]; exact h2, r, by rw [ht.record]; exact h3, h4⟩, h5⟩

/-- the peer takes its turn -/
theorem toy_turn {sa sb : Nat} (R : Running lib g n l) (T : Toy peer s a b sa sb l0 l) (hne : sa ≠ sb) (hsa : sa < s) (hsb : sb < s) (c : Ctx) (hf : ∀ j, c.fates j = .ok) :
    ∃ x l', (x = a ∨ x = b) ∧ step lib l ⟨c, .ids peer [x]⟩ = .ok l' ∧ Running lib g n l' ∧ Toy peer s a b sa sb l0 l' ∧ l'.obj.timestamp = c.now ∧
      asking l'.out = asking l.out + 1 ∧ ∀ q : Addr, q.plain ≠ peer.plain → Lags l.reg l.link q → Lags l'.reg l'.link q := by
  have : ∃ x sx l', ((x = a ∧ sx = sa) ∨ (x = b ∧ x ≠ a ∧ sx = sb)) ∧ step lib l ⟨c, .ids peer [x]⟩ = .ok l' ∧ Continued c.now l l' s x sx ∧ l'.reg = l.reg ∧
      SameTree l.link.db l'.link.db ∧ LeashOf l'.link peer = .ok x ∧ ∀ q : Addr, q.plain ≠ peer.plain → LeashOf l'.link q = LeashOf l.link q := by
    by_cases hl : LeashOf l.link peer = .ok a
    · obtain ⟨l', h⟩ := toy_known R T hf T.scoreB hsb (T.diffB hl)
      refine ⟨b, sb, l', Or.inr ⟨rfl, ?_, rfl⟩, h⟩
      rintro rfl
      obtain ⟨r, h1, h2⟩ := T.scoreA
      obtain ⟨r', h3, h4⟩ := T.scoreB
      rw [h1] at h3; cases h3
      exact hne (h2.symm.trans h4)
    · obtain ⟨l', h⟩ := toy_known R T hf T.scoreA hsa (T.diffA hl)
      exact ⟨a, sa, l', Or.inl ⟨rfl, rfl⟩, h⟩
  obtain ⟨x, sx, l', hx, h1, h2, h3, h4, h5, h6⟩ := this
  refine ⟨x, l', ?_, h1, .step _ (by exact R) h1, toy_after T hne hx h2 h3 h4 h5, h2.stamp, ?_, fun q hq hL => hL.kept h3 h4 (h6 q hq)⟩
  · rcases hx with h | h
    · exact Or.inl h.1
    · exact Or.inr h.1
  · obtain ⟨ids, cn, m, _, _, h8, h9⟩ := h2.sent
    rw [h9, asking_append, asking_one h8]

theorem Teased.running (h : Teased lib g peer s a b l0 n l) : Running lib g n l := by
  induction h with
  | start h => exact h
  | step e _ _ hs ih => exact .step e ih hs

end Verif.Loading
