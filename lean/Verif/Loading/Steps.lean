import Verif.Loading.Inv
import Verif.Loading.QueueLemmas
import Verif.Chains.ForkOk
/-
What one event does, on a store that the program serves from.
-/

set_option autoImplicit false

namespace Verif.Loading

open Verif
open Verif.Chains (Addr BlockID ProtoBlock Linkage Env PutBlock MoveLeash HasBlock LeashOf LeashScore LastIDs LCB getLeash)
open Verif.Chains.Spec (Stored SameTree ScoreOf HeightOf IsWalk)
open Verif.Peers (Peer Conn Version Registry Lib second)
open Verif.KV (Fate)

variable {g : ProtoBlock} {n : Nat} {lib : Lib}

theorem Scored.announced {r : Registry} {a : Addr} (I : Peers.Inv r) (h : Scored r a) :
    ∃ s p, Peers.PeerOf r a = .ok p ∧ p.score = some s ∧ Announced r a s := by
  obtain ⟨b, v, s, rfl, hv, hs⟩ := h
  have hp : Peers.PeerOf r (.v4 b) = .ok (v.toPeer (.v4 b)) := I.peerOf.mpr ⟨v, hv, rfl⟩
  exact ⟨s, _, hp, hs, _, hp, hs⟩

theorem Announced.unique {r : Registry} {a : Addr} {s s' : Nat} (h : Announced r a s) (h' : Announced r a s') : s = s' := by
  obtain ⟨p, hp, hs⟩ := h
  obtain ⟨p', hp', hs'⟩ := h'
  rw [hp] at hp'; cases hp'
  rw [hs] at hs'; cases hs'; rfl

theorem OnLeash.unique {lk : Linkage} {a : Addr} {x x' : BlockID} {s s' : Nat} (h : OnLeash lk a x s) (h' : OnLeash lk a x' s') :
    x = x' ∧ s = s' := by
  obtain ⟨h1, r, h2, h3⟩ := h
  obtain ⟨h1', r', h2', h3'⟩ := h'
  rw [h1] at h1'; cases h1'
  rw [h2] at h2'; cases h2'
  exact ⟨rfl, h3.symm.trans h3'⟩

theorem Serving.height {lk : Linkage} (S : Serving g n lk) {id : BlockID} (h : Stored lk.db id) : ∃ k, HeightOf lk.db id k := by
  obtain ⟨r, hr⟩ := S.record id h
  exact ⟨_, r, hr, rfl⟩

/-- `LastIDs` with the batch size -/
theorem Serving.lastIDs {lk : Linkage} (S : Serving g n lk) {id : BlockID} (h : Stored lk.db id) :
    ∃ ids, LastIDs lk.db id idsBatchSize = .ok ids ∧ ids ≠ [] ∧ LastHundred lk.db id ids := by
  obtain ⟨k, hk⟩ := S.height h
  obtain ⟨ids, h1, h2, h3, h4⟩ := Props.C12_lastIDs S.reachable id h 100 k hk
  refine ⟨ids, h1, ?_, h3, h4 (by omega), k, hk, h2⟩
  intro e; have := h4 (by omega); rw [e] at this; cases this

theorem asks_afterRequest (c : Ctx) (l : Loader) (cn : Conn) (ids : List BlockID) :
    ∃ m, AsksIDs cn ids m ∧ afterRequest c l cn ids =
      { l with out := l.out ++ [⟨c.now, cn, m⟩], obj := { l.obj with timestamp := c.now } } := by
  unfold afterRequest
  by_cases hv : cn.handshake.version.lt protobufVersion = true
  · exact ⟨.getSignatures ids, ⟨rfl, hv⟩, by rw [if_pos hv]⟩
  · exact ⟨.getBlockIds ids, ⟨rfl, by simpa [protobufVersion] using hv⟩, by rw [if_neg hv]⟩

/-- `requestIDs` on a store that the program serves from -/
theorem requestIDs_serving (c : Ctx) (l : Loader) (S : Serving g n l.link) (hc : l.obj.peer.conn ≠ none) :
    ∃ leash ids cn m, LeashOf l.link l.peerID = .ok leash ∧ LastHundred l.link.db leash ids ∧ l.obj.peer.conn = some cn ∧
      AsksIDs cn ids m ∧ requestIDs c l =
        ({ l with out := l.out ++ [⟨c.now, cn, m⟩], obj := { l.obj with timestamp := c.now } }, .ok ()) := by
  obtain ⟨leash, hl, hst⟩ := S.leash l.peerID
  obtain ⟨ids, hi, hne, hw⟩ := S.lastIDs hst
  obtain ⟨cn, hcn⟩ := Option.ne_none_iff_exists'.mp hc
  obtain ⟨m, hm, he⟩ := asks_afterRequest c l cn ids
  refine ⟨leash, ids, cn, m, hl, hw, hcn, hm, ?_⟩
  rw [← he]
  unfold requestIDs requestBlockIDs
  simp only [hl, hi, hcn, hne, if_false]
  unfold afterRequest
  by_cases hv : cn.handshake.version.lt protobufVersion = true
  · simp [hv, andThen]
  · simp [hv, andThen]

/-- `requestIDsFromLCA` when the last common block is found -/
theorem requestIDsFromLCA_serving (c : Ctx) (l : Loader) (S : Serving g n l.link) (hc : l.obj.peer.conn ≠ none)
    (lca : BlockID) (hl : LCB c.env l.link l.peerID = .ok lca) (hst : Stored l.link.db lca) :
    ∃ ids cn m, LastHundred l.link.db lca ids ∧ l.obj.peer.conn = some cn ∧
      AsksIDs cn ids m ∧ requestIDsFromLCA c l =
        ({ l with out := l.out ++ [⟨c.now, cn, m⟩], obj := { l.obj with timestamp := c.now } }, .ok ()) := by
  obtain ⟨ids, hi, hne, hw⟩ := S.lastIDs hst
  obtain ⟨cn, hcn⟩ := Option.ne_none_iff_exists'.mp hc
  obtain ⟨m, hm, he⟩ := asks_afterRequest c l cn ids
  refine ⟨ids, cn, m, hw, hcn, hm, ?_⟩
  rw [← he]
  unfold requestIDsFromLCA requestBlockIDs
  simp only [hl, hi, hcn, hne, if_false]
  unfold afterRequest
  by_cases hv : cn.handshake.version.lt protobufVersion = true
  · simp [hv, andThen]
  · simp [hv, andThen]

/-- what follows a completed batch -/
theorem succeed_serving (c : Ctx) (l : Loader) (I : Inv lib l) (ha : l.active = true) (S : Serving g n l.link) :
    ∃ l' s leash score, succeed c l = (l', .ok ()) ∧ l'.link = l.link ∧ l'.reg = l.reg ∧ l'.fc = reset l.fc l.peerID ∧
      l'.obj.queue = l.obj.queue ∧
      Announced l.reg l.peerID s ∧ OnLeash l.link l.peerID leash score ∧
      ((s > score ∧ l.prevDiff ≠ some ((s : Int) - score)) → Continued c.now l l' s leash score) ∧
      (¬ (s > score ∧ l.prevDiff ≠ some ((s : Int) - score)) → Released l l') := by
  obtain ⟨s, p, hp, hps, han⟩ := (I.scored ha).announced I.reg.inv
  obtain ⟨leash, hl, hst⟩ := S.leash l.peerID
  obtain ⟨score, hsc, hso⟩ := leashScore_of S l.peerID leash hl
  have ho := succeed_outcome c l I.quiet ha
  generalize succeed c l = r at ho
  cases ho with
  | again p' ps score' hp' hps' hsc' lag changed =>
    rw [hp] at hp'; cases hp'
    rw [hps] at hps'; cases hps'
    rw [hsc] at hsc'; cases hsc'
    obtain ⟨leash', ids, cn, m, e1, e2, e3, e4, e5⟩ := requestIDs_serving c { l with
      fc := reset l.fc l.peerID, prevDiff := some ((s : Int) - score), ticking := true,
      obj := { l.obj with state := .waitingForIDs } } S (I.conn ha)
    have : LeashOf l.link l.peerID = .ok leash' := e1
    rw [hl] at this; cases this
    refine ⟨_, s, leash, score, e5, rfl, rfl, rfl, rfl, han, ⟨hl, hso⟩, fun _ => ?_, fun h => absurd ⟨lag, changed⟩ h⟩
    exact ⟨ha, rfl, rfl, rfl, rfl, ids, cn, m, e2, e3, e4, rfl⟩
  | release p' ps score' hp' hps' hsc' stop =>
    rw [hp] at hp'; cases hp'
    rw [hps] at hps'; cases hps'
    rw [hsc] at hsc'; cases hsc'
    exact ⟨_, s, leash, score, rfl, rfl, rfl, rfl, rfl, han, ⟨hl, hso⟩, fun h => absurd h stop, fun _ => ⟨rfl, rfl, rfl⟩⟩
  | stuck e h =>
    rcases h with h | ⟨_, h⟩
    · rw [hp] at h; cases h
    · rw [hsc] at h; cases h
  | panic h =>
    rcases h with h | h | ⟨p', hp', h⟩
    · rw [hp] at h; cases h
    · rw [hsc] at h; cases h
    · rw [hp] at hp'; cases hp'; rw [hps] at h; cases h

theorem Inv.withLink {l : Loader} (I : Inv lib l) (lk : Linkage) : Inv lib { l with link := lk } :=
  ⟨I.quiet, I.reg, I.ticking, I.conn, I.scored, I.matching, I.stamp⟩

theorem Inv.withQueue {l : Loader} (I : Inv lib l) (q : List Item) (h : Matching q) :
    Inv lib { l with obj := { l.obj with queue := q } } :=
  ⟨I.quiet, I.reg, I.ticking, I.conn, I.scored, h, I.stamp⟩

/-! ### a batch -/

theorem ready_put {q : List Item} (h : ready q = true) (b : ProtoBlock) : ready (Loading.put q b) = true := by
  induction q with
  | nil => rfl
  | cons it q ih =>
    simp only [ready, List.all_cons, Bool.and_eq_true] at h ih ⊢
    rw [Loading.put]
    split
    · rename_i he
      simp only [List.all_cons, Bool.and_eq_true]
      exact ⟨by simp [Item.filled, he], h.2⟩
    · simp only [List.all_cons, Bool.and_eq_true]
      exact ⟨h.1, ih h.2⟩

theorem ready_fold {q : List Item} (h : ready q = true) (bs : List ProtoBlock) : ready (bs.foldl Loading.put q) = true := by
  induction bs generalizing q with
  | nil => exact h
  | cons b bs ih => exact ih (ready_put h b)

theorem ready_fold_false {q : List Item} (bs : List ProtoBlock) (h : ready (bs.foldl Loading.put q) = false) : ready q = false := by
  cases hr : ready q with
  | false => rfl
  | true => rw [ready_fold hr] at h; cases h

/-- the loader has got some blocks of its batch -/
def gathered (l : Loader) (r : Registry) (lk : Linkage) (bs : List ProtoBlock) : Loader :=
  { l with link := lk, reg := r, obj := { l.obj with queue := bs.foldl Loading.put l.obj.queue } }

/-- nothing but the queue changes until the batch is complete or the time is up -/
theorem gather (es : List Event) (l l' : Loader) (hq : Quiet l) (ha : l.active = true) (hs : l.obj.state = .waitingForBlocks)
    (ht : InTime l.obj.timestamp es) (hr : ready ((blocksFrom l.peerID es).foldl Loading.put l.obj.queue) = false)
    (he : exec lib l es = .ok l') :
    ∃ r, l' = gathered l r (Chains.Spec.exec l.link (storeCalls es)) (blocksFrom l.peerID es) := by
  induction es generalizing l with
  | nil => cases he; exact ⟨_, rfl⟩
  | cons e es ih =>
    rw [Loading.exec] at he
    cases hst : Loading.step lib l e with
    | error x => rw [hst] at he; cases he
    | ok m =>
      rw [hst, go_bind_ok] at he
      have ht' : InTime l.obj.timestamp es := fun e h => ht e (List.mem_cons_of_mem _ h)
      obtain ⟨c, op⟩ := e
      cases op with
      | ids peer ids =>
        have hm : m = l := by
          simp only [Loading.step, handleIDs] at hst
          split at hst
          · cases hst; rfl
          · split at hst
            · cases hst; rfl
            · split at hst
              · cases hst; rfl
              · rw [fire_ids_other c l ids hq (by rw [hs]; simp)] at hst
                cases hst; rfl
        subst hm
        exact ih m hq ha hs ht' hr he
      | block peer b =>
        simp only [Loading.step, handleBlock, ha] at hst
        by_cases hp : peer = l.peerID
        · subst hp
          simp only [ne_eq, not_true_eq_false, if_false, Bool.true_eq_false] at hst
          cases b with
          | none =>
            have hr' : ready ((blocksFrom l.peerID es).foldl Loading.put l.obj.queue) = false := by
              simpa [blocksFrom] using hr
            have ho := fire_block c l none hq hs
            generalize fire c l (.block none) = r at ho hst
            have hnr := ready_fold_false _ hr'
            cases ho with
            | waiting h =>
              have hm : m = l := by cases hst; rfl
              subst hm
              have := ih m hq ha hs ht' hr' he
              simpa [blocksFrom, storeCalls] using this
            | failed h => simp only [putOpt] at h; rw [hnr] at h; cases h
            | complete h => simp only [putOpt] at h; rw [hnr] at h; cases h
          | some b =>
            have hb : blocksFrom l.peerID (⟨c, .block l.peerID (some b)⟩ :: es) = b :: blocksFrom l.peerID es := by
              simp [blocksFrom]
            rw [hb] at hr ⊢
            rw [List.foldl_cons] at hr
            have ho := fire_block c l (some b) hq hs
            generalize fire c l (.block (some b)) = r at ho hst
            have hnr := ready_fold_false _ hr
            cases ho with
            | waiting h =>
              have hm : m = { l with obj := { l.obj with queue := Loading.put l.obj.queue b } } := by cases hst; rfl
              subst hm
              exact ih { l with obj := { l.obj with queue := Loading.put l.obj.queue b } } hq ha hs ht' hr he
            | failed h => simp only [putOpt] at h; rw [hnr] at h; cases h
            | complete h => simp only [putOpt] at h; rw [hnr] at h; cases h
        · simp only [ne_eq, hp, not_false_eq_true, if_true, Bool.true_eq_false, if_false] at hst
          cases hst
          have hb : blocksFrom l.peerID (⟨c, .block peer b⟩ :: es) = blocksFrom l.peerID es := by
            simp [blocksFrom, hp]
          rw [hb] at hr ⊢
          exact ih l hq ha hs ht' hr he
      | tick =>
        have h30 := ht ⟨c, .tick⟩ List.mem_cons_self rfl
        simp only [Loading.step, tick, ha, if_true] at hst
        rw [fire_tick c l c.now hq (Or.inr hs), if_neg (by unfold timeoutDuration; simpa using h30)] at hst
        cases hst
        exact ih l hq ha hs ht' hr he
      | timer =>
        simp only [Loading.step, sync, ha, if_true] at hst
        cases hst
        exact ih l hq ha hs ht' hr he
      | putBlock b a f1 f2 =>
        have hm : m = { l with link := (Chains.Spec.step l.link (.putBlock b a f1 f2)).1 } := by
          simp only [Loading.step] at hst
          unfold Loading.others at hst
          split at hst
          · cases hst
          · cases hst; rfl
        subst hm
        exact ih { l with link := (Chains.Spec.step l.link (.putBlock b a f1 f2)).1 } hq ha hs ht' hr he
      | putMicro inv a f1 f2 =>
        have hm : m = { l with link := (Chains.Spec.step l.link (.putMicro inv a f1 f2)).1 } := by
          simp only [Loading.step] at hst
          unfold Loading.others at hst
          split at hst
          · cases hst
          · cases hst; rfl
        subst hm
        exact ih { l with link := (Chains.Spec.step l.link (.putMicro inv a f1 f2)).1 } hq ha hs ht' hr he
      | registry ev =>
        simp only [Loading.step] at hst
        cases hst
        exact ih { l with reg := Peers.step lib l.reg ev } hq ha hs ht' hr he

theorem answer_queue {ids : List BlockID} (h : ids.Nodup) {arrived bs : List ProtoBlock} (ha : Answer ids arrived bs) :
    (arrived.foldl Loading.put (newQueue ids)).map (·.received) = bs.map some := by
  rw [fold_newQueue ids h, ← ha.1, List.map_map, List.map_map]
  exact List.map_congr_left (fun b hb => ha.2 b hb)

theorem answer_ready {ids : List BlockID} (h : ids.Nodup) {arrived bs : List ProtoBlock} (ha : Answer ids arrived bs) :
    ready (arrived.foldl Loading.put (newQueue ids)) = true := by
  rw [fold_newQueue ids h, ← ha.1]
  unfold ready
  rw [List.all_eq_true]
  intro it hit
  rw [List.map_map] at hit
  obtain ⟨b, hb, rfl⟩ := List.mem_map.mp hit
  have : lastWith b.id arrived = some b := ha.2 b hb
  simp [Item.filled, this]

theorem missing_not_ready {ids : List BlockID} {arrived : List ProtoBlock} {x : BlockID} (hx : x ∈ ids)
    (hm : ∀ b, b ∈ arrived → b.id ≠ x) : ready (arrived.foldl Loading.put (newQueue ids)) = false := by
  cases hr : ready (arrived.foldl Loading.put (newQueue ids)) with
  | false => rfl
  | true =>
    exfalso
    have key : ∀ (bs : List ProtoBlock) (q : List Item), (∀ b, b ∈ bs → b.id ≠ x) → (∃ it, it ∈ q ∧ it.requested = x ∧ it.received = none) →
        ∃ it, it ∈ bs.foldl Loading.put q ∧ it.requested = x ∧ it.received = none := by
      intro bs
      induction bs with
      | nil => intro q _ h; exact h
      | cons b bs ih =>
        intro q hb hq
        refine ih _ (fun b' h => hb b' (List.mem_cons_of_mem _ h)) ?_
        have hbx := hb b List.mem_cons_self
        obtain ⟨it, hit, h1, h2⟩ := hq
        refine ⟨it, ?_, h1, h2⟩
        clear ih hr hm
        induction q with
        | nil => cases hit
        | cons it' q ihq =>
          rw [Loading.put]
          rcases List.mem_cons.mp hit with rfl | hit
          · rw [if_neg (by rw [h1]; exact fun e => hbx e.symm)]
            exact List.mem_cons_self
          · split
            · exact List.mem_cons_of_mem _ hit
            · exact List.mem_cons_of_mem _ (ihq hit)
    obtain ⟨it, hit, _, h2⟩ := key arrived (newQueue ids) hm
      ⟨⟨x, none⟩, List.mem_map.mpr ⟨x, hx, rfl⟩, rfl, rfl⟩
    unfold ready at hr
    rw [List.all_eq_true] at hr
    have := hr it hit
    simp [Item.filled, h2] at this

/-! ### the last common block -/

theorem bestLoop_no_err (db : Chains.DB) (m : List (BlockID × List Addr)) (s : Chains.Best)
    (h : ∀ k v, (k, v) ∈ m → Chains.BlockOf db k = goPanic ∨ ∃ b, Chains.BlockOf db k = .ok b) :
    Chains.bestLoop db s m = goPanic ∨ ∃ s', Chains.bestLoop db s m = .ok s' := by
  induction m generalizing s with
  | nil => exact Or.inr ⟨s, rfl⟩
  | cons x m ih =>
    obtain ⟨k, v⟩ := x
    rw [Chains.bestLoop]
    rcases h k v List.mem_cons_self with hb | ⟨b, hb⟩
    · rw [hb]; exact Or.inl rfl
    · rw [hb, go_bind_ok]
      exact ih _ (fun k v hm => h k v (List.mem_cons_of_mem _ hm))

/-- `LCB` for an IPv4 peer gives a stored block or panics -/
theorem Serving.lcb {lk : Linkage} (S : Serving g n lk) (env : Env) (b : Chains.BytesN 4) :
    LCB env lk (.v4 b) = goPanic ∨ ∃ c, LCB env lk (.v4 b) = .ok c ∧ Stored lk.db c := by
  obtain ⟨ns, hs, R, _⟩ := Chains.reachable_rep S.reachable
  have hleash : ∀ a id, getLeash lk.db a = .ok id → Stored lk.db id := by
    intro a id h
    obtain ⟨l0, ops, hf, hd, hr, hb, rfl⟩ := S
    exact (Props.C09_no_dangling hf ops (by omega) hd a id h).1
  rcases (R.getLeash_cases (.v4 b)).symm with hg | ⟨head, hg⟩
  · exact Or.inr ⟨lk.genesis, by simp [LCB, hg, fail], by rw [S.genesis_eq]; exact S.genesis_stored⟩
  · obtain ⟨ls, hls, _, hmem⟩ := R.leashes
    have hin : { addr := .v4 b, blockID := head } ∈ ls := (hmem _ _).mpr ⟨trivial, rfl, hg⟩
    have hne : ls ≠ [] := by intro e; rw [e] at hin; cases hin
    have hblk : ∀ k v, (k, v) ∈ env.mapOrder (Chains.groupLeashes ls) →
        Chains.BlockOf lk.db k = goPanic ∨ ∃ b, Chains.BlockOf lk.db k = .ok b := by
      intro k v hm
      obtain ⟨hv, hvn⟩ := (Chains.mem_groupLeashes _ _ _).mp ((env.mapOrder_perm _).mem_iff.mp hm)
      rw [hv] at hvn
      have hk : Stored lk.db k := by
        obtain ⟨⟨a, i⟩, hmi, rfl⟩ := List.mem_map.mp (Chains.peersOn_ne_nil.mp hvn)
        exact hleash a i ((hmem a i).mp hmi).2.2
      obtain ⟨m, hm⟩ := R.stored_iff.mp hk
      obtain ⟨x, hx, _⟩ := Chains.numOf_some hm
      rw [R.BlockOf_eq hm hx]
      obtain ⟨i, par, _, _, _, e⟩ := R.blockOfRec hx
      rw [e]
      split
      · exact Or.inr ⟨_, rfl⟩
      · exact Or.inl rfl
    unfold LCB
    rw [hg]
    simp only
    rw [hls, go_bind_ok]
    rcases bestLoop_no_err lk.db _ Chains.Best.init hblk with h | ⟨s, h⟩
    · rw [h]; exact Or.inl rfl
    · rw [h, go_bind_ok]
      split
      · exact Or.inr ⟨head, rfl, hleash _ _ hg⟩
      · obtain ⟨_, bb, hbb⟩ := R.best_isBest hne h
        obtain ⟨n1, hn1⟩ := R.stored_iff.mp (R.BlockOf_ok hbb).2.1
        obtain ⟨n2, hn2⟩ := R.stored_iff.mp (hleash _ _ hg)
        obtain ⟨c, cid, hc, _, e⟩ := R.lca_nums hn1 hn2
        rw [e]
        by_cases hp : Chains.LcaPanics (Chains.ht ns c) (min (Chains.ht ns n1) (Chains.ht ns n2) - Chains.ht ns c - 1)
        · rw [if_pos hp]; exact Or.inl rfl
        · rw [if_neg hp]; exact Or.inr ⟨cid, rfl, R.stored_iff.mpr ⟨c, hc⟩⟩

end Verif.Loading
