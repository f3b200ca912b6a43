import Verif.Loading.Run
import Verif.Peers.Queries
/-
What starts, ends and keeps a synchronisation: lemmas for `Props.Sync`.
-/

set_option autoImplicit false

namespace Verif.Loading

open Verif
open Verif.Chains (Addr BlockID ProtoBlock Linkage Env LeashOf LCB PutBlock LeashScore)
open Verif.Chains.Spec (Stored)
open Verif.Peers (Peer Registry Lib Conn)
open Verif.KV (Fate)

variable {lib : Lib} {g : ProtoBlock} {n : Nat}

theorem of_takeWhile {α : Type} {p : α → Bool} {q : List α} {x : α} (h : x ∈ q.takeWhile p) : p x = true := by
  induction q with
  | nil => cases h
  | cons y q ih =>
    by_cases hy : p y = true
    · rw [List.takeWhile_cons_of_pos hy] at h
      rcases List.mem_cons.mp h with rfl | h
      · exact hy
      · exact ih h
    · rw [List.takeWhile_cons_of_neg hy] at h; cases h

/-! ### blocks that are stored already -/

theorem put_known {lk : Linkage} (S : Serving g n lk) (b : ProtoBlock) (peer : Addr) (h : Stored lk.db b.id) :
    (PutBlock .ok .ok lk.db b peer).2 = .ok () := by
  obtain ⟨ns, hs, R, _⟩ := Chains.reachable_rep S.reachable
  obtain ⟨k, hk⟩ := R.stored_iff.mp h
  rw [R.PutBlock_known hk]
  obtain ⟨_, hw⟩ := move_cases S .ok b.id peer
  rcases hw with ⟨hw, _⟩ | ⟨hw, _⟩
  · exact hw
  · exact absurd rfl hw

theorem applyAll_known (c : Ctx) (peer : Addr) (i : Nat) (hf : ∀ j, c.fates j = .ok) (q : List Item) {lk : Linkage}
    (S : Serving g (n + q.length) lk) (h : ∀ it, it ∈ q → ∃ b, it.received = some b ∧ Stored lk.db b.id) :
    ∃ lk', applyAll c peer i lk q = (lk', .ok ()) := by
  induction q generalizing i lk with
  | nil => exact ⟨lk, rfl⟩
  | cons it q ih =>
    have S : Serving g ((n + q.length) + 1) lk := S
    obtain ⟨b, hb, hst⟩ := h it (List.mem_cons_self ..)
    rw [applyAll, hb]
    simp only [hf]
    have hp := put_known S b peer hst
    rw [hp]
    exact ih (i + 1) (S.put b peer .ok .ok) (fun it' hit' => by
      obtain ⟨b', hb', hst'⟩ := h it' (List.mem_cons_of_mem _ hit')
      exact ⟨b', hb', put_kept S b peer .ok .ok _ hst'⟩)

/-! ### lagging peers -/

theorem lagging_iff {r : Registry} (I : Peers.Inv r) {lk : Linkage} (S : Serving g n lk) {b : Chains.BytesN 4} {v : Peers.Value}
    (hv : Peers.view r.db b = some v) (cn : Option Conn) :
    lagging lk { v.toPeer (.v4 b) with conn := cn } = true ↔ Lags r lk (.v4 b) := by
  obtain ⟨leash, hl, _⟩ := S.leash (.v4 b)
  obtain ⟨score, hsc, hso⟩ := leashScore_of S (.v4 b) leash hl
  have hp : Peers.PeerOf r (.v4 b) = .ok (v.toPeer (.v4 b)) := I.peerOf.mpr ⟨v, hv, rfl⟩
  have ha : ({ v.toPeer (.v4 b) with conn := cn } : Peer).addr = .v4 b := rfl
  unfold lagging
  rw [ha, hsc]
  have hs : ({ v.toPeer (.v4 b) with conn := cn } : Peer).score = v.score := rfl
  rw [hs]
  constructor
  · intro h
    cases hvs : v.score with
    | none => rw [hvs] at h; cases h
    | some s =>
      rw [hvs] at h
      exact ⟨s, leash, score, ⟨_, hp, hvs⟩, ⟨hl, hso⟩, by simpa using h⟩
  · rintro ⟨s, leash', score', ⟨p, hp', hps⟩, hol, hgt⟩
    rw [hp] at hp'; cases hp'
    have hps : v.score = some s := hps
    rw [hps]
    obtain ⟨_, rfl⟩ := OnLeash.unique hol ⟨hl, hso⟩
    simpa using hgt

/-! ### the start of a synchronisation -/

/-- an event that starts a synchronisation -/
theorem started {l l' : Loader} {e : Event} (R : Reachable lib l) (hn : l.active = false) (h : step lib l e = .ok l')
    (ha : l'.active = true) : e.op = .timer ∧ ∃ ps p, Peers.Connections lib e.ctx.env l.reg = .ok ps ∧ p ∈ ps ∧
      lagging l.link p = true ∧ l'.obj.peer = p ∧ l'.link = l.link ∧ l'.reg = l.reg ∧ l'.prevDiff = l.prevDiff ∧
      ((count l.fc p.addr < 10 ∧ logged (requestIDs e.ctx (enter (chosen l p) .waitingForIDs)) = .ok l' ∧ l'.fc = l.fc) ∨
       (count l.fc p.addr ≥ 10 ∧
        logged (requestIDsFromLCA e.ctx (enter { chosen l p with fc := reset l.fc p.addr } .waitingForIDs)) = .ok l' ∧
        l'.fc = reset l.fc p.addr)) := by
  obtain ⟨c, op⟩ := e
  have no : ∀ {x : Loader}, x.active = l.active → x = l' → False := by
    intro x h1 h2; rw [← h2, h1, hn] at ha; cases ha
  cases op with
  | ids peer ids =>
    simp only [Loading.step, handleIDs, hn, if_true] at h
    cases h; rw [hn] at ha; cases ha
  | block peer b =>
    simp only [Loading.step, handleBlock, hn, if_true] at h
    cases h; rw [hn] at ha; cases ha
  | tick =>
    simp only [Loading.step, tick, hn, Bool.false_eq_true, if_false] at h
    cases h; rw [hn] at ha; cases ha
  | putBlock b a f1 f2 =>
    have := (R.inv.others h).2
    rw [this] at ha; exact (no (x := l') (by rw [this]) rfl).elim
  | putMicro b a f1 f2 =>
    have := (R.inv.others h).2
    rw [this] at ha; exact (no (x := l') (by rw [this]) rfl).elim
  | registry ev =>
    simp only [Loading.step] at h
    cases h
    rw [hn] at ha; cases ha
  | timer =>
    refine ⟨rfl, ?_⟩
    simp only [Loading.step] at h
    have ho := sync_outcome lib c l
    rw [h] at ho
    generalize hr : (Except.ok l' : Go Loader) = r at ho
    cases ho with
    | busy hb => rw [hn] at hb; cases hb
    | unlisted _ _ _ => cases hr; rw [hn] at ha; cases ha
    | panic _ _ => cases hr
    | nobody _ _ _ _ => cases hr; rw [hn] at ha; cases ha
    | start _ ps hc p hp hl hk =>
      have hr' : logged (requestIDs c (enter (chosen l p) .waitingForIDs)) = .ok l' := hr.symm
      obtain ⟨he, _⟩ := logged_ok hr'
      refine ⟨ps, p, hc, hp, hl, ?_, ?_, ?_, ?_, Or.inl ⟨hk, rfl, ?_⟩⟩ <;>
        (rcases requestIDs_cases c (enter (chosen l p) .waitingForIDs) with ⟨e, h'⟩ | ⟨_, _, _, _, _, _, _, h'⟩ <;>
          (rw [h'] at he; rw [he]; rfl))
    | restart _ ps hc p hp hl hk =>
      have hr' : logged (requestIDsFromLCA c (enter { chosen l p with fc := reset l.fc p.addr } .waitingForIDs)) = .ok l' :=
        hr.symm
      obtain ⟨he, _⟩ := logged_ok hr'
      refine ⟨ps, p, hc, hp, hl, ?_, ?_, ?_, ?_, Or.inr ⟨hk, rfl, ?_⟩⟩ <;>
        (rcases requestIDsFromLCA_cases c (enter { chosen l p with fc := reset l.fc p.addr } .waitingForIDs) with
            ⟨e, h'⟩ | ⟨_, _, _, _, _, _, _, h'⟩ <;>
          (rw [h'] at he; rw [he]; rfl))

/-! ### a resting loader -/

/-- nothing but the store and the registry changes -/
structure Frozen (l l' : Loader) : Prop where
  active : l'.active = true
  obj : l'.obj = l.obj
  fc : l'.fc = l.fc
  out : l'.out = l.out
  prevDiff : l'.prevDiff = l.prevDiff

theorem frozen_step {l l' : Loader} {e : Event} (I : Inv lib l) (ha : l.active = true)
    (hs : l.obj.state = .done ∨ l.obj.state = .idle) (h : step lib l e = .ok l') : Frozen l l' := by
  obtain ⟨c, op⟩ := e
  have self : Frozen l l := ⟨ha, rfl, rfl, rfl, rfl⟩
  have h1 : l.obj.state ≠ .waitingForIDs := by rcases hs with hs | hs <;> rw [hs] <;> simp
  have h2 : l.obj.state ≠ .waitingForBlocks := by rcases hs with hs | hs <;> rw [hs] <;> simp
  cases op with
  | ids peer ids =>
    simp only [Loading.step, handleIDs] at h
    rw [fire_ids_other c l ids I.quiet h1] at h
    split at h
    · cases h; exact self
    · split at h
      · cases h; exact self
      · split at h
        · cases h; exact self
        · cases h; exact self
  | block peer b =>
    simp only [Loading.step, handleBlock] at h
    rw [fire_block_other c l b I.quiet h2] at h
    split at h
    · cases h; exact self
    · split at h
      · cases h; exact self
      · cases h; exact self
  | tick =>
    simp only [Loading.step, tick, ha, if_true] at h
    rw [fire_tick_resting c l c.now I.quiet (by rintro (h | h); exact h1 h; exact h2 h)] at h
    cases h; exact self
  | timer =>
    simp only [Loading.step, sync, ha, if_true] at h
    cases h; exact self
  | putBlock b a f1 f2 =>
    have := (I.others h).2
    subst this; exact ⟨ha, rfl, rfl, rfl, rfl⟩
  | putMicro b a f1 f2 =>
    have := (I.others h).2
    subst this; exact ⟨ha, rfl, rfl, rfl, rfl⟩
  | registry ev => simp only [Loading.step] at h; cases h; exact ⟨ha, rfl, rfl, rfl, rfl⟩

theorem frozen_exec (es : List Event) {l l' : Loader} (I : Inv lib l) (ha : l.active = true)
    (hs : l.obj.state = .done ∨ l.obj.state = .idle) (h : exec lib l es = .ok l') : Frozen l l' := by
  induction es generalizing l with
  | nil => cases h; exact ⟨ha, rfl, rfl, rfl, rfl⟩
  | cons e es ih =>
    rw [Loading.exec] at h
    cases hst : Loading.step lib l e with
    | error x => rw [hst] at h; cases h
    | ok l1 =>
      rw [hst] at h
      have F := frozen_step I ha hs hst
      have G := ih (I.step hst) F.active (by rw [F.obj]; exact hs) h
      exact ⟨G.active, G.obj.trans F.obj, G.fc.trans F.fc, G.out.trans F.out, G.prevDiff.trans F.prevDiff⟩

/-! ### the failure counter -/

theorem count_reset (m : FailureCounter) (a b : Addr) : count (reset m a) b = if b = a then 0 else count m b :=
  count_setCount m a b 0

theorem count_inc (m : FailureCounter) (a b : Addr) : count (inc m a) b = if b = a then count m a + 1 else count m b :=
  count_setCount m a b _

theorem succeed_fc (c : Ctx) (l : Loader) (h : Quiet l) (ha : l.active = true) :
    (succeed c l).1.fc = reset l.fc l.peerID ∧ (succeed c l).1.obj.state ≠ .waitingForBlocks := by
  have ho := succeed_outcome c l h ha
  generalize succeed c l = r at ho
  cases ho with
  | again p ps score hp hps hsc lag changed =>
    rcases requestIDs_cases c { l with
        fc := reset l.fc l.peerID, prevDiff := some ((ps : Int) - score), ticking := true,
        obj := { l.obj with state := .waitingForIDs } } with ⟨e, he⟩ | ⟨_, _, cn, _, _, hc, _, he⟩
    · rw [he]; exact ⟨rfl, by simp⟩
    · rw [he]; unfold afterRequest; split <;> exact ⟨rfl, by simp⟩
  | release => exact ⟨rfl, by simp⟩
  | stuck => exact ⟨rfl, by simp⟩
  | panic => exact ⟨rfl, by simp⟩

/-- one event and the failures of one peer -/
theorem fc_step {l l' : Loader} {e : Event} (R : Reachable lib l) (h : step lib l e = .ok l') (a : Addr) :
    (Failed l e l' a → count l'.fc a = count l.fc a + 1) ∧
    (Succeeded l e l' a → count l'.fc a = 0) ∧
    (Restarted l l' a (count l.fc a) → count l'.fc a = 0) ∧
    (¬ Failed l e l' a → ¬ Succeeded l e l' a → ¬ Restarted l l' a (count l.fc a) → count l'.fc a = count l.fc a) := by
  have I := R.inv
  obtain ⟨c, op⟩ := e
  -- events of other kinds, and events that are ignored
  have same : ∀ {l'' : Loader}, l''.fc = l.fc → l''.active = l.active →
      (op = .tick → l'' = l) → (Succeeded l ⟨c, op⟩ l'' a → False) →
      (Failed l ⟨c, op⟩ l'' a → count l''.fc a = count l.fc a + 1) ∧
      (Succeeded l ⟨c, op⟩ l'' a → count l''.fc a = 0) ∧
      (Restarted l l'' a (count l.fc a) → count l''.fc a = 0) ∧
      (¬ Failed l ⟨c, op⟩ l'' a → ¬ Succeeded l ⟨c, op⟩ l'' a → ¬ Restarted l l'' a (count l.fc a) →
        count l''.fc a = count l.fc a) := by
    intro l'' h1 h2 h3 h4
    refine ⟨?_, fun s => (h4 s).elim, ?_, fun _ _ _ => by rw [h1]⟩
    · rintro ⟨_, hb, haf, _⟩
      rw [h2, hb] at haf; cases haf
    · rintro ⟨hb, haf, _, _⟩
      rw [h2, hb] at haf; cases haf
  cases op with
  | ids peer ids =>
    have hop : Op.ids peer ids ≠ .tick := by simp
    simp only [Loading.step, handleIDs] at h
    split at h
    · rename_i hn
      cases h
      exact same rfl rfl (fun _ => rfl) (fun s => by have := s.before; rw [hn] at this; cases this)
    · rename_i hn
      have ha : l.active = true := by simpa using hn
      split at h
      · rename_i hnil
        cases h
        refine same rfl rfl (fun _ => rfl) (fun s => ?_)
        rcases s.op with ⟨_, ids', hne, he⟩ | ⟨_, b, he⟩
        · cases he; exact hne hnil
        · cases he
      · split at h
        · rename_i hp
          cases h
          refine same rfl rfl (fun _ => rfl) (fun s => ?_)
          rcases s.op with ⟨_, ids', hne, he⟩ | ⟨_, b, he⟩
          · cases he; exact hp s.peer
          · cases he
        · rename_i hnil hp
          have hp : peer = l.peerID := by simpa using hp
          by_cases hs : l.obj.state = .waitingForIDs
          · obtain ⟨rfl, _⟩ := logged_ok h
            have ho := fire_ids c l ids I.quiet hs
            generalize fire c l (.ids ids) = r at ho
            cases ho with
            | failed lk e hr => exact same rfl rfl (fun h => absurd h hop) (fun s => s.after rfl)
            | known lk hr =>
              have hsf := succeed_fc c { enter l .waitingForBlocks with link := lk } I.quiet ha
              have hfc : (succeed c { enter l .waitingForBlocks with link := lk }).1.fc = reset l.fc l.peerID := hsf.1
              refine ⟨fun f => ?_, fun s => ?_, fun r => ?_, fun _ h2 _ => ?_⟩
              · cases f.op
              · rw [hfc, count_reset, if_pos s.peer]
              · have := r.before; rw [ha] at this; cases this
              · rw [hfc, count_reset, if_neg]
                rintro rfl
                exact h2 ⟨ha, rfl, Or.inl ⟨hs, ids, hnil, by rw [hp]⟩, hsf.2⟩
            | asked lk req cn hr hne hc => exact same rfl rfl (fun h => absurd h hop) (fun s => s.after rfl)
            | panic lk req hr hne hc => exact same rfl rfl (fun h => absurd h hop) (fun s => s.after rfl)
          · rw [fire_ids_other c l ids I.quiet hs] at h
            cases h
            refine same rfl rfl (fun _ => rfl) (fun s => ?_)
            rcases s.op with ⟨h1, _⟩ | ⟨_, b, he⟩
            · exact hs h1
            · cases he
  | block peer b =>
    have hop : Op.block peer b ≠ .tick := by simp
    simp only [Loading.step, handleBlock] at h
    split at h
    · rename_i hn
      cases h
      exact same rfl rfl (fun _ => rfl) (fun s => by have := s.before; rw [hn] at this; cases this)
    · rename_i hn
      have ha : l.active = true := by simpa using hn
      split at h
      · rename_i hp
        cases h
        refine same rfl rfl (fun _ => rfl) (fun s => ?_)
        rcases s.op with ⟨_, ids', hne, he⟩ | ⟨_, b, he⟩
        · cases he
        · cases he; exact hp s.peer
      · rename_i hp
        have hp : peer = l.peerID := by simpa using hp
        by_cases hs : l.obj.state = .waitingForBlocks
        · obtain ⟨rfl, _⟩ := logged_ok h
          have ho := fire_block c l b I.quiet hs
          generalize fire c l (.block b) = r at ho
          cases ho with
          | waiting hr => exact same rfl rfl (fun h => absurd h hop) (fun s => s.after hs)
          | failed hr lk e hap => exact same rfl rfl (fun h => absurd h hop) (fun s => s.after hs)
          | complete hr lk hap =>
            have hsf := succeed_fc c { l with link := lk, obj := { l.obj with queue := putOpt l.obj.queue b } } I.quiet ha
            have hfc : (succeed c { l with link := lk, obj := { l.obj with queue := putOpt l.obj.queue b } }).1.fc =
              reset l.fc l.peerID := hsf.1
            refine ⟨fun f => ?_, fun s => ?_, fun r => ?_, fun _ h2 _ => ?_⟩
            · cases f.op
            · rw [hfc, count_reset, if_pos s.peer]
            · have := r.before; rw [ha] at this; cases this
            · rw [hfc, count_reset, if_neg]
              rintro rfl
              exact h2 ⟨ha, rfl, Or.inr ⟨hs, b, by rw [hp]⟩, hsf.2⟩
        · rw [fire_block_other c l b I.quiet hs] at h
          cases h
          refine same rfl rfl (fun _ => rfl) (fun s => ?_)
          rcases s.op with ⟨_, _, _, he⟩ | ⟨h1, _⟩
          · cases he
          · exact hs h1
  | tick =>
    have nosucc : ∀ l'', Succeeded l ⟨c, .tick⟩ l'' a → False := by
      intro l'' s
      rcases s.op with ⟨_, _, _, he⟩ | ⟨_, _, he⟩ <;> cases he
    simp only [Loading.step, tick] at h
    split at h
    · rename_i ha
      by_cases hw : Waiting l
      · rw [fire_tick c l c.now I.quiet hw] at h
        split at h
        · rcases handleFailure_cases c (enter l .done) ha rfl with ⟨lk, e, _, he⟩ | ⟨lk, _, he⟩
          · rw [he] at h
            obtain ⟨rfl, _⟩ := logged_ok h
            refine ⟨fun f => ?_, fun s => (nosucc _ s).elim, fun r => ?_, fun _ _ _ => rfl⟩
            · have := f.after
              have hx : l.active = false := this
              rw [ha] at hx; cases hx
            · have := r.before; rw [ha] at this; cases this
          · rw [he] at h
            cases h
            have hfc : count (inc (enter l .done).fc (enter l .done).peerID) a =
                if a = l.peerID then count l.fc l.peerID + 1 else count l.fc a := count_inc _ _ _
            refine ⟨fun f => ?_, fun s => (nosucc _ s).elim, fun r => ?_, fun h1 _ _ => ?_⟩
            · rw [hfc, if_pos f.peer, f.peer]
            · have := r.before; rw [ha] at this; cases this
            · rw [hfc, if_neg]
              rintro rfl
              exact h1 ⟨rfl, ha, rfl, rfl⟩
        · cases h; exact same rfl rfl (fun _ => rfl) (nosucc _)
      · rw [fire_tick_resting c l c.now I.quiet hw] at h
        cases h; exact same rfl rfl (fun _ => rfl) (nosucc _)
    · cases h; exact same rfl rfl (fun _ => rfl) (nosucc _)
  | timer =>
    have nosucc : ∀ l'', Succeeded l ⟨c, .timer⟩ l'' a → False := by
      intro l'' s
      rcases s.op with ⟨_, _, _, he⟩ | ⟨_, _, he⟩ <;> cases he
    cases ha : l.active with
    | true =>
      simp only [Loading.step, sync, ha, if_true] at h
      cases h; exact same rfl rfl (fun _ => rfl) (nosucc _)
    | false =>
      cases ha' : l'.active with
      | false =>
        have hfc : l'.fc = l.fc := by
          simp only [Loading.step] at h
          have ho := sync_outcome lib c l
          rw [h] at ho
          generalize hr : (Except.ok l' : Go Loader) = r at ho
          cases ho with
          | busy _ => cases hr; rfl
          | unlisted _ _ _ => cases hr; rfl
          | panic _ _ => cases hr
          | nobody _ _ _ _ => cases hr; rfl
          | start _ ps hc p hp hl hk =>
            obtain ⟨he, _⟩ := logged_ok (show logged (requestIDs c (enter (chosen l p) .waitingForIDs)) = .ok l' from hr.symm)
            rcases requestIDs_cases c (enter (chosen l p) .waitingForIDs) with ⟨e, h'⟩ | ⟨_, _, _, _, _, _, _, h'⟩ <;>
              (rw [h'] at he; rw [he]; rfl)
          | restart _ ps hc p hp hl hk =>
            exfalso
            obtain ⟨he, _⟩ := logged_ok hr.symm
            rcases requestIDsFromLCA_cases c (enter { chosen l p with fc := reset l.fc p.addr } .waitingForIDs) with
              ⟨e, h'⟩ | ⟨_, _, _, _, _, _, _, h'⟩ <;>
              (rw [h'] at he; rw [he] at ha'; cases ha')
        exact same hfc (by rw [ha, ha']) (fun h => by cases h) (nosucc _)
      | true =>
        obtain ⟨_, ps, p, hc, hp, hl, hpe, _, _, _, hor⟩ := started R ha h ha'
        have hid : l'.peerID = p.addr := by unfold Loader.peerID; rw [hpe]
        refine ⟨fun f => ?_, fun s => (nosucc _ s).elim, fun r => ?_, fun _ _ h3 => ?_⟩
        · have := f.before; rw [ha] at this; cases this
        · rcases hor with ⟨hk, _⟩ | ⟨_, _, hfc⟩
          · have := r.many; rw [r.peer, hid] at this; omega
          · rw [hfc, count_reset, if_pos (r.peer.trans hid)]
        · rcases hor with ⟨_, _, hfc⟩ | ⟨hk, _, hfc⟩
          · rw [hfc]
          · rw [hfc, count_reset, if_neg]
            rintro rfl
            exact h3 ⟨ha, ha', hid.symm, hk⟩
  | putBlock b x f1 f2 =>
    have := (I.others h).2
    subst this
    exact same rfl rfl (fun h => by cases h) (fun s => by rcases s.op with ⟨_, _, _, he⟩ | ⟨_, _, he⟩ <;> cases he)
  | putMicro b x f1 f2 =>
    have := (I.others h).2
    subst this
    exact same rfl rfl (fun h => by cases h) (fun s => by rcases s.op with ⟨_, _, _, he⟩ | ⟨_, _, he⟩ <;> cases he)
  | registry ev =>
    simp only [Loading.step] at h
    cases h
    exact same rfl rfl (fun h => by cases h) (fun s => by rcases s.op with ⟨_, _, _, he⟩ | ⟨_, _, he⟩ <;> cases he)

theorem Reachable.step {l l' : Loader} (R : Reachable lib l) (e : Event) (h : Loading.step lib l e = .ok l') : Reachable lib l' := by
  obtain ⟨reg, lk, es, hr, he⟩ := R
  exact ⟨reg, lk, es ++ [e], hr, by rw [exec_append, he]; simp [Loading.exec, h]⟩

theorem Streak.reachable {a : Addr} {l : Loader} {k : Nat} (h : Streak lib a l k) : Reachable lib l := by
  induction h with
  | start hr => exact ⟨_, _, [], hr, rfl⟩
  | failed h e hs o ih => exact ih.step e hs
  | succeeded h e hs o ih => exact ih.step e hs
  | restarted h e hs o ih => exact ih.step e hs
  | other h e hs _ _ _ ih => exact ih.step e hs

/-! ### a completed batch -/

theorem completes_succeed {l : Loader} {op : Op} (I : Inv lib l) (ha : l.active = true)
    (S : Serving g (n + l.obj.queue.length) l.link) (c : Ctx) (hf : ∀ j, c.fates j = .ok) (h : Completes l op) :
    ∃ lk q, step lib l ⟨c, op⟩ = logged (succeed c { l with
        link := lk, obj := { l.obj with state := .waitingForBlocks, queue := q } }) ∧
      Serving g n lk ∧ Matching q := by
  cases h with
  | ids hs ids hne hk =>
    obtain ⟨leash, hl, _⟩ := S.leash l.peerID
    obtain ⟨lk, h1, h2, h3, h4⟩ := requestLoop_ok c l.peerID (S.mono (n := n) (by omega)) ids [] leash hl hf hk
      (by intro y hy; cases hy)
    rw [List.append_nil] at h1
    refine ⟨lk, l.obj.queue, ?_, h2, I.matching⟩
    simp only [step, handleIDs, ha, hne, Bool.true_eq_false, if_false, ne_eq, not_true_eq_false]
    have ho := fire_ids c l ids I.quiet hs
    generalize fire c l (.ids ids) = r at ho
    have h1' : requestLoop c (enter l .waitingForBlocks).peerID 0 (enter l .waitingForBlocks).link ids = (lk, .ok []) := h1
    cases ho with
    | failed lk' e h => rw [h1'] at h; cases h
    | known lk' h => rw [h1'] at h; cases h; simp [enter, ha]
    | asked lk' req cn' h hne hc => rw [h1'] at h; cases h; exact absurd rfl hne
    | panic lk' req h hne hc => rw [h1'] at h; cases h; exact absurd rfl hne
  | block hs ids hnd arrived hq b bs hb hc =>
    have hqq : putOpt l.obj.queue (some b) = (arrived ++ [b]).foldl Loading.put (newQueue ids) := by
      rw [List.foldl_append, hq]; rfl
    have hlen : bs.length = l.obj.queue.length := by
      have h1 := congrArg List.length (answer_queue hnd hb)
      rw [← hqq, List.length_map, List.length_map, putOpt_length] at h1
      exact h1.symm
    obtain ⟨lk, a1, a2, a3⟩ := applyAll_chained c l.peerID 0 hf _ bs (answer_queue hnd hb) (hlen ▸ S) hc
    refine ⟨lk, (arrived ++ [b]).foldl Loading.put (newQueue ids), ?_, a2, (Matching.newQueue ids).fold _⟩
    simp only [step, handleBlock, ha, Bool.true_eq_false, if_false, ne_eq, not_true_eq_false]
    have ho := fire_block c l (some b) I.quiet hs
    generalize fire c l (.block (some b)) = r at ho
    cases ho with
    | waiting h => rw [hqq, answer_ready hnd hb] at h; cases h
    | failed h lk' e h' => rw [hqq] at h'; have := a1.symm.trans h'; cases this
    | complete h lk' h' =>
      rw [hqq] at h' ⊢
      have := a1.symm.trans h'
      cases this
      simp only [hs, ha]

/-- the remembered difference only changes when a batch succeeds -/
theorem prevDiff_step {l l' : Loader} {e : Event} (R : Reachable lib l) (h : step lib l e = .ok l')
    (hn : ¬ Succeeded l e l' l.peerID) : l'.prevDiff = l.prevDiff := by
  have I := R.inv
  obtain ⟨c, op⟩ := e
  cases op with
  | ids peer ids =>
    simp only [Loading.step, handleIDs] at h
    split at h
    · cases h; rfl
    · rename_i ha
      have ha : l.active = true := by simpa using ha
      split at h
      · cases h; rfl
      · rename_i hne
        split at h
        · cases h; rfl
        · rename_i hp
          have hp : peer = l.peerID := by simpa using hp
          by_cases hs : l.obj.state = .waitingForIDs
          · obtain ⟨rfl, _⟩ := logged_ok h
            have ho := fire_ids c l ids I.quiet hs
            generalize fire c l (.ids ids) = r at ho hn
            cases ho with
            | failed lk e hr => rfl
            | known lk hr =>
              exact absurd ⟨ha, rfl, Or.inl ⟨hs, ids, hne, by rw [hp]⟩,
                (succeed_fc c { enter l .waitingForBlocks with link := lk } I.quiet ha).2⟩ hn
            | asked lk req cn hr hne hc => rfl
            | panic lk req hr hne hc => rfl
          · rw [fire_ids_other c l ids I.quiet hs] at h; cases h; rfl
  | block peer b =>
    simp only [Loading.step, handleBlock] at h
    split at h
    · cases h; rfl
    · rename_i ha
      have ha : l.active = true := by simpa using ha
      split at h
      · cases h; rfl
      · rename_i hp
        have hp : peer = l.peerID := by simpa using hp
        by_cases hs : l.obj.state = .waitingForBlocks
        · obtain ⟨rfl, _⟩ := logged_ok h
          have ho := fire_block c l b I.quiet hs
          generalize fire c l (.block b) = r at ho hn
          cases ho with
          | waiting hr => rfl
          | failed hr lk e hap => rfl
          | complete hr lk hap =>
            exact absurd ⟨ha, rfl, Or.inr ⟨hs, b, by rw [hp]⟩,
              (succeed_fc c { l with link := lk, obj := { l.obj with queue := putOpt l.obj.queue b } } I.quiet ha).2⟩ hn
        · rw [fire_block_other c l b I.quiet hs] at h; cases h; rfl
  | tick =>
    simp only [Loading.step, tick] at h
    split at h
    · rename_i ha
      by_cases hw : Waiting l
      · rw [fire_tick c l c.now I.quiet hw] at h
        split at h
        · rcases handleFailure_cases c (enter l .done) ha rfl with ⟨lk, e, _, he⟩ | ⟨lk, _, he⟩ <;> rw [he] at h
          · obtain ⟨rfl, _⟩ := logged_ok h; rfl
          · cases h; rfl
        · cases h; rfl
      · rw [fire_tick_resting c l c.now I.quiet hw] at h; cases h; rfl
    · cases h; rfl
  | timer =>
    simp only [Loading.step] at h
    have ho := sync_outcome lib c l
    rw [h] at ho
    generalize hr : (Except.ok l' : Go Loader) = r at ho
    cases ho with
    | busy _ => cases hr; rfl
    | unlisted _ _ _ => cases hr; rfl
    | panic _ _ => cases hr
    | nobody _ _ _ _ => cases hr; rfl
    | start _ ps hc p hp hl hk =>
      obtain ⟨he, _⟩ := logged_ok (show logged (requestIDs c (enter (chosen l p) .waitingForIDs)) = .ok l' from hr.symm)
      rcases requestIDs_cases c (enter (chosen l p) .waitingForIDs) with ⟨e, h'⟩ | ⟨_, _, _, _, _, _, _, h'⟩ <;>
        (rw [h'] at he; rw [he]; rfl)
    | restart _ ps hc p hp hl hk =>
      obtain ⟨he, _⟩ := logged_ok hr.symm
      rcases requestIDsFromLCA_cases c (enter { chosen l p with fc := reset l.fc p.addr } .waitingForIDs) with
        ⟨e, h'⟩ | ⟨_, _, _, _, _, _, _, h'⟩ <;>
        (rw [h'] at he; rw [he]; rfl)
  | putBlock b x f1 f2 => have := (I.others h).2; subst this; rfl
  | putMicro b x f1 f2 => have := (I.others h).2; subst this; rfl
  | registry ev => simp only [Loading.step] at h; cases h; rfl

end Verif.Loading
