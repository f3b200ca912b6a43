import Verif.Loading.Run
import Verif.Chains.Origin
/-
The calls on the store that one event of the loader makes, and where their
arguments come from.
-/

set_option autoImplicit false

namespace Verif.Loading

open Verif
open Verif.Chains (Addr BlockID ProtoBlock MicroInv Linkage PutBlock MoveLeash HasBlock LeashOf)
open Verif.Peers (Lib)
open Verif.KV (Fate)

variable {lib : Lib}

/-- what is known about the ids, the blocks and the announcements that peers sent -/
structure Source where
  ids : Addr → BlockID → Prop
  blocks : Addr → ProtoBlock → Prop
  micros : Addr → MicroInv → Prop

/-- the arguments of a call on the store come from the source -/
def Source.Call (s : Source) : Chains.Spec.Op → Prop
  | .putBlock b a _ _ => s.blocks a b
  | .putMicro inv a _ _ => s.micros a inv
  | .moveLeash id a _ => s.ids a id
  | .reopen _ _ => False

/-- the blocks in the queue come from the source -/
def Source.Queue (s : Source) (l : Loader) : Prop := ∀ it, it ∈ l.obj.queue → ∀ b, it.received = some b → s.blocks l.peerID b

/-- what the event carries comes from the source -/
def Source.Event (s : Source) : Op → Prop
  | .ids a ids => ∀ id, id ∈ ids → s.ids a id
  | .block a b => ∀ x, b = some x → s.blocks a x
  | .putBlock b a _ _ => s.blocks a b
  | .putMicro inv a _ _ => s.micros a inv
  | _ => True

/-- the store after some calls with arguments from the source, at most `k` of which may insert a block -/
def Source.Calls (s : Source) (k : Nat) (lk lk' : Linkage) : Prop :=
  ∃ ops, lk' = Chains.Spec.exec lk ops ∧ Chains.Spec.inserts ops ≤ k ∧ ∀ o, o ∈ ops → s.Call o

variable {s : Source}

theorem Source.Calls.refl (k : Nat) (lk : Linkage) : s.Calls k lk lk := ⟨[], rfl, Nat.zero_le _, fun _ h => by cases h⟩

theorem Source.Calls.of_eq {k : Nat} {lk lk' : Linkage} (h : lk' = lk) : s.Calls k lk lk' := by rw [h]; exact .refl k lk

theorem Source.Calls.cons {k : Nat} {lk lk' : Linkage} (o : Chains.Spec.Op) (ho : s.Call o)
    (h : s.Calls k (Chains.Spec.step lk o).1 lk') : s.Calls (k + Chains.Spec.inserts [o]) lk lk' := by
  obtain ⟨ops, rfl, hi, hc⟩ := h
  refine ⟨o :: ops, rfl, ?_, ?_⟩
  · rw [Chains.inserts_cons]; omega
  · intro o' ho'
    rcases List.mem_cons.mp ho' with rfl | h
    · exact ho
    · exact hc o' h

theorem requestLoop_calls (c : Ctx) (peer : Addr) (i : Nat) (lk : Linkage) (ids : List BlockID) (h : ∀ id, id ∈ ids → s.ids peer id) :
    s.Calls 0 lk (requestLoop c peer i lk ids).1 := by
  induction ids generalizing i lk with
  | nil => exact .refl _ _
  | cons id ids ih =>
    have ih := fun i lk => ih i lk (fun x hx => h x (List.mem_cons_of_mem _ hx))
    rw [requestLoop]
    cases HasBlock lk.db id with
    | error e => exact .refl _ _
    | ok b =>
      cases b with
      | false => exact .refl _ _
      | true =>
        simp only
        cases LeashOf lk peer with
        | error e => exact .refl _ _
        | ok leash =>
          simp only
          by_cases hne : id ≠ leash
          · rw [if_pos hne]
            cases hw : (MoveLeash (c.fates i) lk.db id peer).2 with
            | error e =>
              exact .cons (k := 0) (.moveLeash id peer (c.fates i)) (h id List.mem_cons_self) (.refl _ _)
            | ok u =>
              exact .cons (k := 0) (.moveLeash id peer (c.fates i)) (h id List.mem_cons_self) (ih _ _)
          · rw [if_neg hne]; exact ih _ _

theorem applyAll_calls (c : Ctx) (peer : Addr) (i : Nat) (lk : Linkage) (q : List Item)
    (h : ∀ it, it ∈ q → ∀ b, it.received = some b → s.blocks peer b) : s.Calls q.length lk (applyAll c peer i lk q).1 := by
  induction q generalizing i lk with
  | nil => exact .refl _ _
  | cons it q ih =>
    have ih := fun i lk => ih i lk (fun x hx => h x (List.mem_cons_of_mem _ hx))
    rw [applyAll]
    cases hr : it.received with
    | none => exact .refl _ _
    | some b =>
      simp only
      have hb := h it List.mem_cons_self b hr
      cases hw : (PutBlock (c.fates (2 * i)) (c.fates (2 * i + 1)) lk.db b peer).2 with
      | error e => exact .cons (k := q.length) (.putBlock b peer (c.fates (2 * i)) (c.fates (2 * i + 1))) hb (.refl _ _)
      | ok u => exact .cons (k := q.length) (.putBlock b peer (c.fates (2 * i)) (c.fates (2 * i + 1))) hb (ih _ _)

theorem applyPrefix_calls (c : Ctx) (peer : Addr) (i : Nat) (lk : Linkage) (q : List Item)
    (h : ∀ it, it ∈ q → ∀ b, it.received = some b → s.blocks peer b) : s.Calls q.length lk (applyPrefix c peer i lk q).1 := by
  induction q generalizing i lk with
  | nil => exact .refl _ _
  | cons it q ih =>
    have ih := fun i lk => ih i lk (fun x hx => h x (List.mem_cons_of_mem _ hx))
    rw [applyPrefix]
    cases hr : it.received with
    | none => exact .refl _ _
    | some b =>
      simp only
      have hb := h it List.mem_cons_self b hr
      by_cases hid : b.id = it.requested
      · rw [if_pos hid]
        cases hw : (PutBlock (c.fates (2 * i)) (c.fates (2 * i + 1)) lk.db b peer).2 with
        | error e => exact .cons (k := q.length) (.putBlock b peer (c.fates (2 * i)) (c.fates (2 * i + 1))) hb (.refl _ _)
        | ok u => exact .cons (k := q.length) (.putBlock b peer (c.fates (2 * i)) (c.fates (2 * i + 1))) hb (ih _ _)
      · rw [if_neg hid]; exact .refl _ _

theorem put_received {q : List Item} {b : ProtoBlock} {it : Item} {x : ProtoBlock} (h : it ∈ put q b) (hx : it.received = some x) :
    x = b ∨ ∃ it', it' ∈ q ∧ it'.received = some x := by
  induction q with
  | nil => cases h
  | cons y q ih =>
    rw [put] at h
    split at h
    · rcases List.mem_cons.mp h with rfl | h
      · exact Or.inl (Option.some.inj hx).symm
      · exact Or.inr ⟨it, List.mem_cons_of_mem _ h, hx⟩
    · rcases List.mem_cons.mp h with rfl | h
      · exact Or.inr ⟨_, List.mem_cons_self, hx⟩
      · rcases ih h with h | ⟨it', h, e⟩
        · exact Or.inl h
        · exact Or.inr ⟨it', List.mem_cons_of_mem _ h, e⟩

theorem putOpt_received {q : List Item} {b : Option ProtoBlock} {it : Item} {x : ProtoBlock} (h : it ∈ putOpt q b)
    (hx : it.received = some x) : b = some x ∨ ∃ it', it' ∈ q ∧ it'.received = some x := by
  cases b with
  | none => exact Or.inr ⟨it, h, hx⟩
  | some b =>
    rcases put_received h hx with rfl | h
    · exact Or.inl rfl
    · exact Or.inr h

/-- one event of the loader -/
theorem Source.step {l l' : Loader} {e : Loading.Event} (I : Inv lib l) (Q : s.Queue l) (E : s.Event e.op)
    (h : Loading.step lib l e = .ok l') : s.Calls (cost l e) l.link l'.link ∧ s.Queue l' := by
  obtain ⟨c, op⟩ := e
  cases op with
  | ids peer ids =>
    simp only [Loading.step, handleIDs] at h
    split at h
    · cases h; exact ⟨.refl _ _, Q⟩
    · rename_i ha
      have ha : l.active = true := by simpa using ha
      split at h
      · cases h; exact ⟨.refl _ _, Q⟩
      · split at h
        · cases h; exact ⟨.refl _ _, Q⟩
        · rename_i hp
          obtain ⟨rfl, _⟩ := logged_ok h
          have F := frame_fire_ids c l ids I.quiet ha
          by_cases hs : l.obj.state = .waitingForIDs
          · have E : ∀ id, id ∈ ids → s.ids l.peerID id := by
              intro id hid
              have hp : peer = l.peerID := by simpa using hp
              rw [← hp]; exact E id hid
            have hq : ∀ lk, (succeed c { enter l .waitingForBlocks with link := lk }).1.obj.queue = l.obj.queue :=
              fun lk => succeed_queue c { enter l .waitingForBlocks with link := lk } I.quiet ha
            have hloop : ∀ {lk x}, requestLoop c (enter l .waitingForBlocks).peerID 0 (enter l .waitingForBlocks).link ids = (lk, x) →
                s.Calls 0 l.link lk := by
              intro lk x hx
              have : (requestLoop c l.peerID 0 l.link ids).1 = lk := congrArg Prod.fst hx
              rw [← this]; exact requestLoop_calls c l.peerID 0 l.link ids E
            have ho := fire_ids c l ids I.quiet hs
            generalize fire c l (.ids ids) = r at ho F
            have fresh : ∀ (req : List BlockID) it, it ∈ newQueue req → ∀ b, it.received = some b → s.blocks r.1.peerID b := by
              intro req it hit b hb
              obtain ⟨id, _, rfl⟩ := List.mem_map.mp hit
              cases hb
            cases ho with
            | failed lk e h => exact ⟨hloop h, Q⟩
            | known lk h =>
              rw [succeed_link c _ (by exact I.quiet) (by exact ha)]
              refine ⟨hloop h, ?_⟩
              intro it hit b hb
              rw [hq lk] at hit
              rw [F.peerID]; exact Q it hit b hb
            | asked lk req cn h hne hc => exact ⟨hloop h, fresh req⟩
            | panic lk req h hne hc => exact ⟨hloop h, fresh req⟩
          · rw [fire_ids_other c l ids I.quiet hs]; exact ⟨.refl _ _, Q⟩
  | block peer b =>
    simp only [Loading.step, handleBlock] at h
    split at h
    · cases h; exact ⟨.refl _ _, Q⟩
    · rename_i ha
      have ha : l.active = true := by simpa using ha
      split at h
      · cases h; exact ⟨.refl _ _, Q⟩
      · rename_i hp
        have hp : peer = l.peerID := by simpa using hp
        obtain ⟨rfl, _⟩ := logged_ok h
        have F := frame_fire_block c l b I.quiet ha
        by_cases hs : l.obj.state = .waitingForBlocks
        · have Q' : ∀ it, it ∈ putOpt l.obj.queue b → ∀ x, it.received = some x → s.blocks l.peerID x := by
            intro it hit x hx
            rcases putOpt_received hit hx with h | ⟨it', hit', hx'⟩
            · rw [← hp]; exact E x h
            · exact Q it' hit' x hx'
          have hloop : ∀ {lk x}, applyAll c l.peerID 0 l.link (putOpt l.obj.queue b) = (lk, x) →
              s.Calls l.obj.queue.length l.link lk := by
            intro lk x hx
            have : (applyAll c l.peerID 0 l.link (putOpt l.obj.queue b)).1 = lk := congrArg Prod.fst hx
            rw [← this, ← putOpt_length l.obj.queue b]
            exact applyAll_calls c l.peerID 0 l.link _ Q'
          have ho := fire_block c l b I.quiet hs
          generalize fire c l (.block b) = r at ho F
          cases ho with
          | waiting h => exact ⟨.refl _ _, Q'⟩
          | failed h lk e h' => exact ⟨hloop h', Q'⟩
          | complete h lk h' =>
            rw [succeed_link c _ (by exact I.quiet) (by exact ha)]
            refine ⟨hloop h', ?_⟩
            intro it hit x hx
            rw [succeed_queue c _ (by exact I.quiet) (by exact ha)] at hit
            rw [F.peerID]; exact Q' it hit x hx
        · rw [fire_block_other c l b I.quiet hs]; exact ⟨.refl _ _, Q⟩
  | tick =>
    simp only [Loading.step, tick] at h
    split at h
    · rename_i ha
      obtain ⟨rfl, _⟩ := logged_ok h
      have F := frame_fire_tick c l c.now I.quiet ha
      constructor
      · by_cases hw : Waiting l
        · rw [fire_tick c l c.now I.quiet hw]
          split
          · have hloop : ∀ {lk x}, applyPrefix c l.peerID 0 l.link l.obj.queue = (lk, x) → s.Calls l.obj.queue.length l.link lk := by
              intro lk x hx
              have : (applyPrefix c l.peerID 0 l.link l.obj.queue).1 = lk := congrArg Prod.fst hx
              rw [← this]; exact applyPrefix_calls c l.peerID 0 l.link _ Q
            rcases handleFailure_cases c (enter l .done) ha rfl with ⟨lk, e, h1, h2⟩ | ⟨lk, h1, h2⟩
            · rw [h2]; exact hloop h1
            · rw [h2]; exact hloop h1
          · exact .refl _ _
        · rw [fire_tick_resting c l c.now I.quiet hw]; exact .refl _ _
      · intro it hit b hb
        rw [queue_fire_tick c l c.now I.quiet ha] at hit
        rw [F.peerID]; exact Q it hit b hb
    · cases h; exact ⟨.refl _ _, Q⟩
  | timer =>
    simp only [Loading.step] at h
    refine ⟨.of_eq (sync_link h), ?_⟩
    have ho := sync_outcome lib c l
    rw [h] at ho
    generalize hr : (Except.ok l' : Go Loader) = r at ho
    cases ho with
    | busy _ => cases hr; exact Q
    | unlisted _ _ _ => cases hr; exact Q
    | panic _ _ => cases hr
    | nobody _ _ _ _ => cases hr; exact Q
    | start _ ps hc p hp hl hn =>
      obtain ⟨rfl, _⟩ := logged_ok hr.symm
      intro it hit
      have : (startNow c (chosen l p)).1.obj.queue = [] := requestIDs_queue c _
      rw [this] at hit; cases hit
    | restart _ ps hc p hp hl hn =>
      obtain ⟨rfl, _⟩ := logged_ok hr.symm
      intro it hit
      rw [requestIDsFromLCA_queue] at hit; cases hit
  | putBlock b a f1 f2 =>
    obtain ⟨_, rfl⟩ := I.others h
    exact ⟨.cons (k := 0) (.putBlock b a f1 f2) E (.refl _ _), Q⟩
  | putMicro inv a f1 f2 =>
    obtain ⟨_, rfl⟩ := I.others h
    exact ⟨.cons (k := 0) (.putMicro inv a f1 f2) E (.refl _ _), Q⟩
  | registry ev => simp only [Loading.step] at h; cases h; exact ⟨.refl _ _, Q⟩

end Verif.Loading
