import Verif.Loading.FineReadsInv
/-
In which states the loader waits for the next event, whatever its calls are answered.
-/

set_option autoImplicit false

namespace Verif.Loading.Fine

open Verif
open Verif.Chains (Addr BlockID ProtoBlock)
open Verif.Peers (Peer Lib)

variable {lib : Lib} {α β : Type}

/-- the program ends with `Q`, whatever its calls are answered; the list contains the answers so far -/
def All (Q : List Answer → α → Prop) : List Answer → Proc α → Prop
  | tr, .ret a => Q tr a
  | tr, .call c k => ∀ r, All Q (tr ++ [⟨c, r⟩]) (k r)

theorem All.bind {Q : List Answer → α → Prop} {Q' : List Answer → β → Prop} {f : α → Proc β} : ∀ {p : Proc α} {tr : List Answer},
    All Q tr p → (∀ a tr', (∃ l, tr' = tr ++ l) → Q tr' a → All Q' tr' (f a)) → All Q' tr (p.bind f)
  | .ret a, tr, h, hf => hf a tr ⟨[], by simp⟩ h
  | .call c k, tr, h, hf => fun r => All.bind (h r) (fun a tr' ⟨l, hl⟩ hq => hf a tr' ⟨[⟨c, r⟩] ++ l, by rw [hl, List.append_assoc]⟩ hq)

theorem All.mono {Q Q' : List Answer → α → Prop} : ∀ {p : Proc α} {tr : List Answer}, All Q tr p → (∀ tr' a, Q tr' a → Q' tr' a) →
    All Q' tr p
  | .ret a, tr, h, hq => hq tr a h
  | .call _ _, _, h, hq => fun r => All.mono (h r) hq

/-- a reading at the end of a batch failed: of the record of the peer, or of the score of its position -/
def Idled (tr : List Answer) : Prop := ∃ x, x ∈ tr ∧ x.Failed ∧ ((∃ a, x.call = .peerOf a) ∨ ∃ a, x.call = .leashScore a)

/-- the storing of a block failed -/
def Unsaved (tr : List Answer) : Prop := ∃ x, x ∈ tr ∧ x.Failed ∧ ∃ f1 f2 b a, x.call = .putBlock f1 f2 b a

theorem Idled.later {tr : List Answer} (h : Idled tr) (l : List Answer) : Idled (tr ++ l) := by
  obtain ⟨x, hx, h⟩ := h
  exact ⟨x, List.mem_append.mpr (Or.inl hx), h⟩

theorem Unsaved.later {tr : List Answer} (h : Unsaved tr) (l : List Answer) : Unsaved (tr ++ l) := by
  obtain ⟨x, hx, h⟩ := h
  exact ⟨x, List.mem_append.mpr (Or.inl hx), h⟩

/-- the state between two events -/
def Sane (tr : List Answer) (o : Own) : Prop :=
  o.active = true → (o.obj.state = .waitingForIDs ∨ o.obj.state = .waitingForBlocks) ∨ (o.obj.state = .idle ∧ Idled tr) ∨
    (o.obj.state = .done ∧ Unsaved tr)

theorem Sane.later {tr : List Answer} {o : Own} (h : Sane tr o) (l : List Answer) : Sane (tr ++ l) o := fun ha => by
  rcases h ha with h | ⟨h, i⟩ | ⟨h, i⟩
  · exact Or.inl h
  · exact Or.inr (Or.inl ⟨h, i.later l⟩)
  · exact Or.inr (Or.inr ⟨h, i.later l⟩)

/-- the state in which a trigger is executed -/
def Fresh (tr : List Answer) (o : Own) (t : Trigger) : Prop :=
  Sane tr o ∨ (o.obj.state = .idle ∧ (t = .start ∨ t = .restart))

/-- after a trigger -/
def After (t : Trigger) (tr : List Answer) (r : Own × Go Unit) : Prop :=
  r.2 = goPanic ∨ (r.1.obj.triggers = [] ∧ Sane tr r.1) ∨
    (r.2 = .ok () ∧ ∃ t', rank t' < rank t ∧ r.1.obj.triggers = [t'] ∧ Fresh tr r.1 t')

theorem waiting_sane {tr : List Answer} {o : Own} (h : o.obj.state = .waitingForIDs ∨ o.obj.state = .waitingForBlocks) : Sane tr o :=
  fun _ => Or.inl h

theorem all_requestFrom (c : Ctx) (t : Trigger) {o : Own} (id : BlockID) (tr : List Answer) (hq : o.obj.triggers = [])
    (hs : o.obj.state = .waitingForIDs) : All (After t) tr (requestFrom c o id) := by
  intro r
  rcases (r : Go (List BlockID)) with e | ids
  · exact Or.inr (Or.inl ⟨hq, waiting_sane (Or.inl hs)⟩)
  · show All (After t) _ (andThen (requestBlockIDs c o ids) _)
    unfold requestBlockIDs
    cases o.obj.peer.conn with
    | none => exact Or.inl rfl
    | some cn =>
      simp only
      by_cases hi : ids = []
      · rw [if_pos hi]; exact Or.inl rfl
      · rw [if_neg hi]
        split
        · exact Or.inr (Or.inl ⟨hq, waiting_sane (Or.inl hs)⟩)
        · exact Or.inr (Or.inl ⟨hq, waiting_sane (Or.inl hs)⟩)

theorem all_requestIDs (c : Ctx) (t : Trigger) {o : Own} (tr : List Answer) (hq : o.obj.triggers = [])
    (hs : o.obj.state = .waitingForIDs) : All (After t) tr (requestIDs c o) := by
  intro r
  rcases (r : Go BlockID) with e | id
  · exact Or.inr (Or.inl ⟨hq, waiting_sane (Or.inl hs)⟩)
  · exact all_requestFrom c t id _ hq hs

theorem all_requestIDsFromLCA (c : Ctx) (t : Trigger) {o : Own} (tr : List Answer) (hq : o.obj.triggers = [])
    (hs : o.obj.state = .waitingForIDs) : All (After t) tr (requestIDsFromLCA c o) := by
  intro r
  rcases (r : Go BlockID) with e | id
  · exact Or.inr (Or.inl ⟨hq, waiting_sane (Or.inl hs)⟩)
  · exact all_requestFrom c t id _ hq hs

theorem all_any (Q : List Answer → α → Prop) (h : ∀ tr a, Q tr a) : ∀ (tr : List Answer) (p : Proc α), All Q tr p
  | tr, .ret a => h tr a
  | _, .call _ k => fun r => all_any Q h _ (k r)

theorem requestBlockEach_same (c : Ctx) : ∀ (ids : List BlockID) (o : Own), (requestBlockEach c o ids).1.obj = o.obj ∧
    ((requestBlockEach c o ids).2 = goPanic ∨ (requestBlockEach c o ids).2 = .ok ())
  | [], o => ⟨rfl, Or.inr rfl⟩
  | id :: ids, o => by
    unfold requestBlockEach
    cases o.obj.peer.conn with
    | none => exact ⟨rfl, Or.inl rfl⟩
    | some cn =>
      obtain ⟨h1, h2⟩ := requestBlockEach_same c ids { o with out := o.out ++ [⟨c.now, cn, .getBlock id⟩] }
      exact ⟨h1, h2⟩

theorem all_requestBlocks (c : Ctx) {o : Own} (ids : List BlockID) (tr : List Answer) (hq : o.obj.triggers = [])
    (hs : o.obj.state = .waitingForBlocks) : All (After (.ids ids)) tr (requestBlocks c o ids) := by
  refine (all_any (fun _ _ => True) (fun _ _ => trivial) tr (requestLoop c o.peerID 0 ids)).bind ?_
  intro r tr' _ _
  rcases r with e | req
  · exact Or.inr (Or.inl ⟨hq, waiting_sane (Or.inr hs)⟩)
  · cases req with
    | nil =>
      refine Or.inr (Or.inr ⟨rfl, .queueReady, by simp [rank], ?_, Or.inl (waiting_sane (Or.inr hs))⟩)
      show o.obj.triggers ++ [Trigger.queueReady] = _
      rw [hq]; rfl
    | cons id req =>
      obtain ⟨h1, h2⟩ := requestBlockEach_same c (id :: req) { o with obj := { o.obj with queue := newQueue (id :: req) } }
      simp only
      generalize requestBlockEach c { o with obj := { o.obj with queue := newQueue (id :: req) } } (id :: req) = x at h1 h2
      unfold andThen
      rcases h2 with h2 | h2
      · rw [h2]; exact Or.inl rfl
      · rw [h2]
        refine Or.inr (Or.inl ⟨?_, waiting_sane (Or.inr ?_)⟩)
        · show x.1.obj.triggers = []
          rw [h1]; exact hq
        · show x.1.obj.state = _
          rw [h1]; exact hs

theorem all_appendBlock (c : Ctx) {o : Own} (b : Option ProtoBlock) (tr : List Answer) (hq : o.obj.triggers = [])
    (hs : o.obj.state = .waitingForBlocks) : All (After (.block b)) tr (appendBlock c o b) := by
  unfold appendBlock
  simp only
  split
  · refine (all_any (fun _ _ => True) (fun _ _ => trivial) tr _).bind ?_
    intro r tr' _ _
    rcases r with e | u
    · exact Or.inr (Or.inl ⟨hq, waiting_sane (Or.inr hs)⟩)
    · refine Or.inr (Or.inr ⟨rfl, .queueReady, by simp [rank], ?_, Or.inl (waiting_sane (Or.inr hs))⟩)
      show o.obj.triggers ++ [Trigger.queueReady] = _
      rw [hq]; rfl
  · exact Or.inr (Or.inl ⟨hq, waiting_sane (Or.inr hs)⟩)

theorem all_OK {o : Own} (tr : List Answer) (hq : o.obj.triggers = []) (hs : o.obj.state = .idle) :
    All (After .queueReady) tr (OK o) := by
  have last : ∀ (tr : List Answer) (c : Call) (r : c.Res), (⟨c, r⟩ : Answer) ∈ tr ++ [⟨c, r⟩] := fun _ _ _ => by simp
  unfold OK
  split
  · intro r
    rcases (r : Go Peer) with (e | _) | p
    · refine Or.inr (Or.inl ⟨hq, fun _ => Or.inr (Or.inl ⟨hs, ⟨_, last _ _ _, ⟨e, rfl⟩, Or.inl ⟨_, rfl⟩⟩⟩)⟩)
    · exact Or.inl rfl
    · intro r'
      rcases (r' : Go Nat) with (e | _) | score
      · refine Or.inr (Or.inl ⟨hq, fun _ => Or.inr (Or.inl ⟨hs, ⟨_, last _ _ _, ⟨e, rfl⟩, Or.inr ⟨_, rfl⟩⟩⟩)⟩)
      · exact Or.inl rfl
      · simp only
        cases p.score with
        | none => exact Or.inl rfl
        | some ps =>
          simp only
          split
          · refine Or.inr (Or.inr ⟨rfl, .start, by simp [rank], ?_, Or.inr ⟨hs, Or.inl rfl⟩⟩)
            show o.obj.triggers ++ [Trigger.start] = _
            rw [hq]; rfl
          · exact Or.inr (Or.inl ⟨hq, fun h => by cases h⟩)
  · rename_i h
    exact Or.inr (Or.inl ⟨hq, fun ha => absurd ⟨ha, hs⟩ h⟩)

theorem all_applyPrefix (c : Ctx) (peer : Addr) : ∀ (q : List Item) (i : Nat) (tr : List Answer),
    All (fun tr' r => r = goPanic ∨ r = .ok () ∨ Unsaved tr') tr (applyPrefix c peer i q)
  | [], _, _ => Or.inr (Or.inl rfl)
  | it :: q, i, tr => by
    unfold applyPrefix
    cases it.received with
    | none => exact Or.inr (Or.inl rfl)
    | some b =>
      simp only
      split
      · intro r
        rcases (r : Go Unit) with (e | _) | u
        · exact Or.inr (Or.inr ⟨_, List.mem_append.mpr (Or.inr (List.mem_singleton.mpr rfl)), ⟨e, rfl⟩, _, _, _, _, rfl⟩)
        · exact Or.inl rfl
        · exact all_applyPrefix c peer q (i + 1) _
      · exact Or.inr (Or.inl rfl)

/-- after a timeout the peer is released, or a block could not be stored -/
theorem all_handleFailure (c : Ctx) {o : Own} (tr : List Answer) (hs : o.obj.state = .done) :
    All (fun tr' r => r.2 = goPanic ∨ (r.1.obj = o.obj ∧ (r.1.active = false ∨ Unsaved tr'))) tr (handleFailure c o) := by
  refine (all_applyPrefix c o.peerID o.obj.queue 0 tr).bind ?_
  rintro r tr' _ h
  rcases r with e | u
  · rcases h with h | h | h
    · cases h; exact Or.inl rfl
    · cases h
    · exact Or.inr ⟨rfl, Or.inr h⟩
  · refine Or.inr ?_
    show (Fail o).obj = _ ∧ _
    unfold Fail
    by_cases ha : o.active = true
    · rw [if_pos ⟨ha, hs⟩]; exact ⟨rfl, Or.inl rfl⟩
    · rw [if_neg (fun h => ha h.1)]; exact ⟨rfl, Or.inl (by simpa using ha)⟩

theorem all_execute (c : Ctx) (t : Trigger) {o : Own} (tr : List Answer) (hq : o.obj.triggers = []) (hf : Fresh tr o t) :
    All (After t) tr (execute c o t) := by
  have same : ∀ {x : Go Unit}, Sane tr o → All (After t) tr (.ret (o, x)) := fun h => Or.inr (Or.inl ⟨hq, h⟩)
  have sane : (t ≠ .start ∧ t ≠ .restart) ∨ o.obj.state ≠ .idle → Sane tr o := by
    intro h
    rcases hf with h' | ⟨h1, h2⟩
    · exact h'
    · rcases h with ⟨h3, h4⟩ | h3
      · rcases h2 with h2 | h2
        · exact absurd h2 h3
        · exact absurd h2 h4
      · exact absurd h1 h3
  have tick : ∀ tm, t = .tick tm → (o.obj.state = .waitingForIDs ∨ o.obj.state = .waitingForBlocks) → All (After t) tr (.ret (onTick o tm)) := by
    rintro tm rfl hs
    unfold onTick
    split
    · refine Or.inr (Or.inr ⟨rfl, .timeout, by simp [rank], ?_, Or.inl (waiting_sane hs)⟩)
      show o.obj.triggers ++ [Trigger.timeout] = _
      rw [hq]; rfl
    · exact Or.inr (Or.inl ⟨hq, waiting_sane hs⟩)
  have fails : All (After t) tr (handleFailure c { o with obj := { o.obj with state := .done } }) := by
    refine (all_handleFailure c tr rfl).mono ?_
    rintro tr' r (h | ⟨h1, h2⟩)
    · exact Or.inl h
    · refine Or.inr (Or.inl ⟨by rw [h1]; exact hq, fun ha => ?_⟩)
      rcases h2 with h2 | h2
      · rw [h2] at ha; cases ha
      · exact Or.inr (Or.inr ⟨by rw [h1], h2⟩)
  unfold execute
  cases hst : o.obj.state with
  | idle =>
    cases t with
    | start => exact all_requestIDs c .start tr hq rfl
    | restart => exact all_requestIDsFromLCA c .restart tr hq rfl
    | _ => exact same (sane (Or.inl ⟨(fun h => by cases h), (fun h => by cases h)⟩))
  | waitingForIDs =>
    have hs := sane (Or.inr (by rw [hst]; exact fun h => by cases h))
    cases t with
    | ids l => exact all_requestBlocks c l tr hq rfl
    | tick tm => exact tick tm rfl (Or.inl hst)
    | timeout => exact fails
    | _ => exact same hs
  | waitingForBlocks =>
    have hs := sane (Or.inr (by rw [hst]; exact fun h => by cases h))
    cases t with
    | block b => exact all_appendBlock c b tr hq hst
    | tick tm => exact tick tm rfl (Or.inr hst)
    | timeout => exact fails
    | queueReady => exact all_OK tr hq rfl
    | _ => exact same hs
  | done =>
    have hs := sane (Or.inr (by rw [hst]; exact fun h => by cases h))
    cases t <;> exact same hs

/-- after a `Fire` -/
def Settled (tr : List Answer) (r : Own × Go Unit) : Prop := r.2 = goPanic ∨ (r.1.obj.triggers = [] ∧ Sane tr r.1)

theorem all_drain (c : Ctx) (t : Trigger) (n : Nat) (hn : rank t < n) : ∀ {o : Own} (tr : List Answer), o.obj.triggers = [t] →
    Fresh tr o t → All Settled tr (drain c n o) := by
  induction n generalizing t with
  | zero => omega
  | succ n ih =>
    intro o tr hts hf
    rw [drain, hts]
    refine (all_execute c t (o := { o with obj := { o.obj with triggers := [] } }) tr rfl hf).bind ?_
    rintro r tr' _ h
    unfold andThen
    cases hr : r.2 with
    | error e =>
      rcases h with h | h | ⟨h, _⟩
      · rw [hr] at h; exact Or.inl h
      · exact Or.inr h
      · rw [h] at hr; cases hr
    | ok u =>
      rcases h with h | h | ⟨_, t', hlt, ht', hf'⟩
      · rw [hr] at h; cases h
      · have hd : drain c n r.1 = .ret (r.1, .ok ()) := by
          cases n with
          | zero => rfl
          | succ n => rw [drain, h.1]
        simp only [hd]
        exact Or.inr h
      · exact ih t' (by omega) tr' ht' hf'

theorem all_fire (c : Ctx) (t : Trigger) {o : Own} (tr : List Answer) (hq : o.obj.triggers = []) (hf : Fresh tr o t) :
    All Settled tr (fire c o t) := by
  refine all_drain c t 3 (rank_lt t) (o := enqueue o t) tr ?_ hf
  show o.obj.triggers ++ [t] = [t]
  rw [hq]; rfl

/-- at the end of a handler -/
def Ended (tr : List Answer) (r : Go Own) : Prop := r = goPanic ∨ ∃ o, r = .ok o ∧ o.obj.triggers = [] ∧ Sane tr o

theorem all_logged (c : Ctx) (t : Trigger) {o : Own} (tr : List Answer) (hq : o.obj.triggers = []) (hf : Fresh tr o t) :
    All Ended tr ((fire c o t).bind (fun r => .ret (logged r))) := by
  refine (all_fire c t tr hq hf).bind ?_
  rintro r tr' _ h
  show Ended tr' (logged r)
  rcases h with h | h
  · exact Or.inl (logged_panics h)
  · by_cases hp : r.2 = goPanic
    · exact Or.inl (logged_panics hp)
    · exact Or.inr ⟨r.1, logged_alive hp, h⟩

theorem all_continueSync (c : Ctx) {o : Own} (tr : List Answer) (hq : o.obj.triggers = []) (hf : Fresh tr o .start) :
    All Ended tr (continueSync c o) := by
  unfold continueSync
  split
  · exact all_logged c .start (o := { o with ticking := true }) tr hq hf
  · exact Or.inl rfl

theorem all_sync (c : Ctx) {o : Own} (tr : List Answer) (hq : o.obj.triggers = []) (hs : Sane tr o) : All Ended tr (sync c o) := by
  unfold sync
  have idle : ∀ l, All Ended (tr ++ l) (.ret (.ok o)) := fun l => Or.inr ⟨o, rfl, hq, hs.later l⟩
  split
  · simpa using idle []
  · intro r
    rcases (r : Go (List Peer)) with (e | _) | ps
    · exact idle _
    · exact Or.inl rfl
    · simp only
      refine (all_any (fun _ _ => True) (fun _ _ => trivial) _ (lagLoop ps)).bind ?_
      rintro lag tr' ⟨l, rfl⟩ _
      by_cases hn : lag = []
      · rw [if_pos hn, List.append_assoc]; exact idle _
      · rw [if_neg hn]
        cases hg : goIndex lag (c.rand lag.length % lag.length) with
        | error e =>
          obtain ⟨p, _, hp⟩ := goIndex_mod lag (c.rand lag.length) hn
          rw [hg] at hp; cases hp
        | ok p =>
          simp only
          split
          · refine All.bind (all_logged c .restart (o := { o with active := true, obj := newPeerLoader p, ticking := true, fc := _ }) _ rfl
              (Or.inr ⟨rfl, Or.inr rfl⟩)) ?_
            rintro r tr2 _ (rfl | ⟨o', rfl, h1, h2⟩)
            · exact Or.inl rfl
            · exact all_continueSync c tr2 h1 (Or.inl h2)
          · exact all_continueSync c _ rfl (Or.inr ⟨rfl, Or.inl rfl⟩)

theorem all_handle (c : Ctx) (i : Input) {o : Own} (tr : List Answer) (hq : o.obj.triggers = []) (hs : Sane tr o) :
    All Ended tr (handle c o i) := by
  have idle : All Ended tr (.ret (.ok o)) := Or.inr ⟨o, rfl, hq, hs⟩
  cases i with
  | timer => exact all_sync c tr hq hs
  | tick =>
    show All Ended tr (tick c o)
    unfold tick
    split
    · exact all_logged c _ tr hq (Or.inl hs)
    · exact idle
  | ids a l =>
    show All Ended tr (handleIDs c o a l)
    unfold handleIDs
    split
    · exact idle
    · split
      · exact idle
      · split
        · exact idle
        · exact all_logged c _ tr hq (Or.inl hs)
  | block a b =>
    show All Ended tr (handleBlock c o a b)
    unfold handleBlock
    split
    · exact idle
    · split
      · exact idle
      · exact all_logged c _ tr hq (Or.inl hs)

/-- at every moment -/
structure Kept (tr : List Answer) (w : World) : Prop where
  rest : w.todo = none → w.own.obj.triggers = [] ∧ Sane tr w.own
  busy : ∀ p, w.todo = some p → All Ended tr p

theorem Kept.step {w w' : World} {tr tr' : List Answer} (H : Kept tr w) (t : RdStep lib w tr' w') : Kept (tr ++ tr') w' := by
  cases t with
  | receive c i h =>
    obtain ⟨h1, h2⟩ := H.rest h
    refine ⟨(fun h => by cases h), fun p hp => ?_⟩
    cases hp
    simpa using all_handle c i tr h1 h2
  | call D c k h =>
    refine ⟨(fun h => by cases h), fun p hp => ?_⟩
    cases hp
    exact H.busy _ h _
  | finish o h =>
    refine ⟨fun _ => ?_, fun p hp => by cases hp⟩
    have := H.busy _ h
    rcases this with h' | ⟨o', h', h1, h2⟩
    · cases h'
    · cases h'
      simpa using ⟨h1, h2⟩
  | other D x => exact ⟨by simpa using H.rest, by simpa using H.busy⟩

theorem kept {w0 w : World} {tr0 tr : List Answer} (H : Kept tr0 w0) (h : RdRun lib w0 tr w) : Kept (tr0 ++ tr) w := by
  induction h with
  | nil => simpa using H
  | snoc h t ih => rw [← List.append_assoc]; exact ih.step t

/-! ### stuck -/

/-- in the states Idle and Done the loader ignores every event while a synchronisation is under way -/
theorem handle_frozen (c : Ctx) (i : Input) {o : Own} (ha : o.active = true) (hs : o.obj.state = .done ∨ o.obj.state = .idle)
    (hq : o.obj.triggers = []) : handle c o i = .ret (.ok o) := by
  have key : ∀ t : Trigger, (∃ x, t = .tick x) ∨ (∃ x, t = .ids x) ∨ (∃ x, t = .block x) →
      (fire c o t).bind (fun r => .ret (logged r)) = .ret (.ok o) := by
    intro t ht
    have hh : handler o.obj.state t = some .ignored := by
      rcases hs with hs | hs <;> rw [hs] <;> rcases ht with ⟨x, rfl⟩ | ⟨x, rfl⟩ | ⟨x, rfl⟩ <;> rfl
    have he : (enqueue o t).obj.triggers = [t] := by
      show o.obj.triggers ++ [t] = _
      rw [hq]; rfl
    have ho : { (enqueue o t) with obj := { (enqueue o t).obj with triggers := [] } } = o := by
      unfold enqueue
      cases o with
      | mk active obj prevDiff fc out ticking =>
        cases obj
        simp only at hq
        subst hq
        rfl
    unfold fire
    rw [drain, he]
    simp only
    rw [ho]
    unfold execute
    rw [hh]
    show (drain c 2 o).bind _ = _
    rw [drain, hq]
    rfl
  cases i with
  | timer => show sync c o = _; unfold sync; rw [if_pos ha]
  | tick => show tick c o = _; unfold tick; rw [if_pos ha]; exact key _ (Or.inl ⟨_, rfl⟩)
  | ids a l =>
    show handleIDs c o a l = _
    unfold handleIDs
    split
    · rfl
    · split
      · rfl
      · split
        · rfl
        · exact key _ (Or.inr (Or.inl ⟨_, rfl⟩))
  | block a b =>
    show handleBlock c o a b = _
    unfold handleBlock
    split
    · rfl
    · split
      · rfl
      · exact key _ (Or.inr (Or.inr ⟨_, rfl⟩))

theorem frozen_run {w w' : World} {tr : List Answer} (h0 : w.todo = none) (ha : w.own.active = true)
    (hs : w.own.obj.state = .done ∨ w.own.obj.state = .idle) (hq : w.own.obj.triggers = []) (h : RdRun lib w tr w') :
    w'.own = w.own ∧ (w'.todo = none ∨ w'.todo = some (.ret (.ok w.own))) ∧ tr = [] ∧
      ∃ l, w'.log = w.log ++ l ∧ ∀ x, x ∈ l → x.1 = false := by
  induction h with
  | nil => exact ⟨rfl, Or.inl h0, rfl, [], by simp, fun _ h => by cases h⟩
  | snoc h t ih =>
    obtain ⟨h1, h2, h3, l, h4, h5⟩ := ih
    cases t with
    | receive c i h => exact ⟨h1, Or.inr (by rw [h1, handle_frozen c i ha hs hq]), by rw [h3]; rfl, l, h4, h5⟩
    | call D c k h =>
      rcases h2 with h2 | h2
      · rw [h2] at h; cases h
      · rw [h2] at h; cases h
    | finish o h =>
      rcases h2 with h2 | h2
      · rw [h2] at h; cases h
      · rw [h2] at h; cases h
        exact ⟨rfl, Or.inl rfl, by rw [h3]; rfl, l, h4, h5⟩
    | other D x =>
      refine ⟨h1, h2, by rw [h3]; rfl, l ++ (x.op.map (fun o => (false, o))).toList, by simp [h4], ?_⟩
      intro y hy
      rcases List.mem_append.mp hy with hy | hy
      · exact h5 y hy
      · cases hx : x.op with
        | none => rw [hx] at hy; cases hy
        | some o =>
          rw [hx] at hy
          rw [List.mem_singleton.mp hy]

/-! ### released -/

/-- a late tick -/
theorem all_late (c : Ctx) {o : Own} (ha : o.active = true) (hs : o.obj.state = .waitingForIDs ∨ o.obj.state = .waitingForBlocks)
    (hq : o.obj.triggers = []) (hlate : c.now - o.obj.timestamp > timeoutDuration) :
    All (fun tr r => r = goPanic ∨ ∃ o', r = .ok o' ∧ (o'.active = false ∨ Unsaved tr)) [] (handle c o .tick) := by
  show All _ [] (tick c o)
  unfold tick
  rw [if_pos ha]
  have he : (enqueue o (.tick c.now)).obj.triggers = [.tick c.now] := by
    show o.obj.triggers ++ [_] = _
    rw [hq]; rfl
  have hh : handler o.obj.state (.tick c.now) = some .internal := by rcases hs with hs | hs <;> rw [hs] <;> rfl
  have hh' : handler o.obj.state .timeout = some (.goto .done) := by rcases hs with hs | hs <;> rw [hs] <;> rfl
  refine All.bind (Q := fun tr r => r.2 = goPanic ∨ (r.1.active = false ∨ Unsaved tr)) ?_ ?_
  · unfold fire
    rw [drain, he]
    simp only
    unfold execute
    have h1 : (enqueue o (.tick c.now)).obj.state = o.obj.state := rfl
    have h2 : (enqueue o (.tick c.now)).obj.timestamp = o.obj.timestamp := rfl
    rw [h1, hh]
    simp only [onInternal, onTick, h2]
    rw [if_pos hlate]
    simp only [Proc.bind, andThen]
    rw [drain]
    simp only [enqueue, List.nil_append]
    unfold execute
    simp only [hh', onEntry]
    refine (all_handleFailure c [] rfl).bind ?_
    rintro r tr' _ h
    unfold andThen
    rcases h with h | ⟨h1, h2⟩
    · rw [h]; exact Or.inl rfl
    · cases hr : r.2 with
      | error e => exact Or.inr h2
      | ok u =>
        have hd : drain c 1 r.1 = .ret (r.1, .ok ()) := by rw [drain, h1]
        simp only [hd]
        exact Or.inr h2
  · rintro r tr' _ h
    show logged r = goPanic ∨ ∃ o', logged r = .ok o' ∧ _
    by_cases hp : r.2 = goPanic
    · exact Or.inl (logged_panics hp)
    · rcases h with h | h
      · exact absurd h hp
      · exact Or.inr ⟨r.1, logged_alive hp, h⟩

/-- what a handler ends with, if no further event is received meanwhile -/
theorem all_run {Q : List Answer → Go Own → Prop} {w w' : World} {tr : List Answer} {p : Proc (Go Own)} (h0 : w.todo = some p)
    (H : All Q [] p) (h : RdRun lib w tr w') (hi : w'.ins = w.ins) :
    (∃ p', w'.todo = some p' ∧ All Q tr p') ∨ (w'.todo = none ∧ Q tr (.ok w'.own)) := by
  have grows : ∀ {v tr}, RdRun lib w tr v → ∃ l, v.ins = w.ins ++ l := by
    intro v tr h
    induction h with
    | nil => exact ⟨[], by simp⟩
    | snoc h t ih =>
      obtain ⟨l, hl⟩ := ih
      obtain ⟨l', hl'⟩ := t.ins
      exact ⟨l ++ l', by rw [hl', hl, List.append_assoc]⟩
  induction h with
  | nil => exact Or.inl ⟨p, h0, H⟩
  | @snoc v v' tr tr' h t ih =>
    have hv : v.ins = w.ins := by
      obtain ⟨l, hl⟩ := grows h
      obtain ⟨l', hl'⟩ := t.ins
      rw [hl', hl] at hi
      have : (w.ins ++ l ++ l').length = w.ins.length := by rw [hi]
      have : l = [] := List.length_eq_zero_iff.mp (by rw [List.append_assoc, List.length_append, List.length_append] at this; omega)
      rw [hl, this]; simp
    cases t with
    | receive c i h =>
      exfalso
      have : (v.ins ++ [(c, i)]).length = v.ins.length := by rw [hv, show w.ins ++ [(c, i)] = w.ins from by rw [← hv]; exact hi.trans hv.symm]
      simp at this
    | call D c k h =>
      rcases ih hv with ⟨p', hp, hq⟩ | ⟨hn, _⟩
      · rw [hp] at h; cases h
        exact Or.inl ⟨_, rfl, hq _⟩
      · rw [hn] at h; cases h
    | finish o h =>
      rcases ih hv with ⟨p', hp, hq⟩ | ⟨hn, _⟩
      · rw [hp] at h; cases h
        refine Or.inr ⟨rfl, ?_⟩
        rw [List.append_nil]
        exact hq
      · rw [hn] at h; cases h
    | other D x => simpa using ih hv

end Verif.Loading.Fine
