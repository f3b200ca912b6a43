import Verif.Loading.Owed
import Verif.Loading.FineChoice
/-
What the loader waits for when it has handled an event, whatever its calls are answered: lemmas for property C108.
-/

set_option autoImplicit false

namespace Verif.Loading.Fine

open Verif
open Verif.Chains (Addr BlockID ProtoBlock)
open Verif.Peers (Lib Peer Conn)

variable {lib : Lib} {α β : Type}

/-- no call failed -/
def NoFail (tr : List Answer) : Prop := ∀ x, x ∈ tr → ¬ x.Failed

theorem NoFail.before {tr l : List Answer} (h : NoFail (tr ++ l)) : NoFail tr := fun x hx => h x (List.mem_append.mpr (Or.inl hx))

theorem NoFail.after {tr l : List Answer} (h : NoFail (tr ++ l)) : NoFail l := fun x hx => h x (List.mem_append.mpr (Or.inr hx))

theorem NoFail.last {tr : List Answer} {y : Answer} (h : NoFail (tr ++ [y])) : ¬ y.Failed := h y (by simp)

/-! ### the failure counter -/

theorem count_filter {m : FailureCounter} {a a' : Addr} (h : a' ≠ a) : count (m.filter (fun x => decide (x.1 ≠ a))) a' = count m a' := by
  induction m with
  | nil => rfl
  | cons x m ih =>
    obtain ⟨k, n⟩ := x
    by_cases hk : k = a
    · subst hk
      have e : List.filter (fun x : Addr × Nat => decide (x.1 ≠ k)) ((k, n) :: m) = List.filter (fun x => decide (x.1 ≠ k)) m := by
        simp
      rw [e, ih]
      show _ = if k = a' then n else count m a'
      rw [if_neg (fun e => h e.symm)]
    · have e : List.filter (fun x : Addr × Nat => decide (x.1 ≠ a)) ((k, n) :: m) = (k, n) :: List.filter (fun x => decide (x.1 ≠ a)) m := by
        simp [hk]
      rw [e]
      show (if k = a' then n else _) = if k = a' then n else _
      rw [ih]

theorem count_setCount (m : FailureCounter) (a : Addr) (n : Nat) (a' : Addr) : count (setCount m a n) a' = if a' = a then n else count m a' := by
  unfold setCount
  show (if a = a' then n else _) = _
  by_cases h : a' = a
  · subst h; simp
  · rw [if_neg (fun e => h e.symm), if_neg h, count_filter h]

/-- no counter has grown -/
def Calm (o o' : Own) : Prop := ∀ a, count o'.fc a ≤ count o.fc a

theorem Calm.refl (o : Own) : Calm o o := fun _ => Nat.le_refl _

theorem calm_reset (o : Own) (a : Addr) : ∀ x, count (reset o.fc a) x ≤ count o.fc x := by
  intro x
  unfold reset
  rw [count_setCount]
  split
  · exact Nat.zero_le _
  · exact Nat.le_refl _

/-! ### the triggers -/

/-- the loader waits for ids, and it has asked for them since `base` -/
def Asked (base : Own) (o : Own) : Prop :=
  ∃ new m req, o.out = base.out ++ new ∧ new.getLast? = some m ∧ o.obj.state = .waitingForIDs ∧ o.obj.peer.conn = some m.to ∧ AsksIDs m.to req m.msg ∧
    o.obj.timestamp = m.time

/-- after the triggers that follow one another at the end of a batch -/
def Went (base : Own) (tr : List Answer) (r : Own × Go Unit) : Prop :=
  r.2 ≠ goPanic → NoFail tr → r.1.obj.peer = base.obj.peer ∧ Calm base r.1 ∧
    ((r.1.active = true ∧ r.1.obj.triggers = [] ∧ Asked base r.1) ∨ (r.1.active = false ∧ ∃ new, r.1.out = base.out ++ new))

theorem drain_nil (c : Ctx) (n : Nat) {o : Own} (h : o.obj.triggers = []) : drain c n o = .ret (o, .ok ()) := by
  cases n with
  | zero => rfl
  | succ n => rw [drain, h]

theorem all_requestFrom_asked (c : Ctx) {o : Own} (id : BlockID) (tr : List Answer) (hs : o.obj.state = .waitingForIDs) :
    All (fun tr r => r.2 ≠ goPanic → NoFail tr → r.2 = .ok () ∧ r.1.obj.peer = o.obj.peer ∧ r.1.fc = o.fc ∧ r.1.active = o.active ∧
      r.1.obj.triggers = o.obj.triggers ∧ Asked o r.1) tr (requestFrom c o id) := by
  intro r
  rcases (r : Go (List BlockID)) with (e | _) | ids
  · intro _ hn
    exact absurd ⟨e, rfl⟩ hn.last
  · intro h
    exact absurd rfl h
  · show All _ _ (andThen (requestBlockIDs c o ids) _)
    unfold requestBlockIDs
    cases hc : o.obj.peer.conn with
    | none => intro h; exact absurd rfl h
    | some cn =>
      simp only
      by_cases hi : ids = []
      · rw [if_pos hi]; intro h; exact absurd rfl h
      · rw [if_neg hi]
        split
        · rename_i hv
          intro _ _
          exact ⟨rfl, rfl, rfl, rfl, rfl, _, ⟨c.now, cn, .getSignatures ids⟩, ids, rfl, rfl, hs, hc, ⟨rfl, hv⟩, rfl⟩
        · rename_i hv
          intro _ _
          exact ⟨rfl, rfl, rfl, rfl, rfl, _, ⟨c.now, cn, .getBlockIds ids⟩, ids, rfl, rfl, hs, hc, ⟨rfl, by simpa [protobufVersion] using hv⟩, rfl⟩

theorem all_requestIDs_asked (c : Ctx) {o : Own} (tr : List Answer) (hs : o.obj.state = .waitingForIDs) :
    All (fun tr r => r.2 ≠ goPanic → NoFail tr → r.2 = .ok () ∧ r.1.obj.peer = o.obj.peer ∧ r.1.fc = o.fc ∧ r.1.active = o.active ∧
      r.1.obj.triggers = o.obj.triggers ∧ Asked o r.1) tr (requestIDs c o) := by
  intro r
  rcases (r : Go BlockID) with (e | _) | id
  · intro _ hn
    exact absurd ⟨e, rfl⟩ hn.last
  · intro h
    exact absurd rfl h
  · exact all_requestFrom_asked c id _ hs

theorem all_requestLCA_asked (c : Ctx) {o : Own} (tr : List Answer) (hs : o.obj.state = .waitingForIDs) :
    All (fun tr r => r.2 ≠ goPanic → NoFail tr → r.2 = .ok () ∧ r.1.obj.peer = o.obj.peer ∧ r.1.fc = o.fc ∧ r.1.active = o.active ∧
      r.1.obj.triggers = o.obj.triggers ∧ Asked o r.1) tr (requestIDsFromLCA c o) := by
  intro r
  rcases (r : Go BlockID) with (e | _) | id
  · intro _ hn
    exact absurd ⟨e, rfl⟩ hn.last
  · intro h
    exact absurd rfl h
  · exact all_requestFrom_asked c id _ hs

/-- the trigger that begins or continues a synchronisation -/
theorem all_started (c : Ctx) (n : Nat) {o : Own} {t : Trigger} (ht : t = .start ∨ t = .restart) (tr : List Answer) (hq : o.obj.triggers = [t])
    (hs : o.obj.state = .idle) (ha : o.active = true) : All (fun tr r => Went o tr r ∧ (r.2 ≠ goPanic → NoFail tr → r.1.active = true)) tr
      (drain c (n + 1) o) := by
  rw [drain, hq]
  have key : All (fun tr r => r.2 ≠ goPanic → NoFail tr → r.2 = .ok () ∧ r.1.obj.peer = o.obj.peer ∧ r.1.fc = o.fc ∧ r.1.active = o.active ∧
      r.1.obj.triggers = [] ∧ Asked o r.1) tr (execute c { o with obj := { o.obj with triggers := [] } } t) := by
    unfold execute
    rcases ht with rfl | rfl
    · show All _ tr (match handler o.obj.state .start with | none => _ | some .ignored => _ | some (.goto s) => _ | some .internal => _)
      rw [hs]
      exact all_requestIDs_asked c (o := { o with obj := { o.obj with triggers := [], state := .waitingForIDs } }) tr rfl
    · show All _ tr (match handler o.obj.state .restart with | none => _ | some .ignored => _ | some (.goto s) => _ | some .internal => _)
      rw [hs]
      exact all_requestLCA_asked c (o := { o with obj := { o.obj with triggers := [], state := .waitingForIDs } }) tr rfl
  refine key.bind ?_
  rintro ⟨o', r⟩ tr' _ h
  have fin : ∀ x : Go Unit, (x ≠ goPanic → r ≠ goPanic) → Went o tr' (o', x) ∧ (x ≠ goPanic → NoFail tr' → o'.active = true) := by
    intro x hx
    refine ⟨fun hp hn => ?_, fun hp hn => ?_⟩
    · obtain ⟨_, h2, h3, h4, h5, h6⟩ := h (hx hp) hn
      exact ⟨h2, fun a => by rw [h3]; exact Nat.le_refl _, Or.inl ⟨h4.trans ha, h5, h6⟩⟩
    · obtain ⟨_, _, _, h4, _, _⟩ := h (hx hp) hn
      exact h4.trans ha
  unfold andThen
  cases r with
  | error e => exact fin _ id
  | ok u =>
    by_cases hn : NoFail tr'
    · obtain ⟨_, _, _, _, h5, _⟩ := h (fun h => by cases h) hn
      simp only
      rw [drain_nil c n h5]
      exact fin _ (fun _ h => by cases h)
    · refine All.mono (Q := fun t _ => ∃ l, t = tr' ++ l) ?_ ?_
      · have := (all_any (fun _ _ => True) (fun _ _ => trivial) tr' (drain c n o')).bind (Q' := fun t (_ : Own × Go Unit) => ∃ l, t = tr' ++ l)
          (f := .ret) (fun a t hl _ => hl)
        rwa [bind_ret] at this
      · rintro t r ⟨l, rfl⟩
        exact ⟨fun _ h => absurd h.before hn, fun _ h => absurd h.before hn⟩

theorem all_spoilt {Q : List Answer → α → Prop} (hq : ∀ tr a, ¬ NoFail tr → Q tr a) : ∀ {p : Proc α} {tr : List Answer}, ¬ NoFail tr → All Q tr p
  | .ret a, tr, h => hq tr a h
  | .call _ _, _, h => fun _ => all_spoilt hq (fun hn => h hn.before)

/-- at the end of a batch -/
theorem all_completed (c : Ctx) (n : Nat) {o : Own} (tr : List Answer) (hq : o.obj.triggers = [.queueReady])
    (hs : o.obj.state = .waitingForBlocks) : All (Went o) tr (drain c (n + 2) o) := by
  rw [drain, hq]
  have key : All (fun tr r => r.2 ≠ goPanic → NoFail tr → r.2 = .ok () ∧ r.1.obj.peer = o.obj.peer ∧ Calm o r.1 ∧ r.1.out = o.out ∧
      ((r.1.active = false ∧ r.1.obj.triggers = []) ∨ (r.1.active = true ∧ r.1.obj.triggers = [.start] ∧ r.1.obj.state = .idle))) tr
      (execute c { o with obj := { o.obj with triggers := [] } } .queueReady) := by
    unfold execute
    show All _ tr (match handler o.obj.state .queueReady with | none => _ | some .ignored => _ | some (.goto s) => _ | some .internal => _)
    rw [hs]
    show All _ tr (OK { o with obj := { o.obj with triggers := [], state := .idle } })
    unfold OK
    split
    · rename_i hact
      intro r
      rcases (r : Go Peer) with (e | _) | p
      · intro _ hn; exact absurd ⟨e, rfl⟩ hn.last
      · intro h; exact absurd rfl h
      · intro r'
        rcases (r' : Go Nat) with (e | _) | score
        · intro _ hn; exact absurd ⟨e, rfl⟩ hn.last
        · intro h; exact absurd rfl h
        · simp only
          cases p.score with
          | none => intro h; exact absurd rfl h
          | some ps =>
            simp only
            split
            · intro _ _
              exact ⟨rfl, rfl, calm_reset o _, rfl, Or.inr ⟨hact.1, rfl, rfl⟩⟩
            · intro _ _
              exact ⟨rfl, rfl, calm_reset o _, rfl, Or.inl ⟨rfl, rfl⟩⟩
    · rename_i hact
      intro _ _
      exact ⟨rfl, rfl, Calm.refl o, rfl, Or.inl ⟨by simpa using hact, rfl⟩⟩
  refine key.bind ?_
  rintro ⟨o', r⟩ tr' _ h
  by_cases hn : NoFail tr'
  · unfold andThen
    cases r with
    | error e =>
      intro hp hn
      obtain ⟨h1, _⟩ := h hp hn
      cases h1
    | ok u =>
      obtain ⟨_, h2, h3, h4, h5⟩ := h (fun h => by cases h) hn
      simp only
      rcases h5 with ⟨ha, ht⟩ | ⟨ha, ht, hs'⟩
      · rw [drain_nil c (n + 1) ht]
        exact fun _ _ => ⟨h2, h3, Or.inr ⟨ha, [], by simpa using h4⟩⟩
      · refine (all_started c n (Or.inl rfl) tr' ht hs' ha).mono ?_
        rintro tr'' r ⟨hw, _⟩ hp hn
        obtain ⟨w1, w2, w3⟩ := hw hp hn
        have h4' : o'.out = o.out := h4
        refine ⟨w1.trans h2, fun a => Nat.le_trans (w2 a) (h3 a), ?_⟩
        rcases w3 with ⟨x, y, new, m, req, z⟩ | ⟨x, new, y⟩
        · rw [h4'] at z
          exact Or.inl ⟨x, y, new, m, req, z⟩
        · rw [h4'] at y
          exact Or.inr ⟨x, new, y⟩
  · exact all_spoilt (fun tr a h _ h' => absurd h' h) hn

theorem all_applyAll (c : Ctx) (peer : Addr) : ∀ (q : List Item) (i : Nat) (tr : List Answer),
    All (fun tr' r => r = goPanic ∨ r = .ok () ∨ Unsaved tr') tr (applyAll c peer i q)
  | [], _, _ => Or.inr (Or.inl rfl)
  | it :: q, i, tr => by
    unfold applyAll
    cases it.received with
    | none => exact Or.inl rfl
    | some b =>
      simp only
      intro r
      rcases (r : Go Unit) with (e | _) | u
      · exact Or.inr (Or.inr ⟨_, List.mem_append.mpr (Or.inr (List.mem_singleton.mpr rfl)), ⟨e, rfl⟩, _, _, _, _, rfl⟩)
      · exact Or.inl rfl
      · exact all_applyAll c peer q (i + 1) _

theorem Unsaved.spoils {tr : List Answer} (h : Unsaved tr) : ¬ NoFail tr := by
  obtain ⟨x, hx, hf, _⟩ := h
  exact fun hn => hn x hx hf

theorem requestBlockEach_fc (c : Ctx) : ∀ (ids : List BlockID) (o : Own), (requestBlockEach c o ids).1.fc = o.fc
  | [], _ => rfl
  | id :: ids, o => by
    unfold requestBlockEach
    cases o.obj.peer.conn with
    | none => rfl
    | some cn => exact requestBlockEach_fc c ids { o with out := o.out ++ [⟨c.now, cn, .getBlock id⟩] }

/-! ### one event -/

/-- what the loader waits for after the trigger `t`; `new` are the messages that it has sent meanwhile -/
inductive Next (o : Own) (t : Trigger) (new : List Sent) (o' : Own) : Prop where
  | asked (m : Sent) (req : List BlockID) (hm : new.getLast? = some m) (hs : o'.obj.state = .waitingForIDs) (hc : o'.obj.peer.conn = some m.to)
      (ha : AsksIDs m.to req m.msg) (htm : o'.obj.timestamp = m.time)
  | requested (l req : List BlockID) (cn : Conn) (now : Int) (h : o.obj.state = .waitingForIDs) (ht : t = .ids l) (hs : o'.obj.state = .waitingForBlocks) (hr : req ≠ [])
      (hl : ∃ pre, l = pre ++ req) (hq : o'.obj.queue = newQueue req) (hc : o'.obj.peer.conn = some cn)
      (hn : new = req.map (fun id => ⟨now, cn, .getBlock id⟩)) (htm : o'.obj.timestamp = now)
  | ids (h : o.obj.state = .waitingForIDs) (hs : o'.obj.state = .waitingForIDs) (hn : new = []) (ht : ∀ l, t ≠ .ids l)
      (htm : o'.obj.timestamp = o.obj.timestamp)
  | blocks (h : o.obj.state = .waitingForBlocks) (hs : o'.obj.state = .waitingForBlocks) (hn : new = [])
      (hb : ∀ b, t = .block b → o'.obj.queue = putOpt o.obj.queue b ∧ ready o'.obj.queue = false)
      (hq : (∀ b, t ≠ .block b) → o'.obj.queue = o.obj.queue) (htm : o'.obj.timestamp = o.obj.timestamp)

/-- after `Fire` -/
def FiredWell (o : Own) (t : Trigger) (tr : List Answer) (r : Own × Go Unit) : Prop :=
  r.2 ≠ goPanic → NoFail tr → r.1.obj.peer = o.obj.peer ∧
    (∀ a, count o.fc a < count r.1.fc a → a = o.peerID ∧ ∃ tm, t = .tick tm ∧ tm - o.obj.timestamp > timeoutDuration) ∧
    ∃ new, r.1.out = o.out ++ new ∧ (r.1.active = true → r.1.obj.triggers = [] ∧ Next o t new r.1)

theorem Went.firedWell {o base : Own} {t : Trigger} {tr : List Answer} {r : Own × Go Unit} (h : Went base tr r) (hp : base.obj.peer = o.obj.peer)
    (ho : base.out = o.out) (hf : base.fc = o.fc) : FiredWell o t tr r := by
  intro h1 h2
  obtain ⟨a1, a2, a3⟩ := h h1 h2
  refine ⟨a1.trans hp, fun a ha => ?_, ?_⟩
  · have := a2 a
    rw [hf] at this
    omega
  · rcases a3 with ⟨b1, b2, new, m, req, b3, b4, b5, b6, b7, b8⟩ | ⟨b1, new, b2⟩
    · exact ⟨new, by rw [← ho]; exact b3, fun _ => ⟨b2, .asked m req b4 b5 b6 b7 b8⟩⟩
    · exact ⟨new, by rw [← ho]; exact b2, fun h => by rw [b1] at h; cases h⟩

theorem fire_eq (c : Ctx) {o : Own} (t : Trigger) (hq : o.obj.triggers = []) :
    fire c o t = (execute c o t).bind (fun r => andThen r (drain c 2)) := by
  have he : (enqueue o t).obj.triggers = [t] := by
    show o.obj.triggers ++ [t] = _
    rw [hq]; rfl
  have ho : { (enqueue o t) with obj := { (enqueue o t).obj with triggers := [] } } = o := by
    unfold enqueue
    cases o with
    | mk active obj prevDiff fc out ticking =>
      cases obj
      simp only at hq
      subst hq
      rfl
  unfold fire
  rw [drain, he]
  simp only
  rw [ho]

theorem all_ids (c : Ctx) {o : Own} (l : List BlockID) (hq : o.obj.triggers = []) (hs : o.obj.state = .waitingForIDs) :
    All (FiredWell o (.ids l)) [] (fire c o (.ids l)) := by
  rw [fire_eq c _ hq]
  unfold execute
  rw [hs]
  show All _ [] ((requestBlocks c { o with obj := { o.obj with state := .waitingForBlocks } } l).bind _)
  have key : All (fun tr r => r.2 ≠ goPanic → NoFail tr →
      r = (enqueue { o with obj := { o.obj with state := .waitingForBlocks } } .queueReady, .ok ()) ∨
      (r.2 = .ok () ∧ r.1.obj.peer = o.obj.peer ∧ r.1.fc = o.fc ∧ r.1.obj.triggers = [] ∧ ∃ new, r.1.out = o.out ++ new ∧ Next o (.ids l) new r.1)) []
      (requestBlocks c { o with obj := { o.obj with state := .waitingForBlocks } } l) := by
    unfold requestBlocks
    refine (all_looped c _ l 0 [] (fun _ h => (List.not_mem_nil h).elim)).bind ?_
    rintro r tr' _ ⟨_, h, hf⟩
    rcases r with e | (_ | ⟨id, req⟩)
    · rcases e with e | _
      · intro _ hn
        obtain ⟨x, hx, hxf⟩ := hf e rfl
        exact absurd hxf (hn x hx)
      · intro h; exact absurd rfl h
    · exact fun _ _ => Or.inl rfl
    · obtain ⟨⟨⟨pre, hpre, _⟩, _⟩, _⟩ := h _ rfl
      show All _ _ (andThen _ _)
      unfold andThen
      cases hc : o.obj.peer.conn with
      | none =>
        have e : requestBlockEach c { o with obj := { o.obj with state := .waitingForBlocks, queue := newQueue (id :: req) } } (id :: req) =
            ({ o with obj := { o.obj with state := .waitingForBlocks, queue := newQueue (id :: req) } }, goPanic) := by
          show (match o.obj.peer.conn with | none => _ | some cn => _) = _
          rw [hc]
        show All _ _ (match (requestBlockEach c { o with obj := { o.obj with state := .waitingForBlocks, queue := newQueue (id :: req) } } (id :: req)).2
          with | .error e => _ | .ok () => _)
        rw [e]
        intro h; exact absurd rfl h
      | some cn =>
        obtain ⟨a, b⟩ := requestBlockEach_out c (cn := cn) (id :: req)
          { o with obj := { o.obj with state := .waitingForBlocks, queue := newQueue (id :: req) } } hc
        obtain ⟨d, _⟩ := requestBlockEach_same c (id :: req)
          { o with obj := { o.obj with state := .waitingForBlocks, queue := newQueue (id :: req) } }
        have e := requestBlockEach_fc c (id :: req)
          { o with obj := { o.obj with state := .waitingForBlocks, queue := newQueue (id :: req) } }
        show All _ _ (match (requestBlockEach c { o with obj := { o.obj with state := .waitingForBlocks, queue := newQueue (id :: req) } } (id :: req)).2
          with | .error e => _ | .ok () => _)
        rw [a]
        intro _ _
        refine Or.inr ⟨rfl, by simp only [d], e, by simp only [d]; exact hq, _, b, ?_⟩
        refine .requested l (id :: req) cn c.now hs rfl (by simp only [d]) (by simp) ⟨pre, hpre⟩ (by simp only [d]) (by simp only [d]; exact hc) rfl rfl
  refine key.bind ?_
  rintro ⟨o', r⟩ tr' _ h
  by_cases hn : NoFail tr'
  · unfold andThen
    cases r with
    | error e =>
      intro hp hn
      rcases h hp hn with h | ⟨h, _⟩ <;> cases h
    | ok u =>
      simp only
      rcases h (fun h => by cases h) hn with h | ⟨_, h2, h3, h4, new, h5, h6⟩
      · cases h
        refine (all_completed c 0 tr' ?_ rfl).mono (fun _ _ hw => hw.firedWell rfl rfl rfl)
        show o.obj.triggers ++ [Trigger.queueReady] = _
        rw [hq]; rfl
      · rw [drain_nil c 2 h4]
        intro _ _
        refine ⟨h2, fun a ha => ?_, new, h5, fun _ => ⟨h4, h6⟩⟩
        have h3 : o'.fc = o.fc := h3
        simp only [h3] at ha
        omega
  · exact all_spoilt (fun tr a h _ h' => absurd h' h) hn

theorem all_stays (c : Ctx) {o : Own} {t : Trigger} (hq : o.obj.triggers = []) (he : execute c o t = .ret (o, .ok ())) {Q : List Answer → Own × Go Unit → Prop}
    {tr : List Answer} (h : Q tr (o, .ok ())) : All Q tr (fire c o t) := by
  rw [fire_eq c _ hq, he]
  show All Q tr (andThen (o, .ok ()) (drain c 2))
  show All Q tr (drain c 2 o)
  rw [drain_nil c 2 hq]
  exact h

theorem all_block (c : Ctx) {o : Own} (b : Option ProtoBlock) (hq : o.obj.triggers = [])
    (hs : o.obj.state = .waitingForIDs ∨ o.obj.state = .waitingForBlocks) : All (FiredWell o (.block b)) [] (fire c o (.block b)) := by
  rcases hs with hs | hs
  · refine all_stays c hq ?_ (fun _ _ => ⟨rfl, fun a ha => absurd ha (Nat.lt_irrefl _), [], (List.append_nil _).symm, fun _ => ⟨hq, .ids hs hs rfl (fun l h => by cases h) rfl⟩⟩)
    unfold execute
    rw [hs]; rfl
  · rw [fire_eq c _ hq]
    unfold execute
    rw [hs]
    show All _ [] ((appendBlock c o b).bind _)
    unfold appendBlock
    simp only
    split
    · rename_i hr
      have key : All (fun tr r => r.2 ≠ goPanic → NoFail tr →
          r = (enqueue { o with obj := { o.obj with queue := putOpt o.obj.queue b } } .queueReady, .ok ())) []
          ((applyAll c { o with obj := { o.obj with queue := putOpt o.obj.queue b } }.peerID 0 (putOpt o.obj.queue b)).bind (fun r =>
            match r with
            | .error e => .ret ({ o with obj := { o.obj with queue := putOpt o.obj.queue b } }, .error e)
            | .ok () => .ret (enqueue { o with obj := { o.obj with queue := putOpt o.obj.queue b } } .queueReady, .ok ()))) := by
        refine (all_applyAll c _ _ 0 []).bind ?_
        rintro r tr' _ h
        rcases r with e | u
        · intro hp hn
          rcases h with h | h | h
          · cases h; exact absurd rfl hp
          · cases h
          · exact absurd hn h.spoils
        · exact fun _ _ => rfl
      refine key.bind ?_
      rintro ⟨o', r⟩ tr' _ h
      by_cases hn : NoFail tr'
      · unfold andThen
        cases r with
        | error e =>
          intro hp hn
          cases h hp hn
        | ok u =>
          have := h (fun h => by cases h) hn
          cases this
          simp only
          refine (all_completed c 0 (o := enqueue { o with obj := { o.obj with queue := putOpt o.obj.queue b } } .queueReady) tr' ?_ hs).mono
            (fun _ _ hw => hw.firedWell rfl rfl rfl)
          show o.obj.triggers ++ [Trigger.queueReady] = _
          rw [hq]; rfl
      · exact all_spoilt (fun tr a h _ h' => absurd h' h) hn
    · rename_i hr
      show All _ [] (drain c 2 _)
      rw [drain_nil c 2 (by exact hq)]
      refine fun _ _ => ⟨rfl, fun a ha => absurd ha (Nat.lt_irrefl _), [], (List.append_nil _).symm, fun _ => ⟨hq, .blocks hs hs rfl ?_ ?_ rfl⟩⟩
      · intro b' h
        cases h
        exact ⟨rfl, by simpa using hr⟩
      · exact fun h => absurd rfl (h b)

theorem all_failure (c : Ctx) {o : Own} (tr : List Answer) :
    All (fun tr r => r.2 = goPanic ∨ Unsaved tr ∨ r = (Fail o, .ok ())) tr (handleFailure c o) := by
  refine (all_applyPrefix c o.peerID o.obj.queue 0 tr).bind ?_
  rintro r tr' _ h
  rcases r with e | u
  · rcases h with h | h | h
    · cases h; exact Or.inl rfl
    · cases h
    · exact Or.inr (Or.inl h)
  · exact Or.inr (Or.inr rfl)

theorem all_tick (c : Ctx) {o : Own} (tm : Int) (hq : o.obj.triggers = [])
    (hs : o.obj.state = .waitingForIDs ∨ o.obj.state = .waitingForBlocks) : All (FiredWell o (.tick tm)) [] (fire c o (.tick tm)) := by
  have he : execute c o (.tick tm) = .ret (onTick o tm) := by
    unfold execute
    rcases hs with hs | hs <;> rw [hs] <;> rfl
  by_cases hl : tm - o.obj.timestamp > timeoutDuration
  · rw [fire_eq c _ hq, he]
    have hon : onTick o tm = (enqueue o .timeout, .ok ()) := by unfold onTick; rw [if_pos hl]
    rw [hon]
    show All _ [] (drain c 2 (enqueue o .timeout))
    have ht : (enqueue o .timeout).obj.triggers = [.timeout] := by
      show o.obj.triggers ++ [Trigger.timeout] = _
      rw [hq]; rfl
    rw [drain, ht]
    have hx : ∀ o1 : Own, o1.obj.state = o.obj.state → execute c o1 .timeout = handleFailure c { o1 with obj := { o1.obj with state := .done } } := by
      intro o1 h1
      unfold execute
      rw [h1]
      rcases hs with hs | hs <;> rw [hs] <;> rfl
    simp only
    rw [hx _ (by rfl)]
    refine (all_failure c []).bind ?_
    rintro ⟨o', r⟩ tr' _ h
    by_cases hn : NoFail tr'
    · rcases h with h | h | h
      · have h : r = goPanic := h
        subst h
        intro hp
        exact absurd rfl hp
      · exact absurd hn h.spoils
      · cases h
        show All _ tr' (drain c 1 _)
        have hd : ∀ o1 : Own, o1.obj.triggers = [] → (Fail o1).obj.triggers = [] := by
          intro o1 h
          unfold Fail
          split <;> exact h
        rw [drain_nil c 1 (hd _ rfl)]
        intro _ _
        unfold Fail
        by_cases ha : o.active = true
        · rw [if_pos ⟨ha, rfl⟩]
          refine ⟨rfl, fun a h => ?_, [], (List.append_nil _).symm, fun h => by cases h⟩
          have h : count o.fc a < count (inc o.fc o.peerID) a := h
          unfold inc at h
          rw [count_setCount] at h
          by_cases e : a = o.peerID
          · exact ⟨e, tm, rfl, hl⟩
          · rw [if_neg e] at h
            omega
        · rw [if_neg (fun h => ha h.1)]
          exact ⟨rfl, fun a h => absurd h (Nat.lt_irrefl _), [], (List.append_nil _).symm, fun h => absurd h ha⟩
    · exact all_spoilt (fun tr a h _ h' => absurd h' h) hn
  · have hon : onTick o tm = (o, .ok ()) := by unfold onTick; rw [if_neg hl]
    rw [hon] at he
    refine all_stays c hq he (fun _ _ => ⟨rfl, fun a ha => absurd ha (Nat.lt_irrefl _), [], (List.append_nil _).symm, fun _ => ⟨hq, ?_⟩⟩)
    rcases hs with hs | hs
    · exact .ids hs hs rfl (fun l h => by cases h) rfl
    · exact .blocks hs hs rfl (fun b h => by cases h) (fun _ => rfl) rfl

/-- what the loader waits for when it has handled the input `i`; `new` are the messages that it has sent meanwhile -/
inductive Then (o : Own) (i : Input) (new : List Sent) (o' : Own) : Prop where
  | asked (m : Sent) (req : List BlockID) (hm : new.getLast? = some m) (hs : o'.obj.state = .waitingForIDs) (hc : o'.obj.peer.conn = some m.to)
      (ha : AsksIDs m.to req m.msg) (htm : o'.obj.timestamp = m.time)
  | requested (l req : List BlockID) (cn : Conn) (now : Int) (h : o.obj.state = .waitingForIDs) (ht : i = .ids o'.obj.peer.addr l) (hs : o'.obj.state = .waitingForBlocks) (hr : req ≠ [])
      (hl : ∃ pre, l = pre ++ req) (hq : o'.obj.queue = newQueue req) (hc : o'.obj.peer.conn = some cn)
      (hn : new = req.map (fun id => ⟨now, cn, .getBlock id⟩)) (htm : o'.obj.timestamp = now)
  | ids (ha : o.active = true) (hp : o'.obj.peer = o.obj.peer) (h : o.obj.state = .waitingForIDs) (hs : o'.obj.state = .waitingForIDs) (hn : new = [])
      (ht : ∀ l, i = .ids o.obj.peer.addr l → l = []) (htm : o'.obj.timestamp = o.obj.timestamp)
  | blocks (ha : o.active = true) (hp : o'.obj.peer = o.obj.peer) (h : o.obj.state = .waitingForBlocks) (hs : o'.obj.state = .waitingForBlocks)
      (hn : new = []) (hb : ∀ b, i = .block o.obj.peer.addr b → o'.obj.queue = putOpt o.obj.queue b ∧ ready o'.obj.queue = false)
      (hq : (∀ b, i ≠ .block o.obj.peer.addr b) → o'.obj.queue = o.obj.queue) (htm : o'.obj.timestamp = o.obj.timestamp)

/-- after an event -/
def Afterwards (c : Ctx) (o : Own) (i : Input) (tr : List Answer) (r : Go Own) : Prop :=
  ∀ o', r = .ok o' → NoFail tr → (∀ a, count o.fc a < count o'.fc a → a = o.peerID ∧ o.active = true ∧ i = .tick ∧ c.now - o.obj.timestamp > timeoutDuration) ∧
    (o.active = true → o'.obj.peer = o.obj.peer) ∧ ∃ new, o'.out = o.out ++ new ∧ (o'.active = true → o'.obj.triggers = [] ∧ Then o i new o')

theorem all_after {c : Ctx} {o o1 : Own} {i : Input} {t : Trigger} {tr : List Answer} (H : All (FiredWell o1 t) tr (fire c o1 t)) (h1 : o1.out = o.out)
    (h2 : ∀ a, count o1.fc a ≤ count o.fc a) (h3 : ∀ tm, t = .tick tm → o1.peerID = o.peerID ∧ o.active = true ∧ i = .tick ∧ tm = c.now ∧ o1.obj.timestamp = o.obj.timestamp)
    (h5 : o1.obj.peer = o.obj.peer) (h4 : ∀ new o', o'.obj.peer = o1.obj.peer → Next o1 t new o' → Then o i new o') :
    All (Afterwards c o i) tr ((fire c o1 t).bind (fun r => .ret (logged r))) := by
  refine H.bind ?_
  rintro ⟨o', r⟩ tr' _ h o'' e hn
  unfold logged at e
  have hp : r ≠ goPanic := by
    intro hr
    subst hr
    cases e
  have e : o' = o'' := by
    cases r with
    | ok u => cases e; rfl
    | error x =>
      cases x with
      | panic => exact absurd rfl hp
      | err x => cases e; rfl
  subst e
  obtain ⟨a1, a2, new, a3, a4⟩ := h hp hn
  refine ⟨fun a ha => ?_, fun _ => a1.trans h5, new, by rw [← h1]; exact a3, fun ha => ⟨(a4 ha).1, h4 new o' a1 (a4 ha).2⟩⟩
  have hx := h2 a
  obtain ⟨b1, tm, b2, b3⟩ := a2 a (by simp only; omega)
  obtain ⟨d1, d2, d3, d4, d5⟩ := h3 tm b2
  rw [d4, d5] at b3
  exact ⟨b1.trans d1, d2, d3, b3⟩

theorem after_same {c : Ctx} {o : Own} {i : Input} {tr : List Answer} (h : o.active = true → o.obj.triggers = [] ∧ Then o i [] o) : Afterwards c o i tr (.ok o) := by
  intro o' e _
  cases e
  exact ⟨fun a ha => absurd ha (Nat.lt_irrefl _), fun _ => rfl, [], (List.append_nil _).symm, h⟩

theorem then_same {o : Own} {i : Input} (ha : o.active = true) (hs : o.obj.state = .waitingForIDs ∨ o.obj.state = .waitingForBlocks)
    (h1 : ∀ l, i = .ids o.obj.peer.addr l → l = []) (h2 : ∀ b, i ≠ .block o.obj.peer.addr b) : Then o i [] o := by
  rcases hs with hs | hs
  · exact .ids ha rfl hs hs rfl h1 rfl
  · exact .blocks ha rfl hs hs rfl (fun b h => absurd h (h2 b)) (fun _ => rfl) rfl

theorem all_begun (c : Ctx) {o : Own} (hi : ¬ o.active = true) (p : Peer) (tr : List Answer) : All (Afterwards c o .timer) tr
    (let o1 := { o with active := true, obj := newPeerLoader p }
     if count o1.fc p.addr ≥ restartThreshold then
       (restartSync c o1).bind (fun r =>
         match r with
         | .error e => .ret (.error e)
         | .ok o => continueSync c o)
     else continueSync c o1) := by
  have went : ∀ (o1 : Own) (tr : List Answer) (r : Own × Go Unit), o1.out = o.out → (∀ a, count o1.fc a ≤ count o.fc a) →
      (Went o1 tr r ∧ (r.2 ≠ goPanic → NoFail tr → r.1.active = true)) → ∀ o', logged r = .ok o' → NoFail tr →
      (∀ a, count o'.fc a ≤ count o.fc a) ∧ o'.active = true ∧ o'.obj.triggers = [] ∧ Asked o o' := by
    rintro o1 tr ⟨o2, r⟩ ho hc ⟨h1, h2⟩ o' e hn
    have hp : r ≠ goPanic := by
      intro hr
      subst hr
      unfold logged at e
      cases e
    have e : o2 = o' := by
      unfold logged at e
      cases r with
      | ok u => cases e; rfl
      | error x =>
        cases x with
        | panic => exact absurd rfl hp
        | err x => cases e; rfl
    subst e
    have ha := h2 hp hn
    obtain ⟨_, b2, b3⟩ := h1 hp hn
    rcases b3 with ⟨_, b4, new, m, req, b5⟩ | ⟨b4, _⟩
    · rw [ho] at b5
      exact ⟨fun a => Nat.le_trans (b2 a) (hc a), ha, b4, new, m, req, b5⟩
    · have : o2.active = true := ha
      rw [this] at b4; cases b4
  have fin : ∀ (tr : List Answer) (o' : Own), ((∀ a, count o'.fc a ≤ count o.fc a) ∧ o'.active = true ∧ o'.obj.triggers = [] ∧ Asked o o') →
      Afterwards c o .timer tr (.ok o') := by
    rintro tr o' ⟨b1, _, b3, new, m, req, b4, b5, b6, b7, b8, b9⟩ o'' e _
    cases e
    refine ⟨fun a ha => ?_, fun h => absurd h hi, new, b4, fun _ => ⟨b3, .asked m req b5 b6 b7 b8 b9⟩⟩
    have := b1 a
    omega
  simp only
  split
  · unfold restartSync
    have H := (all_started c 2 (o := enqueue { o with active := true, obj := newPeerLoader p, ticking := true, fc := reset o.fc p.addr } .restart)
      (t := .restart) (Or.inr rfl) tr rfl rfl rfl)
    have H2 : All (fun tr r => ∀ o', r = .ok o' → NoFail tr → (∀ a, count o'.fc a ≤ count o.fc a) ∧ o'.active = true ∧ o'.obj.triggers = [] ∧ Asked o o') tr
        ((fire c { o with active := true, obj := newPeerLoader p, ticking := true, fc := reset o.fc p.addr } .restart).bind (fun r => .ret (logged r))) := by
      refine H.bind ?_
      intro r tr' _ h
      exact went (enqueue { o with active := true, obj := newPeerLoader p, ticking := true, fc := reset o.fc p.addr } .restart) tr' r rfl
        (calm_reset o p.addr) h
    refine H2.bind ?_
    rintro (e | o') tr' _ h
    · intro o' e'; cases e'
    · by_cases hn : NoFail tr'
      · obtain ⟨b1, b2, b3, b4⟩ := h o' rfl hn
        show All _ tr' (continueSync c o')
        unfold continueSync
        rw [if_pos b2]
        have he : execute c { o' with ticking := true } .start = .ret ({ o' with ticking := true }, .ok ()) := by
          unfold execute
          obtain ⟨_, _, _, _, _, hs, _⟩ := b4
          show (match handler o'.obj.state .start with | none => _ | some .ignored => _ | some (.goto s) => _ | some .internal => _) = _
          rw [hs]; rfl
        have : fire c { o' with ticking := true } .start = .ret ({ o' with ticking := true }, .ok ()) := by
          rw [fire_eq c _ (by exact b3), he]
          show drain c 2 _ = _
          rw [drain_nil c 2 (by exact b3)]
        rw [this]
        exact fin tr' _ ⟨b1, b2, b3, b4⟩
      · exact all_spoilt (fun tr a h o' _ h' => absurd h' h) hn
  · unfold continueSync
    rw [if_pos rfl]
    refine (all_started c 2 (o := enqueue { o with active := true, obj := newPeerLoader p, ticking := true } .start)
      (t := .start) (Or.inl rfl) tr rfl rfl rfl).bind ?_
    intro r tr' _ h
    show Afterwards c o .timer tr' (logged r)
    intro o' e hn
    exact fin tr' o' (went (enqueue { o with active := true, obj := newPeerLoader p, ticking := true } .start) tr' r rfl
      (fun a => Nat.le_refl _) h o' e hn) o' rfl hn

/-- what the loader waits for after an event -/
theorem all_afterwards (c : Ctx) (o : Own) (i : Input)
    (hw : o.active = true → o.obj.triggers = [] ∧ (o.obj.state = .waitingForIDs ∨ o.obj.state = .waitingForBlocks)) :
    All (Afterwards c o i) [] (handle c o i) := by
  cases i with
  | ids a l =>
    show All _ [] (handleIDs c o a l)
    unfold handleIDs
    split
    · rename_i ha
      exact after_same (fun h => by rw [ha] at h; cases h)
    · rename_i ha
      have ha : o.active = true := by simpa using ha
      obtain ⟨hq, hs⟩ := hw ha
      split
      · rename_i hl
        exact after_same (fun _ => ⟨hq, then_same ha hs (fun l' h => by cases h; exact hl) (fun b h => by cases h)⟩)
      · split
        · rename_i hp
          exact after_same (fun _ => ⟨hq, then_same ha hs (fun l' h => by cases h; exact absurd rfl hp) (fun b h => by cases h)⟩)
        · rename_i hl hp
          have hp : a = o.peerID := by simpa using hp
          subst hp
          rcases hs with hs | hs
          · refine all_after (all_ids c l hq hs) rfl (fun _ => Nat.le_refl _) (fun tm h => by cases h) rfl ?_
            intro new o' hpe hn
            cases hn with
            | asked m req h1 h2 h3 h4 h5 => exact .asked m req h1 h2 h3 h4 h5
            | requested l' req cn now h0 h1 h2 h3 h4 h5 h6 h7 h8 =>
              cases h1
              exact .requested l req cn now h0 (by rw [hpe]; rfl) h2 h3 h4 h5 h6 h7 h8
            | ids _ _ _ h => exact absurd rfl (h l)
            | blocks h => rw [hs] at h; cases h
          · have : All (FiredWell o (.ids l)) [] (fire c o (.ids l)) := by
              refine all_stays c hq ?_ (fun _ _ => ⟨rfl, fun a ha => absurd ha (Nat.lt_irrefl _), [], (List.append_nil _).symm,
                fun _ => ⟨hq, .blocks hs hs rfl (fun b h => by cases h) (fun _ => rfl) rfl⟩⟩)
              unfold execute
              rw [hs]; rfl
            refine all_after this rfl (fun _ => Nat.le_refl _) (fun tm h => by cases h) rfl ?_
            intro new o' hpe hn
            cases hn with
            | asked m req h1 h2 h3 h4 h5 => exact .asked m req h1 h2 h3 h4 h5
            | requested l' req cn now h0 h1 h2 h3 h4 h5 h6 h7 h8 =>
              cases h1
              exact .requested l req cn now h0 (by rw [hpe]; rfl) h2 h3 h4 h5 h6 h7 h8
            | ids h => rw [hs] at h; cases h
            | blocks h1 h2 h3 h4 h5 h6 => exact .blocks ha hpe h1 h2 h3 (fun b h => by cases h) (fun _ => h5 (fun b h => by cases h)) h6
  | block a b =>
    show All _ [] (handleBlock c o a b)
    unfold handleBlock
    split
    · rename_i ha
      exact after_same (fun h => by rw [ha] at h; cases h)
    · rename_i ha
      have ha : o.active = true := by simpa using ha
      obtain ⟨hq, hs⟩ := hw ha
      split
      · rename_i hp
        exact after_same (fun _ => ⟨hq, then_same ha hs (fun l' h => by cases h) (fun b h => by cases h; exact absurd rfl hp)⟩)
      · rename_i hp
        have hp : a = o.peerID := by simpa using hp
        subst hp
        refine all_after (all_block c b hq hs) rfl (fun _ => Nat.le_refl _) (fun tm h => by cases h) rfl ?_
        intro new o' hpe hn
        cases hn with
        | asked m req h1 h2 h3 h4 h5 => exact .asked m req h1 h2 h3 h4 h5
        | requested l' req cn now _ h1 => cases h1
        | ids h1 h2 h3 h4 h5 => exact .ids ha hpe h1 h2 h3 (fun l h => by cases h) h5
        | blocks h1 h2 h3 h4 h5 h6 =>
          refine .blocks ha hpe h1 h2 h3 (fun b' h => ?_) (fun h => absurd rfl (h b)) h6
          cases h
          exact h4 b rfl
  | tick =>
    show All _ [] (tick c o)
    unfold tick
    split
    · rename_i ha
      obtain ⟨hq, hs⟩ := hw ha
      refine all_after (all_tick c c.now hq hs) rfl (fun _ => Nat.le_refl _) (fun tm h => ⟨rfl, ha, rfl, by cases h; rfl, rfl⟩) rfl ?_
      intro new o' hpe hn
      cases hn with
      | asked m req h1 h2 h3 h4 h5 => exact .asked m req h1 h2 h3 h4 h5
      | requested l' req cn now _ h1 => cases h1
      | ids h1 h2 h3 h4 h5 => exact .ids ha hpe h1 h2 h3 (fun l h => by cases h) h5
      | blocks h1 h2 h3 h4 h5 h6 => exact .blocks ha hpe h1 h2 h3 (fun b h => by cases h) (fun _ => h5 (fun b h => by cases h)) h6
    · rename_i ha
      exact after_same (fun h => absurd h ha)
  | timer =>
    show All _ [] (sync c o)
    unfold sync
    split
    · rename_i ha
      obtain ⟨hq, hs⟩ := hw ha
      exact after_same (fun _ => ⟨hq, then_same ha hs (fun l' h => by cases h) (fun b h => by cases h)⟩)
    · rename_i ha
      intro r
      rcases (r : Go (List Peer)) with (e | _) | ps
      · exact after_same (fun h => absurd h ha)
      · intro o' h; cases h
      · refine (all_any (fun _ _ => True) (fun _ _ => trivial) _ (lagLoop ps)).bind ?_
        intro lag tr' _ _
        by_cases hl : lag = []
        · rw [if_pos hl]
          exact after_same (fun h => absurd h ha)
        · rw [if_neg hl]
          cases goIndex lag (c.rand lag.length % lag.length) with
          | error x => intro o' h; cases h
          | ok p => exact all_begun c ha p tr'

end Verif.Loading.Fine
