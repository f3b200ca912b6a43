import Verif.Services.SideLemmas
import Verif.Services.WholeSteps
import Verif.Services.FaultyEvents
/-
The end of a synchronisation can be reached by messages while the goroutines work side by side, and how it begins: lemmas for
property C107.
-/

set_option autoImplicit false

namespace Verif.Services.Fine

open Verif
open Verif.Chains (Addr BlockID ProtoBlock MicroInv Linkage LeashOf)
open Verif.Chains.Spec (Stored)
open Verif.Peers (Lib Registry)
open Verif.Loading (Ctx Begun GenuineMicro History Serving worth Faithful Announced Source Sent part ready putOpt lastWith Shares)
open Verif.Loading.Fine (World Shared Disk Other Input Answer Call RdStep RdRun Own Proc Underway Between Ends Later Sound Leads Expects
  AfterBlock AfterIds calls_append logged logged_alive ok_alive fire received received_from Opened)
open Verif.KV (Fate)

variable {lib : Lib} {g : ProtoBlock} {N : Nat} {peer : Addr} {s s0 : Nat} {ch : List ProtoBlock} {src : Source} {x0 x x' : Sys} {es : List Ev}

/-- the events that bring the synchronisation to its end: the loader goes on and takes what it is given, and the peer sends ids and blocks
of its history -/
inductive Helps (ch : List ProtoBlock) (c : Ctx) (q : Sender) : Ev → Prop where
  | go : Helps ch c q (.go .good)
  | take : Helps ch c q (.take c)
  | ids (l : List BlockID) (h : ∀ id, id ∈ l → ∃ b, b ∈ ch ∧ b.id = id) : Helps ch c q (.message .good c q (.blockIds l))
  | block (b : ProtoBlock) (h : b ∈ ch) : Helps ch c q (.message .good c q (.block (some b)))

theorem civil_go (x : Sys) : Civil peer s s0 ch x (.go .good) where
  disk := fun _ h => (by cases h; rfl)
  score := fun _ _ _ _ h => (by cases h)
  ids := fun _ _ h => (by cases h)
  forth := fun _ _ _ h => (by cases h)
  take := fun _ h => (by cases h)
  tick := fun _ h => (by cases h)
  block := fun _ _ _ _ h => (by rcases h with h | h <;> cases h)
  micro := fun _ _ _ _ h => (by cases h)
  held := fun _ _ h => (by cases h)

theorem civil_take {c : Ctx} (hf : ∀ j, c.fates j = .ok) (h1 : ∀ ids, x.dist = .sending (.ids peer ids) → Answers ch (x.world.own.on x.world.sh) ids)
    (h2 : ∀ b, x.dist = .sending (.block peer b) → Loading.Genuine ch b) : Civil peer s s0 ch x (.take c) where
  disk := fun _ h => (by cases h)
  score := fun _ _ _ _ h => (by cases h)
  ids := fun _ ids _ => h1 ids
  forth := fun _ _ _ h => (by cases h)
  take := fun _ h => (by cases h; exact hf)
  tick := fun _ h => (by cases h)
  block := fun _ _ _ _ h => (by rcases h with h | h <;> cases h)
  micro := fun _ _ _ _ h => (by cases h)
  held := fun _ b _ => h2 b

theorem civil_block (c : Ctx) (q : Sender) (ht : x.world.todo = none) {b : ProtoBlock} (hb : Loading.Genuine ch b) :
    Civil peer s s0 ch x (.message .good c q (.block (some b))) where
  disk := fun _ h => (by cases h)
  score := fun _ _ _ _ h => (by cases h)
  ids := fun _ _ h => (by cases h)
  forth := fun h => absurd ht h
  take := fun _ h => (by cases h)
  tick := fun _ h => (by cases h)
  block := fun _ _ _ _ h => (by rcases h with h | h <;> cases h; exact hb)
  micro := fun _ _ _ _ h => (by cases h)
  held := fun _ _ h => (by cases h)

theorem civil_ids (x : Sys) (c : Ctx) (q : Sender) (l : List BlockID) : Civil peer s s0 ch x (.message .good c q (.blockIds l)) where
  disk := fun _ h => (by cases h)
  score := fun _ _ _ _ h => (by cases h)
  ids := fun _ _ h => (by cases h)
  forth := fun _ _ _ h => (by cases h)
  take := fun _ h => (by cases h)
  tick := fun _ h => (by cases h)
  block := fun _ _ _ _ h => (by rcases h with h | h <;> cases h)
  micro := fun _ _ _ _ h => (by cases h)
  held := fun _ _ h => (by cases h)

/-- what holds at every moment -/
abbrev Kept (lib : Lib) (g : ProtoBlock) (N : Nat) (peer : Addr) (s s0 : Nat) (ch : List ProtoBlock) (x0 : Sys) : Prop :=
  ∀ es x, Side lib peer s s0 ch x0 es x → Chains.Spec.inserts x.world.calls ≤ N → ∃ src, Underway lib g N src peer s s0 ch x0.world x.world

/-- the loader alone ends the handling of an event -/
theorem lone_side (hK : Kept lib g N peer s s0 ch x0) (c0 : Ctx) (q0 : Sender) {Q : Go Own → Shared → Prop} (p : Proc (Go Own)) : ∀ {es : List Ev} {x : Sys} {m : Nat},
      Side lib peer s s0 ch x0 es x → x.world.todo = some p → x.main ≠ .exited → Leads lib g peer s s0 ch m Q p x.world.sh →
      Chains.Spec.inserts x.world.calls + m ≤ N →
      ∃ es' w', Side lib peer s s0 ch x0 (es ++ es') { x with world := w' } ∧ (∀ e, e ∈ es' → Helps ch c0 q0 e) ∧ w'.todo = none ∧
        Chains.Spec.inserts w'.calls ≤ Chains.Spec.inserts x.world.calls + m ∧ Q (.ok w'.own) w'.sh := by
  induction p with
  | ret r =>
    intro es x m h ht hm L hN
    obtain ⟨src, K⟩ := hK es x h (by omega)
    have hq := L x.world.sh (Between.refl _) (K.good.mono (Nat.zero_le _))
    obtain ⟨more, _, _, L'⟩ := K.phase
    obtain ⟨ha, L'⟩ := L' _ ht
    obtain ⟨o, out', rfl, _⟩ := L' x.world.sh (Between.refl _) (K.good.mono (Nat.zero_le _))
    refine ⟨[.go .good], { x.world with own := o, todo := none }, .step (.go .good) h ha (civil_go x) ?_, ?_, rfl, Nat.le_add_right _ _, hq⟩
    · simp only [Sys.step, if_neg hm, Sys.go, ht]
    · intro e he; rw [List.mem_singleton.mp he]; exact .go
  | call c k ih =>
    intro es x m h ht hm L hN
    obtain ⟨src, K⟩ := hK es x h (by omega)
    obtain ⟨hc, L⟩ := L x.world.sh (Between.refl _) (K.good.mono (Nat.zero_le _))
    obtain ⟨h1, _, _, L⟩ := L (K.good.mono (by omega))
    obtain ⟨more, _, _, L'⟩ := K.phase
    obtain ⟨ha, L'⟩ := L' _ ht
    obtain ⟨_, L'⟩ := L' x.world.sh (Between.refl _) (K.good.mono (Nat.zero_le _))
    obtain ⟨_, _, _, L'⟩ := L' (K.good.mono (by omega))
    have hal : ∀ e, k (c.res lib x.world.sh) ≠ .ret (.error e) := by
      intro e he
      rw [he] at L'
      obtain ⟨o, _, h2, _⟩ := L' _ (Between.refl _) (h1 0 (K.good.mono (by omega)))
      cases h2
    have hcalls : Chains.Spec.inserts (World.calls ⟨x.world.own, some (k (c.res lib x.world.sh)), c.effect x.world.sh, x.world.ins,
        x.world.log ++ (c.op.map (fun o => (true, o))).toList⟩) = Chains.Spec.inserts x.world.calls + c.cost := by
      show Chains.Spec.inserts ((x.world.log ++ (c.op.map (fun o => (true, o))).toList).map (·.2)) = _
      rw [calls_append, Chains.inserts_append]; rfl
    have hstep : x.step lib (.go .good) = some (.ok { x with world := ⟨x.world.own, some (k (c.res lib x.world.sh)), c.effect x.world.sh, x.world.ins,
        x.world.log ++ (c.op.map (fun o => (true, o))).toList⟩ }) := by
      simp only [Sys.step, if_neg hm, Sys.go, ht, Loading.Fine.Call.res_good, Loading.Fine.Call.effect_good]
    obtain ⟨es', w', e1, e2, e3, e4, e5⟩ := ih _ (.step (.go .good) h ha (civil_go x) hstep) rfl hm L (by rw [hcalls]; omega)
    refine ⟨.go .good :: es', w', ?_, ?_, e3, ?_, e5⟩
    · rw [List.append_assoc] at e1; exact e1
    · intro e he
      rcases List.mem_cons.mp he with rfl | he
      · exact .go
      · exact e2 e he
    · rw [hcalls] at e4; omega

/-- the goroutines that a synchronisation needs are there, and the distributor holds nothing -/
structure Ready (x : Sys) : Prop where
  main : x.main ≠ .exited
  loader : x.loaderUp = true
  dist : x.dist = .ready
  rest : x.world.todo = none

/-- the loader takes a package and handles it -/
theorem take_side (hK : Kept lib g N peer s s0 ch x0) (q0 : Sender) {Q : Go Own → Shared → Prop} (h : Side lib peer s s0 ch x0 es x)
    (ha : x.world.own.active = true) (hm : x.main ≠ .exited) (hl : x.loaderUp = true) (ht : x.world.todo = none) {pk : Pkg} (hd : x.dist = .sending pk) {c : Ctx}
    (hf : ∀ j, c.fates j = .ok) (h1 : ∀ ids, x.dist = .sending (.ids peer ids) → Answers ch (x.world.own.on x.world.sh) ids)
    (h2 : ∀ b, x.dist = .sending (.block peer b) → Loading.Genuine ch b) {m : Nat}
    (L : Leads lib g peer s s0 ch m Q (Loading.Fine.handle c x.world.own pk.input) x.world.sh) (hN : Chains.Spec.inserts x.world.calls + m ≤ N) :
    ∃ es' x', Side lib peer s s0 ch x0 (es ++ es') x' ∧ (∀ e, e ∈ es' → Helps ch c q0 e) ∧ Ready x' ∧
      Chains.Spec.inserts x'.world.calls ≤ Chains.Spec.inserts x.world.calls + m ∧ Q (.ok x'.world.own) x'.world.sh := by
  have hs : x.step lib (.take c) = some (.ok { x with world := x.world.receive c pk.input, dist := .ready, taken := x.taken ++ [pk] }) := by
    simp only [Sys.step, if_neg hm, hd, guarded, Sys.waits, hl, ht]
    rfl
  obtain ⟨es', w', e1, e2, e3, e4, e5⟩ := lone_side hK c q0 _ (.step (.take c) h ha (civil_take hf h1 h2) hs) rfl hm L hN
  refine ⟨.take c :: es', { x with world := w', dist := .ready, taken := x.taken ++ [pk] }, by rw [List.append_assoc] at e1; exact e1, ?_, ⟨hm, hl, rfl, e3⟩, e4, e5⟩
  intro e he
  rcases List.mem_cons.mp he with rfl | he
  · exact .take
  · exact e2 e he

/-- the message with the block arrives -/
theorem say_block (H : History ch) (hK : Kept lib g N peer s s0 ch x0) (h : Side lib peer s s0 ch x0 es x) (ha : x.world.own.active = true) (hr : Ready x)
    {c : Ctx} (hf : ∀ j, c.fates j = .ok) {q : Sender} (hq : q.remote = some peer) {i : Nat} {b : ProtoBlock} (hb : ch[i + 1]? = some b)
    (hN : Chains.Spec.inserts x.world.calls + 1 ≤ N) :
    ∃ x', Side lib peer s s0 ch x0 (es ++ [.message .good c q (.block (some b))]) x' ∧ x'.main ≠ .exited ∧ x'.loaderUp = true ∧ x'.world.todo = none ∧
      x'.dist = .sending (.block peer b) ∧ x'.world.own = x.world.own ∧ Later x.world.sh x'.world.sh ∧
      Chains.Spec.inserts x'.world.calls = Chains.Spec.inserts x.world.calls + 1 := by
  obtain ⟨src, K⟩ := hK es x h (by omega)
  have S : Serving g (0 + 1) x.world.sh.link := K.steady.sound.store.mono (by omega)
  have hgb := Loading.Genuine.of_mem H (List.mem_of_getElem? hb)
  obtain ⟨_, hl⟩ := K.steady.other (.putBlock b peer .ok .ok) (fun _ => Other.sound (.putBlock b peer .ok .ok)) (s' := (Other.putBlock b peer .ok .ok).effect lib x.world.sh)
    (by show _ + 1 ≤ N; exact hN)
  have key : receive .good lib c x.world.sh q (.block (some b)) = .ok { sh := (Other.putBlock b peer .ok .ok).effect lib x.world.sh, call := some (.putBlock b peer .ok .ok), pkg := some (.block peer b) } := by
    rw [receive_eq]
    have e1 : Chains.Rd.PutBlock Disk.good.chains .ok .ok x.world.sh.link.db b peer = Chains.PutBlock .ok .ok x.world.sh.link.db b peer :=
      putBlock_good .ok .ok _ b peer
    simp only [handleMessage, handleBlock, hq, hf 0, hf 1, e1]
    rcases put_outcome S H hb peer with h | h <;> rw [h] <;> rfl
  refine ⟨{ x with world := x.world.called ((Other.putBlock b peer .ok .ok).effect lib x.world.sh) (some (.putBlock b peer .ok .ok)), out := x.out ++ [], sent := x.sent ++ [.block peer b], dist := .sending (.block peer b) }, .step _ h ha (civil_block c q hr.rest hgb) ?_, hr.main, hr.loader, hr.rest, rfl, rfl, hl, ?_⟩
  · simp only [Sys.step, if_neg hr.main, hr.dist, decide_true, guarded, key]
    rfl
  · show Chains.Spec.inserts ((x.world.log ++ ((Other.op (.putBlock b peer .ok .ok)).map (fun o => (false, o))).toList).map (·.2)) = _
    rw [calls_append, Chains.inserts_append]; rfl

/-- the message with the ids arrives -/
theorem say_ids (h : Side lib peer s s0 ch x0 es x) (ha : x.world.own.active = true) (hr : Ready x) (c : Ctx) {q : Sender} (hq : q.remote = some peer)
    {l : List BlockID} (hne : l ≠ []) :
    Side lib peer s s0 ch x0 (es ++ [.message .good c q (.blockIds l)]) { x with out := x.out ++ [], sent := x.sent ++ [.ids peer l], dist := .sending (.ids peer l) } := by
  refine .step _ h ha (civil_ids x c q l) ?_
  have key : receive .good lib c x.world.sh q (.blockIds l) = .ok { sh := x.world.sh, pkg := some (.ids peer l) } := by
    rw [receive_eq]
    simp only [handleMessage, handleBlockIDs, hq, if_neg hne]
  simp only [Sys.step, if_neg hr.main, hr.dist, decide_true, guarded, key, Sys.handled, called_none]
  rfl

theorem part_index {k j : Nat} {b : ProtoBlock} (h : b ∈ part ch (k + 1) j) : ∃ i, ch[i + 1]? = some b := by
  unfold part at h
  obtain ⟨i, hi⟩ := List.getElem?_of_mem h
  rw [List.getElem?_drop] at hi
  have := (List.getElem?_eq_some_iff.mp hi).1
  rw [List.length_take] at this
  rw [List.getElem?_take, if_pos (by omega)] at hi
  exact ⟨k + i, by rw [← hi]; congr 1; omega⟩

theorem helps_append {c : Ctx} {q : Sender} {es1 es2 : List Ev} (h1 : ∀ e, e ∈ es1 → Helps ch c q e) (h2 : ∀ e, e ∈ es2 → Helps ch c q e) :
    ∀ e, e ∈ es1 ++ es2 → Helps ch c q e := by
  intro e he
  rcases List.mem_append.mp he with h | h
  · exact h1 e h
  · exact h2 e h

/-- the blocks that are missing come one after the other -/
theorem feed_side (H : History ch) (hscore : s = worth s0 ch (ch.length - 1)) (hK : Kept lib g N peer s s0 ch x0) {c : Ctx}
    (hf : ∀ j, c.fates j = .ok) {q : Sender} (hq : q.remote = some peer) (xs : List ProtoBlock) :
    ∀ {es : List Ev} {x : Sys} {more : List Sent} {k j : Nat} {a : ProtoBlock} {arrived : List ProtoBlock},
      Side lib peer s s0 ch x0 es x → Ready x → Chains.Spec.inserts x.world.calls + xs.length + ch.length ≤ N →
      Expects x0.world.own.prevDiff s s0 ch x.world.own x.world.sh more k a arrived j →
      (∀ x, x ∈ xs → x ∈ part ch (k + 1) j) → (∀ x, x ∈ part ch (k + 1) j → x ∈ arrived ∨ x ∈ xs) →
      ∃ es' x', Side lib peer s s0 ch x0 (es ++ es') x' ∧ (∀ e, e ∈ es' → Helps ch c q e) ∧ Ready x' ∧
        Chains.Spec.inserts x'.world.calls ≤ Chains.Spec.inserts x.world.calls + xs.length + ch.length ∧
        (j + 1 = ch.length → x'.world.own.active = false) ∧ (x'.world.own.active = true → x'.world.own.obj.state = .waitingForIDs) := by
  induction xs with
  | nil =>
    intro es x more k j a arrived _ _ _ E _ hall
    exfalso
    have hA : Loading.Answer ((part ch (k + 1) j).map (·.id)) arrived (part ch (k + 1) j) := by
      refine ⟨rfl, fun b hb => ?_⟩
      cases hl : lastWith b.id arrived with
      | none => rcases hall b hb with h | h
                · exact absurd rfl (Loading.lastWith_none hl b h)
                · cases h
      | some x =>
        obtain ⟨hx, he⟩ := Loading.lastWith_some hl
        have := E.genuine x hx b (Loading.part_sub hb) he.symm
        rw [this] at hl; exact hl
    have hn := E.waits
    rw [E.queue, Loading.answer_ready (Loading.part_nodup H _ _) hA] at hn
    cases hn
  | cons b xs ih =>
    intro es x more k j a arrived h hr hN E hxs hall
    have hbp := hxs b List.mem_cons_self
    obtain ⟨i, hi⟩ := part_index hbp
    have hgx := Loading.Genuine.of_mem H (List.mem_of_getElem? hi)
    have hb : ∀ y, some b = some y → Loading.Genuine ch y := fun y hy => by cases hy; exact hgx
    rw [List.length_cons] at hN
    obtain ⟨x1, h1, hm1, hl1, ht1, hd1, ho1, hlt, hc1⟩ := say_block H hK h E.active hr hf hq hi (by omega)
    obtain ⟨src, K⟩ := hK _ x1 h1 (by omega)
    obtain ⟨F, hqu⟩ := K.steady.rest ht1
    have E1 : Expects x0.world.own.prevDiff s s0 ch x1.world.own x1.world.sh more k a arrived j := by rw [ho1]; exact E.later hlt
    have hh : Loading.Fine.handle c x1.world.own (Pkg.block peer b).input = (fire c x1.world.own (.block (some b))).bind (fun r => .ret (logged r)) := by
      simp only [Pkg.input, Loading.Fine.handle, Loading.Fine.handleBlock]
      rw [if_neg (by rw [E1.active]; simp), if_neg (by rw [K.who]; simp)]
    have L : Leads lib g peer s s0 ch (if ready (putOpt x1.world.own.obj.queue (some b)) = true then j - k else 0)
        (fun r y => ∃ r', r = logged r' ∧ ∃ z, Later x1.world.sh y ∧ AfterBlock x0.world.own.prevDiff peer s s0 ch x1.world.own more j (some b) r' z)
        (Loading.Fine.handle c x1.world.own (Pkg.block peer b).input) x1.world.sh := by
      rw [hh]
      refine (Loading.Fine.leads_block H hscore hf hqu K.who (F.conn E1.active) E1 (some b) hb).seq ?_
      intro r y hl _ hy z hz _
      exact ⟨r, rfl, y, hl.trans hz.later, hy⟩
    have hjk := E1.last
    have said : ∀ e, e ∈ [Ev.message .good c q (.block (some b))] → Helps ch c q e := fun e he => by
      rw [List.mem_singleton.mp he]; exact .block b (List.mem_of_getElem? hi)
    have takes := fun (m : Nat) Q (L : Leads lib g peer s s0 ch m Q _ _) hN => take_side hK q h1 E1.active hm1 hl1 ht1 hd1 hf
      (fun ids hx => by rw [hd1] at hx; cases hx) (fun y hy => by rw [hd1] at hy; cases hy; exact hgx) (Q := Q) L hN
    by_cases hre : ready (putOpt x1.world.own.obj.queue (some b)) = true
    · rw [if_pos hre] at L
      obtain ⟨es', x', h2, h3, h4, h5, r, hr', z, hz, A⟩ := takes _ _ L (by omega)
      refine ⟨_, x', by rw [List.append_assoc] at h2; exact h2, helps_append said h3, h4, by rw [List.length_cons]; omega, ?_⟩
      cases A with
      | waiting hn => rw [hre] at hn; cases hn
      | complete _ B =>
        have hown : x'.world.own = r.1 := Except.ok.inj (hr'.trans (logged_alive (by rw [B.fine]; exact ok_alive)))
        obtain ⟨out', _, _, hs⟩ := B.stage
        rw [hown]
        exact ⟨B.last, fun ha => (hs ha).1⟩
    · rw [if_neg hre] at L
      obtain ⟨es', x', h2, h3, h4, h5, r, hr', z, hz, A⟩ := takes _ _ L (by omega)
      cases A with
      | complete hy => exact absurd hy hre
      | waiting hn hw =>
        subst hw
        have hown : x'.world.own = { x1.world.own with obj := { x1.world.own.obj with queue := putOpt x1.world.own.obj.queue (some b) } } :=
          Except.ok.inj hr'
        have hst : Stored x'.world.sh.link.db a.id := hz.stored _ E1.stored
        have E' := ((E1.put (some b) hb).2.2 hn)
        have E'' : Expects x0.world.own.prevDiff s s0 ch x'.world.own x'.world.sh more k a (arrived ++ [b]) j := by rw [hown]; exact { E' with stored := hst }
        obtain ⟨es2, x2, e1, e2, e3, e4, e5⟩ := ih h2 h4 (by omega) E'' (fun y hy => hxs y (List.mem_cons_of_mem _ hy)) (by
          intro y hy
          rcases hall y hy with h | h
          · exact Or.inl (List.mem_append_left _ h)
          · rcases List.mem_cons.mp h with rfl | h
            · exact Or.inl (by simp)
            · exact Or.inr h)
        refine ⟨_, x2, by rw [List.append_assoc, List.append_assoc] at e1; exact e1, helps_append said (helps_append h3 e2), e3, by rw [List.length_cons]; omega, e5⟩

theorem finish_asking_side (H : History ch) (hscore : s = worth s0 ch (ch.length - 1)) (hK : Kept lib g N peer s s0 ch x0) {c : Ctx}
    (hf : ∀ j, c.fates j = .ok) {q : Sender} (hq : q.remote = some peer) (hsh : Shares ch (x0.world.own.on x0.world.sh))
    (h : Side lib peer s s0 ch x0 es x) (hr : Ready x)
    (hN : Chains.Spec.inserts x.world.calls + 2 * ch.length ≤ N) (ha : x.world.own.active = true) (hs : x.world.own.obj.state = .waitingForIDs) :
    ∃ es' x', Side lib peer s s0 ch x0 (es ++ es') x' ∧ (∀ e, e ∈ es' → Helps ch c q e) ∧ Ready x' ∧
      Chains.Spec.inserts x'.world.calls ≤ Chains.Spec.inserts x.world.calls + 2 * ch.length ∧ x'.world.own.active = false := by
  obtain ⟨src, K⟩ := hK es x h (by omega)
  obtain ⟨more, mm, req, b, hout, A, hb, hbr⟩ := Loading.Fine.shares_later_fine K hr.rest ha hs hsh
  obtain ⟨pre, a, post, hreq, hpre, hach⟩ := Loading.first_shared req ⟨b, hb, hbr⟩
  obtain ⟨i, hi⟩ := List.getElem?_of_mem hach
  have hil := (List.getElem?_eq_some_iff.mp hi).1
  have hfo : Loading.Follows ch req ((part ch i (ch.length - 1)).map (·.id)) :=
    ⟨pre, a, post, i, ch.length - 1, hreq, hpre, hi, by omega, by omega, fun _ => by omega, Or.inl rfl⟩
  have hne : (part ch i (ch.length - 1)).map (·.id) ≠ [] := by
    rw [Loading.part_cons (by omega) hi]; simp
  have hin : ∀ id, id ∈ (part ch i (ch.length - 1)).map (·.id) → ∃ b, b ∈ ch ∧ b.id = id := by
    intro id hid
    obtain ⟨y, hy, rfl⟩ := List.mem_map.mp hid
    exact ⟨y, Loading.part_sub hy, rfl⟩
  obtain ⟨F, hqu⟩ := K.steady.rest hr.rest
  generalize hids : (part ch i (ch.length - 1)).map (·.id) = ids at hfo hne hin
  have h1 := say_ids h ha hr c hq hne
  have said : ∀ e, e ∈ [Ev.message .good c q (.blockIds ids)] → Helps ch c q e := fun e he => by
    rw [List.mem_singleton.mp he]; exact .ids ids hin
  have hh : Loading.Fine.handle c x.world.own (Pkg.ids peer ids).input = (fire c x.world.own (.ids ids)).bind (fun r => .ret (logged r)) := by
    simp only [Pkg.input, Loading.Fine.handle, Loading.Fine.handleIDs]
    rw [if_neg (by rw [ha]; simp), if_neg hne, if_neg (by rw [K.who]; simp)]
  have L : Leads lib g peer s s0 ch 0 (fun r y => ∃ r', r = logged r' ∧ ∃ z, Later z y ∧ AfterIds x0.world.own.prevDiff peer s s0 ch x.world.sh x.world.own more (ch.length - 1) r' z)
      (Loading.Fine.handle c x.world.own (Pkg.ids peer ids).input) x.world.sh := by
    rw [hh]
    refine (Loading.Fine.leads_ids H hscore hf hqu K.who (F.conn ha) A hreq hpre hi (j := ch.length - 1) (by omega) (by omega) (fun _ => by omega)
      (Or.inl hids.symm)).seq ?_
    intro r y hl _ hy z hz _
    exact ⟨r, rfl, y, hz.later, hy⟩
  obtain ⟨es', x', h2, h3, h4, h5, r, hr', z, hz, B⟩ := take_side hK q h1 ha hr.main hr.loader hr.rest rfl hf (fun ids' hx => by
      cases hx
      intro _ _ m' req' hm' hr'
      have hm' : x.world.own.out.getLast? = some m' := hm'
      rw [A.sent] at hm'
      cases hm'
      rw [Loading.asks_unique hr' A.asks]; exact hfo) (fun y hy => by cases hy) L (by show Chains.Spec.inserts x.world.calls + 0 ≤ N; omega)
  have h5 : Chains.Spec.inserts x'.world.calls ≤ Chains.Spec.inserts x.world.calls + 0 := h5
  rw [List.append_assoc] at h2
  cases B with
  | known B =>
    have hown : x'.world.own = r.1 := Except.ok.inj (hr'.trans (logged_alive (by rw [B.fine]; exact ok_alive)))
    exact ⟨_, x', h2, helps_append said h3, h4, by omega, by rw [hown]; exact B.last (by omega)⟩
  | wanted k a' out' hfine _ _ _ ho E =>
    have hown : x'.world.own = r.1 := Except.ok.inj (hr'.trans (logged_alive (by rw [hfine]; exact ok_alive)))
    rw [← hown] at E
    have hlen : (part ch (k + 1) (ch.length - 1)).length ≤ ch.length := by
      rw [Loading.part_length (by omega)]; omega
    obtain ⟨es2, x2, e1, e2, e3, e4, e5, _⟩ := feed_side H hscore hK hf hq (part ch (k + 1) (ch.length - 1)) h2 h4 (by omega) (E.later hz)
      (fun x hx => hx) (fun x hx => Or.inr hx)
    rw [List.append_assoc, List.append_assoc] at e1
    exact ⟨_, x2, e1, helps_append said (helps_append h3 e2), e3, by omega, e5 (by omega)⟩

theorem can_finish_ready (H : History ch) (hscore : s = worth s0 ch (ch.length - 1)) (hK : Kept lib g N peer s s0 ch x0) {c : Ctx}
    (hf : ∀ j, c.fates j = .ok) {q : Sender} (hq : q.remote = some peer) (hsh : Shares ch (x0.world.own.on x0.world.sh))
    (h : Side lib peer s s0 ch x0 es x) (hr : Ready x) (hN : Chains.Spec.inserts x.world.calls + 4 * ch.length ≤ N) :
    ∃ es' x', Side lib peer s s0 ch x0 (es ++ es') x' ∧ (∀ e, e ∈ es' → Helps ch c q e) ∧ Ready x' ∧
      Chains.Spec.inserts x'.world.calls ≤ Chains.Spec.inserts x.world.calls + 4 * ch.length ∧ x'.world.own.active = false := by
  obtain ⟨src, K⟩ := hK es x h (by omega)
  obtain ⟨more, hout, P, _⟩ := K.phase
  cases P hr.rest with
  | asking m req A =>
    obtain ⟨es', x', e1, e2, e3, e4, e5⟩ := finish_asking_side H hscore hK hf hq hsh h hr (by omega) A.active A.state
    exact ⟨es', x', e1, e2, e3, by omega, e5⟩
  | released ha => exact ⟨[], x, by rw [List.append_nil]; exact h, (fun _ h => by cases h), hr, by omega, ha⟩
  | loading k a arrived j E =>
    have hlen : (part ch (k + 1) j).length ≤ ch.length := by
      rw [Loading.part_length (by have := E.last; omega)]; have := E.last; omega
    obtain ⟨es1, x1, e1, e2, e3, e4, _, e5⟩ := feed_side H hscore hK hf hq (part ch (k + 1) j) h hr (by omega) E (fun x hx => hx) (fun x hx => Or.inr hx)
    by_cases ha : x1.world.own.active = true
    · obtain ⟨es2, x2, f1, f2, f3, f4, f5⟩ := finish_asking_side H hscore hK hf hq hsh e1 e3 (by omega) ha (e5 ha)
      rw [List.append_assoc] at f1
      exact ⟨_, x2, f1, helps_append e2 f2, f3, by omega, f5⟩
    · exact ⟨es1, x1, e1, e2, e3, by omega, by simpa using ha⟩

/-- from the middle of everything -/
theorem can_finish_side (H : History ch) (hscore : s = worth s0 ch (ch.length - 1)) (hK : Kept lib g N peer s s0 ch x0) {c : Ctx}
    (hf : ∀ j, c.fates j = .ok) {q : Sender} (hq : q.remote = some peer) (hsh : Shares ch (x0.world.own.on x0.world.sh))
    (h : Side lib peer s s0 ch x0 es x) (hm : x.main ≠ .exited) (hl : x.loaderUp = true) (hd : x.dist ≠ .exited) (hc : x.Clean peer ch)
    (hN : Chains.Spec.inserts x.world.calls + 6 * ch.length ≤ N) :
    ∃ es' x', Side lib peer s s0 ch x0 (es ++ es') x' ∧ (∀ e, e ∈ es' → Helps ch c q e) ∧ x'.world.todo = none ∧
      Chains.Spec.inserts x'.world.calls ≤ Chains.Spec.inserts x.world.calls + 6 * ch.length ∧ x'.world.own.active = false := by
  -- the loader waits
  have rest : ∀ es x, Side lib peer s s0 ch x0 es x → x.main ≠ .exited → x.loaderUp = true → x.dist ≠ .exited → x.world.todo = none →
      (∀ ids, x.dist = .sending (.ids peer ids) → Answers ch (x.world.own.on x.world.sh) ids) →
      (∀ b, x.dist = .sending (.block peer b) → Loading.Genuine ch b) → Chains.Spec.inserts x.world.calls + 5 * ch.length ≤ N →
      ∃ es' x', Side lib peer s s0 ch x0 (es ++ es') x' ∧ (∀ e, e ∈ es' → Helps ch c q e) ∧ x'.world.todo = none ∧
        Chains.Spec.inserts x'.world.calls ≤ Chains.Spec.inserts x.world.calls + 5 * ch.length ∧ x'.world.own.active = false := by
    intro es x h hm hl hd ht h1 h2 hN
    by_cases ha : x.world.own.active = true
    · cases hdd : x.dist with
      | exited => exact absurd hdd hd
      | ready =>
        obtain ⟨es', x', e1, e2, e3, e4, e5⟩ := can_finish_ready H hscore hK hf hq hsh h ⟨hm, hl, hdd, ht⟩ (by omega)
        exact ⟨es', x', e1, e2, e3.rest, by omega, e5⟩
      | sending pk =>
        have hs : x.step lib (.take c) = some (.ok { x with world := x.world.receive c pk.input, dist := .ready, taken := x.taken ++ [pk] }) := by
          simp only [Sys.step, if_neg hm, hdd, guarded, Sys.waits, hl, ht]
          rfl
        have h3 : Side lib peer s s0 ch x0 (es ++ [.take c]) _ := .step (.take c) h ha (civil_take hf h1 h2) hs
        obtain ⟨src, K⟩ := hK _ _ h3 (by show Chains.Spec.inserts x.world.calls ≤ N; omega)
        obtain ⟨more, _, _, L⟩ := K.phase
        obtain ⟨es1, x1, e1, e2, e3, e4, _⟩ := take_side hK q h ha hm hl ht hdd hf h1 h2 (L _ rfl).2 (by omega)
        obtain ⟨es2, x2, f1, f2, f3, f4, f5⟩ := can_finish_ready H hscore hK hf hq hsh e1 e3 (by omega)
        rw [List.append_assoc] at f1
        exact ⟨_, x2, f1, helps_append e2 f2, f3.rest, by omega, f5⟩
    · exact ⟨[], x, by rw [List.append_nil]; exact h, (fun _ h => by cases h), ht, by omega, by simpa using ha⟩
  cases ht : x.world.todo with
  | none =>
    obtain ⟨es', x', e1, e2, e3, e4, e5⟩ := rest es x h hm hl hd ht (fun ids hx => (hc.1 ids hx).2) hc.2 (by omega)
    exact ⟨es', x', e1, e2, e3, by omega, e5⟩
  | some p =>
    obtain ⟨src, K⟩ := hK es x h (by omega)
    obtain ⟨more, _, _, L⟩ := K.phase
    obtain ⟨es1, w1, e1, e2, e3, e4, _⟩ := lone_side hK c q p h ht hm (L p ht).2 (by omega)
    obtain ⟨es2, x2, f1, f2, f3, f4, f5⟩ := rest _ _ e1 hm hl hd e3 (fun ids hx => by have := (hc.1 ids hx).1; rw [ht] at this; cases this) hc.2
      (by show Chains.Spec.inserts w1.calls + _ ≤ _; omega)
    have f4 : Chains.Spec.inserts x2.world.calls ≤ Chains.Spec.inserts w1.calls + 5 * ch.length := f4
    rw [List.append_assoc] at f1
    exact ⟨_, x2, f1, helps_append e2 f2, f3, by omega, f5⟩

end Verif.Services.Fine
