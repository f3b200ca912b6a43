import Verif.Loading.AmongSteps
/-
What holds along a synchronisation with an honest peer, and how it can be brought to its end: lemmas for property C106.
-/

set_option autoImplicit false

namespace Verif.Loading.Fine

open Verif
open Verif.Chains (Addr BlockID ProtoBlock MicroInv Linkage LeashOf PutBlock)
open Verif.Chains.Spec (Stored)
open Verif.Peers (Peer Conn Registry Lib second)
open Verif.KV (Fate)

variable {lib : Lib} {g : ProtoBlock} {N : Nat} {peer : Addr} {s s0 : Nat} {ch : List ProtoBlock} {src : Source} {w0 w : World}

/-- what holds at every moment of the synchronisation -/
structure Underway (lib : Lib) (g : ProtoBlock) (N : Nat) (src : Source) (peer : Addr) (s s0 : Nat) (ch : List ProtoBlock) (w0 w : World) : Prop where
  steady : Steady lib g N src w
  faithful : Faithful s0 ch w.sh.link.db
  announced : Announced w.sh.reg peer s
  scored : w.own.active = true → Scored w.sh.reg peer
  who : w.own.peerID = peer
  phase : ∃ more, w.own.out = w0.own.out ++ more ∧ (w.todo = none → Stage w0.own.prevDiff peer s s0 ch w.own w.sh more) ∧
    ∀ p, w.todo = some p → w.own.active = true ∧ Leads lib g peer s s0 ch ch.length (Handled w0.own.prevDiff peer s s0 ch w.own more) p w.sh

theorem Underway.good (K : Underway lib g N src peer s s0 ch w0 w) : Good lib g peer s s0 ch (N - Chains.Spec.inserts w.calls) w.sh :=
  ⟨K.steady.sound, K.faithful, K.announced⟩

theorem Underway.receive (H : History ch) (hscore : s = worth s0 ch (ch.length - 1)) (K : Underway lib g N src peer s s0 ch w0 w)
    (ha : w.own.active = true) (c : Ctx) (i : Input) (ht : w.todo = none) (hh : Honest peer s s0 ch (w.own.on w.sh) ⟨c, i.event⟩)
    (hi : i.From src) : Underway lib g N src peer s s0 ch w0 { w with todo := some (handle c w.own i), ins := w.ins ++ [(c, i)] } := by
  obtain ⟨more, hout, P, _⟩ := K.phase
  obtain ⟨F, hq⟩ := K.steady.rest ht
  refine ⟨K.steady.receive c i ht hi, K.faithful, K.announced, K.scored, K.who, more, hout, (fun h => by cases h), ?_⟩
  intro p hp
  cases hp
  exact ⟨ha, leads_handle H hscore ha hq K.who (F.conn ha) (P ht) c i hh⟩

theorem Underway.call (K : Underway lib g N src peer s s0 ch w0 w) (c : Call) (k : c.Res → Proc (Go Own)) (ht : w.todo = some (.call c k))
    (hN : Chains.Spec.inserts w.calls + c.cost ≤ N) : Underway lib g N src peer s s0 ch w0
      ⟨w.own, some (k (c.res lib w.sh)), c.effect w.sh, w.ins, w.log ++ (c.op.map (fun o => (true, o))).toList⟩ := by
  obtain ⟨more, hout, _, L⟩ := K.phase
  obtain ⟨ha, L⟩ := L _ ht
  have G := K.good
  obtain ⟨_, L⟩ := L w.sh (Between.refl _) (G.mono (Nat.zero_le _))
  obtain ⟨h1, h2, _, h3⟩ := L (G.mono (by omega))
  have G' := h1 0 (G.mono (by omega))
  refine ⟨(K.steady.call c k ht (Or.inl ⟨rfl, rfl⟩) hN).1, G'.faithful, G'.announced, fun h => h2.scored _ (K.scored h), K.who, more, hout,
    (fun h => by cases h), ?_⟩
  intro p hp
  cases hp
  exact ⟨ha, h3.room (Nat.sub_le _ _)⟩

theorem Underway.finish (K : Underway lib g N src peer s s0 ch w0 w) (o : Own) (ht : w.todo = some (.ret (.ok o))) :
    Underway lib g N src peer s s0 ch w0 { w with own := o, todo := none } := by
  obtain ⟨more, hout, _, L⟩ := K.phase
  obtain ⟨_, L⟩ := L _ ht
  obtain ⟨o', out', h1, h2, h3, h4⟩ := L w.sh (Between.refl _) (K.good.mono (Nat.zero_le _))
  cases h1
  have S := K.steady.finish o ht
  refine ⟨S, K.faithful, K.announced, ?_, h2, more ++ out', ?_, fun _ => h4, (fun p hp => by cases hp)⟩
  · intro ha
    have := (S.rest rfl).1.scored ha
    rw [← h2]; exact this
  · show o.out = _
    rw [h3, hout, List.append_assoc]

theorem Underway.other (H : History ch) (K : Underway lib g N src peer s s0 ch w0 w) (ha : w.own.active = true) (x : Other)
    (hx : Fair lib peer s s0 ch w x) (hN : Chains.Spec.inserts w.calls + x.cost ≤ N) : Underway lib g N src peer s s0 ch w0
      { w with sh := x.effect lib w.sh, log := w.log ++ (x.op.map (fun o => (false, o))).toList } := by
  obtain ⟨more, hout, P, L⟩ := K.phase
  obtain ⟨S', hl⟩ := K.steady.other x (fun _ => Other.sound x) hN
  have hF : Faithful s0 ch (x.effect lib w.sh).link.db ∧ Announced (x.effect lib w.sh).reg peer s := by
    cases x with
    | putBlock b a f1 f2 =>
      have hc : Other.cost (.putBlock b a f1 f2) = 1 := rfl
      have S : Serving g (0 + 1) w.sh.link := K.steady.sound.store.mono (by omega)
      exact ⟨K.faithful.put H S b a f1 f2 (hx.putBlock b a f1 f2 rfl), K.announced⟩
    | putMicro inv a f1 f2 =>
      have hc : Other.cost (.putMicro inv a f1 f2) = 1 := rfl
      have S : Serving g (0 + 1) w.sh.link := K.steady.sound.store.mono (by omega)
      exact ⟨K.faithful.micro S inv a f1 f2 (hx.putMicro inv a f1 f2 rfl), K.announced⟩
    | registry e =>
      exact ⟨K.faithful, announced_step K.steady.sound.reg.inv (K.scored ha) K.announced (fun f s' hs => hx.score e f s' rfl hs)⟩
  refine ⟨S', hF.1, hF.2, fun h => hl.scored _ (K.scored h), K.who, more, hout, fun h => (P h).later ha hl, ?_⟩
  intro p hp
  have hp : w.todo = some p := hp
  obtain ⟨h1, h2⟩ := L p hp
  exact ⟨h1, h2.later ⟨hl, hx.onward (by rw [hp]; simp)⟩⟩

theorem step_room {w : World} {b : Bool} {o : Option Chains.Spec.Op}
    (h : Chains.Spec.inserts ((w.log ++ (o.map (fun o => (b, o))).toList).map (·.2)) ≤ N) :
    Chains.Spec.inserts w.calls + Chains.Spec.inserts o.toList ≤ N := by
  rwa [calls_append w b o, Chains.inserts_append] at h

theorem underway (H : History ch) (hscore : s = worth s0 ch (ch.length - 1)) (K0 : Underway lib g N src peer s s0 ch w0 w0)
    (h : Among lib peer s s0 ch w0 w) (hi : ∀ c i, (c, i) ∈ w.ins → i.From src) (hN : Chains.Spec.inserts w.calls ≤ N) :
    Underway lib g N src peer s s0 ch w0 w := by
  induction h with
  | start => exact K0
  | receive h ha c i ht hh ih =>
    refine Underway.receive H hscore (ih (fun c i h => hi c i (List.mem_append.mpr (Or.inl h))) hN) ha c i ht hh ?_
    exact hi c i (List.mem_append.mpr (Or.inr (List.mem_singleton.mpr rfl)))
  | call h c k ht ih =>
    have := step_room hN
    exact Underway.call (ih hi (by omega)) c k ht this
  | finish h o ht ih => exact Underway.finish (ih hi hN) o ht
  | other h ha x hx ih =>
    have := step_room hN
    exact Underway.other H (ih hi (by omega)) ha x hx this

theorem underway_start {reg : Registry} {lk : Linkage} (S : Serving g N lk) (R : Peers.Reachable lib reg) (h : Run lib (World.start reg lk) w0)
    (hi : ∀ c i, (c, i) ∈ w0.ins → i.From src) (hN : Chains.Spec.inserts w0.calls ≤ N) (ht : w0.todo = none)
    (hb : Starts peer s s0 ch (w0.own.on w0.sh)) : Underway lib g N src peer s s0 ch w0 w0 := by
  obtain ⟨St, _⟩ := steady S R h hi hN
  refine ⟨St, hb.faithful, hb.announced, ?_, hb.who, [], (List.append_nil _).symm, fun _ => ?_, (fun p hp => by rw [ht] at hp; cases hp)⟩
  · intro ha
    have := (St.rest ht).1.scored ha
    rw [← hb.who]; exact this
  · obtain ⟨m, req, h1, h2, h3⟩ := hb.asked
    exact .asking m req ⟨hb.active, hb.state, h1, h2, h3, Or.inl ⟨rfl, rfl⟩⟩

theorem Among.ins (h : Among lib peer s s0 ch w0 w) : ∀ y, y ∈ w0.ins → y ∈ w.ins := by
  induction h with
  | start => exact fun _ h => h
  | receive _ _ _ _ _ _ ih => exact fun y hy => List.mem_append.mpr (Or.inl (ih y hy))
  | call _ _ _ _ ih => exact ih
  | finish _ _ _ ih => exact ih
  | other _ _ _ _ ih => exact ih

theorem Among.inserts (h : Among lib peer s s0 ch w0 w) : Chains.Spec.inserts w0.calls ≤ Chains.Spec.inserts w.calls := by
  induction h with
  | start => exact Nat.le_refl _
  | receive _ _ _ _ _ _ ih => exact ih
  | @call v _ c _ _ ih =>
    show _ ≤ Chains.Spec.inserts ((v.log ++ (c.op.map (fun o => (true, o))).toList).map (·.2))
    rw [calls_append, Chains.inserts_append]; omega
  | finish _ _ _ ih => exact ih
  | @other v _ _ x _ ih =>
    show _ ≤ Chains.Spec.inserts ((v.log ++ (x.op.map (fun o => (false, o))).toList).map (·.2))
    rw [calls_append, Chains.inserts_append]; omega

theorem among_kept {reg : Registry} {lk : Linkage} (H : History ch) (S : Serving g N lk) (R : Peers.Reachable lib reg)
    (h0 : Run lib (World.start reg lk) w0) (ht : w0.todo = none) (hb : Starts peer s s0 ch (w0.own.on w0.sh))
    (h : Among lib peer s s0 ch w0 w) (hN : Chains.Spec.inserts w.calls ≤ N) : Underway lib g N (received w) peer s s0 ch w0 w :=
  underway H hb.score (underway_start S R h0 (fun c i hm => received_from w c i (h.ins _ hm)) (Nat.le_trans h.inserts hN) ht hb) h
    (fun c i hm => received_from w c i hm) hN

/-- the released position of the peer, and what is stored -/
theorem released_all {x : Shared} {n : Nat} (H : 0 < ch.length) (S : Serving g n x.link) (F : Faithful s0 ch x.link.db)
    (hp : At peer ch x (ch.length - 1)) :
    (∀ b, b ∈ ch → Stored x.link.db b.id) ∧ ∃ b, ch.getLast? = some b ∧ LeashOf x.link peer = .ok b.id := by
  obtain ⟨k, b, hk, hb, hl, hst⟩ := at_stored S hp
  have := (List.getElem?_eq_some_iff.mp hb).1
  have hk : k = ch.length - 1 := by omega
  subst hk
  refine ⟨fun y hy => ?_, b, by rw [List.getLast?_eq_getElem?]; exact hb, hl⟩
  obtain ⟨i, hi⟩ := List.getElem?_of_mem hy
  have := (List.getElem?_eq_some_iff.mp hi).1
  exact F.below S _ b hb hst i y (by omega) hi

/-! ### the end can be reached -/

/-- the loader alone ends the handling of an event -/
theorem lone (hK : ∀ w, Among lib peer s s0 ch w0 w → Chains.Spec.inserts w.calls ≤ N → ∃ src, Underway lib g N src peer s s0 ch w0 w)
    {Q : Go Own → Shared → Prop} (p : Proc (Go Own)) : ∀ {w : World} {m : Nat}, Among lib peer s s0 ch w0 w → w.todo = some p →
      Leads lib g peer s s0 ch m Q p w.sh → Chains.Spec.inserts w.calls + m ≤ N →
      ∃ w', Among lib peer s s0 ch w0 w' ∧ w'.todo = none ∧ Chains.Spec.inserts w'.calls ≤ Chains.Spec.inserts w.calls + m ∧ Q (.ok w'.own) w'.sh := by
  induction p with
  | ret r =>
    intro w m h ht L hN
    obtain ⟨src, K⟩ := hK w h (by omega)
    have hq := L w.sh (Between.refl _) (K.good.mono (Nat.zero_le _))
    obtain ⟨more, _, _, L'⟩ := K.phase
    obtain ⟨o, out', rfl, _⟩ := (L' _ ht).2 w.sh (Between.refl _) (K.good.mono (Nat.zero_le _))
    exact ⟨_, .finish h o ht, rfl, Nat.le_add_right _ _, hq⟩
  | call c k ih =>
    intro w m h ht L hN
    obtain ⟨src, K⟩ := hK w h (by omega)
    obtain ⟨hc, L⟩ := L w.sh (Between.refl _) (K.good.mono (Nat.zero_le _))
    obtain ⟨_, _, _, L⟩ := L (K.good.mono (by omega))
    have hcalls : Chains.Spec.inserts (World.calls ⟨w.own, some (k (c.res lib w.sh)), c.effect w.sh, w.ins, w.log ++ (c.op.map (fun o => (true, o))).toList⟩)
        = Chains.Spec.inserts w.calls + c.cost := by
      show Chains.Spec.inserts ((w.log ++ (c.op.map (fun o => (true, o))).toList).map (·.2)) = _
      rw [calls_append, Chains.inserts_append]; rfl
    obtain ⟨w', h1, h2, h3, h4⟩ := ih _ (.call h c k ht) rfl L (by rw [hcalls]; omega)
    refine ⟨w', h1, h2, ?_, h4⟩
    rw [hcalls] at h3; omega

/-- the blocks that are missing come one after the other -/
theorem feed_fine (H : History ch) (hscore : s = worth s0 ch (ch.length - 1))
    (hK : ∀ w, Among lib peer s s0 ch w0 w → Chains.Spec.inserts w.calls ≤ N → ∃ src, Underway lib g N src peer s s0 ch w0 w) {c : Ctx}
    (hf : ∀ j, c.fates j = .ok) (xs : List ProtoBlock) : ∀ {w : World} {more : List Sent} {k j : Nat} {a : ProtoBlock} {arrived : List ProtoBlock},
      Among lib peer s s0 ch w0 w → w.todo = none → Chains.Spec.inserts w.calls + ch.length ≤ N → Expects w0.own.prevDiff s s0 ch w.own w.sh more k a arrived j →
      (∀ x, x ∈ xs → x ∈ ch) → (∀ x, x ∈ part ch (k + 1) j → x ∈ arrived ∨ x ∈ xs) →
      ∃ w', Among lib peer s s0 ch w0 w' ∧ w'.todo = none ∧ Chains.Spec.inserts w'.calls ≤ Chains.Spec.inserts w.calls + ch.length ∧
        (j + 1 = ch.length → w'.own.active = false) ∧ (w'.own.active = true → w'.own.obj.state = .waitingForIDs) := by
  induction xs with
  | nil =>
    intro w more k j a arrived _ _ _ E _ hall
    exfalso
    have hA : Loading.Answer ((part ch (k + 1) j).map (·.id)) arrived (part ch (k + 1) j) := by
      refine ⟨rfl, fun b hb => ?_⟩
      cases hl : lastWith b.id arrived with
      | none => rcases hall b hb with h | h
                · exact absurd rfl (lastWith_none hl b h)
                · cases h
      | some x =>
        obtain ⟨hx, he⟩ := lastWith_some hl
        have := E.genuine x hx b (part_sub hb) he.symm
        rw [this] at hl; exact hl
    have hn := E.waits
    rw [E.queue, answer_ready (part_nodup H _ _) hA] at hn
    cases hn
  | cons x xs ih =>
    intro w more k j a arrived h ht hN E hxs hall
    obtain ⟨src, K⟩ := hK w h (by omega)
    have hgx := Genuine.of_mem H (hxs x List.mem_cons_self)
    have hb : ∀ y, some x = some y → Genuine ch y := fun y hy => by cases hy; exact hgx
    obtain ⟨F, hq⟩ := K.steady.rest ht
    have h1 : Among lib peer s s0 ch w0 { w with todo := some (handle c w.own (.block peer (some x))), ins := w.ins ++ [(c, .block peer (some x))] } :=
      .receive h E.active c (.block peer (some x)) ht (calm_block _ hf hgx)
    have hh : handle c w.own (.block peer (some x)) = (fire c w.own (.block (some x))).bind (fun r => .ret (logged r)) := by
      simp only [handle, handleBlock]
      rw [if_neg (by rw [E.active]; simp), if_neg (by rw [K.who]; simp)]
    have L : Leads lib g peer s s0 ch (if ready (putOpt w.own.obj.queue (some x)) = true then j - k else 0)
        (fun r y => ∃ r', r = logged r' ∧ ∃ z, Later w.sh y ∧ AfterBlock w0.own.prevDiff peer s s0 ch w.own more j (some x) r' z)
        (handle c w.own (.block peer (some x))) w.sh := by
      rw [hh]
      refine (leads_block H hscore hf hq K.who (F.conn E.active) E (some x) hb).seq ?_
      intro r y hl _ hy z hz _
      exact ⟨r, rfl, y, hl.trans hz.later, hy⟩
    have hjk := E.last
    by_cases hr : ready (putOpt w.own.obj.queue (some x)) = true
    · rw [if_pos hr] at L
      obtain ⟨w', h2, h3, h4, r, hr', z, hz, A⟩ := lone hK _ h1 rfl L (by show Chains.Spec.inserts w.calls + _ ≤ _; omega)
      have h4 : Chains.Spec.inserts w'.calls ≤ Chains.Spec.inserts w.calls + (j - k) := h4
      refine ⟨w', h2, h3, by omega, ?_⟩
      cases A with
      | waiting hn => rw [hr] at hn; cases hn
      | complete _ B =>
        have hown : w'.own = r.1 := Except.ok.inj (hr'.trans (logged_alive (by rw [B.fine]; exact ok_alive)))
        obtain ⟨out', _, _, hs⟩ := B.stage
        rw [hown]
        exact ⟨B.last, fun ha => (hs ha).1⟩
    · rw [if_neg hr] at L
      obtain ⟨w', h2, h3, h4, r, hr', z, hz, A⟩ := lone hK _ h1 rfl L (by show Chains.Spec.inserts w.calls + _ ≤ _; omega)
      have h4 : Chains.Spec.inserts w'.calls ≤ Chains.Spec.inserts w.calls + 0 := h4
      cases A with
      | complete hy => exact absurd hy hr
      | waiting hn hw =>
        subst hw
        have hown : w'.own = { w.own with obj := { w.own.obj with queue := putOpt w.own.obj.queue (some x) } } :=
          Except.ok.inj hr'
        have hst : Stored w'.sh.link.db a.id := hz.stored _ E.stored
        have E' := ((E.put (some x) hb).2.2 hn)
        have E'' : Expects w0.own.prevDiff s s0 ch w'.own w'.sh more k a (arrived ++ [x]) j := by rw [hown]; exact { E' with stored := hst }
        obtain ⟨w2, e1, e2, e3, e4⟩ := ih h2 h3 (by omega) E'' (fun y hy => hxs y (List.mem_cons_of_mem _ hy)) (by
          intro y hy
          rcases hall y hy with h | h
          · exact Or.inl (List.mem_append_left _ h)
          · rcases List.mem_cons.mp h with rfl | h
            · exact Or.inl (by simp)
            · exact Or.inr h)
        exact ⟨w2, e1, e2, by omega, e4⟩

theorem shares_later_fine (K : Underway lib g N src peer s s0 ch w0 w) (ht : w.todo = none) (ha : w.own.active = true) (hs : w.own.obj.state = .waitingForIDs)
    (hsh : Shares ch (w0.own.on w0.sh)) : ∃ more m req b, w.own.out = w0.own.out ++ more ∧ Asks w0.own.prevDiff s s0 ch w.own w.sh more m req ∧ b ∈ ch ∧ b.id ∈ req := by
  obtain ⟨more, hout, P, _⟩ := K.phase
  cases P ht with
  | loading k a arrived j E =>
    have := E.state
    rw [hs] at this; cases this
  | released ha' => rw [ha] at ha'; cases ha'
  | asking m req A =>
    rcases A.diff with ⟨_, rfl⟩ | ⟨i, i', a, _, h1, _, h3, _⟩
    · obtain ⟨m1, req1, b, h1, h2, h3, h4⟩ := hsh
      rw [List.append_nil] at hout
      have hm := A.sent
      rw [hout] at hm
      have h1 : w0.own.out.getLast? = some m1 := h1
      rw [h1] at hm; cases hm
      cases asks_unique A.asks h2
      exact ⟨[], m, req, b, by rw [List.append_nil]; exact hout, A, h3, h4⟩
    · exact ⟨more, m, req, a, hout, A, List.mem_of_getElem? h1, List.mem_of_head? h3⟩

theorem finish_asking_fine (H : History ch) (hscore : s = worth s0 ch (ch.length - 1))
    (hK : ∀ w, Among lib peer s s0 ch w0 w → Chains.Spec.inserts w.calls ≤ N → ∃ src, Underway lib g N src peer s s0 ch w0 w) {c : Ctx}
    (hf : ∀ j, c.fates j = .ok) (hsh : Shares ch (w0.own.on w0.sh)) (h : Among lib peer s s0 ch w0 w) (ht : w.todo = none)
    (hN : Chains.Spec.inserts w.calls + ch.length ≤ N) (ha : w.own.active = true) (hs : w.own.obj.state = .waitingForIDs) :
    ∃ w', Among lib peer s s0 ch w0 w' ∧ w'.todo = none ∧ Chains.Spec.inserts w'.calls ≤ Chains.Spec.inserts w.calls + ch.length ∧
      w'.own.active = false := by
  obtain ⟨src, K⟩ := hK w h (by omega)
  obtain ⟨more, mm, req, b, hout, A, hb, hbr⟩ := shares_later_fine K ht ha hs hsh
  obtain ⟨pre, a, post, hreq, hpre, hach⟩ := first_shared req ⟨b, hb, hbr⟩
  obtain ⟨i, hi⟩ := List.getElem?_of_mem hach
  have hil := (List.getElem?_eq_some_iff.mp hi).1
  have hfo : Follows ch req ((part ch i (ch.length - 1)).map (·.id)) :=
    ⟨pre, a, post, i, ch.length - 1, hreq, hpre, hi, by omega, by omega, fun _ => by omega, Or.inl rfl⟩
  have hne : (part ch i (ch.length - 1)).map (·.id) ≠ [] := by
    rw [part_cons (by omega) hi]; simp
  obtain ⟨F, hq⟩ := K.steady.rest ht
  generalize hids : (part ch i (ch.length - 1)).map (·.id) = ids at hfo hne
  have h1 : Among lib peer s s0 ch w0 { w with todo := some (handle c w.own (.ids peer ids)), ins := w.ins ++ [(c, .ids peer ids)] } :=
    .receive h ha c (.ids peer ids) ht (calm_ids (l := w.own.on w.sh) hf A.sent A.asks hfo)
  have hh : handle c w.own (.ids peer ids) = (fire c w.own (.ids ids)).bind (fun r => .ret (logged r)) := by
    simp only [handle, handleIDs]
    rw [if_neg (by rw [ha]; simp), if_neg hne, if_neg (by rw [K.who]; simp)]
  have L : Leads lib g peer s s0 ch 0 (fun r y => ∃ r', r = logged r' ∧ ∃ z, Later z y ∧ AfterIds w0.own.prevDiff peer s s0 ch w.sh w.own more (ch.length - 1) r' z)
      (handle c w.own (.ids peer ids)) w.sh := by
    rw [hh]
    refine (leads_ids H hscore hf hq K.who (F.conn ha) A hreq hpre hi (j := ch.length - 1) (by omega) (by omega) (fun _ => by omega)
      (Or.inl hids.symm)).seq ?_
    intro r y hl _ hy z hz _
    exact ⟨r, rfl, y, hz.later, hy⟩
  obtain ⟨w', h2, h3, h4, r, hr', z, hz, B⟩ := lone hK _ h1 rfl L (by show Chains.Spec.inserts w.calls + _ ≤ _; omega)
  have h4 : Chains.Spec.inserts w'.calls ≤ Chains.Spec.inserts w.calls + 0 := h4
  cases B with
  | known B =>
    have hown : w'.own = r.1 := Except.ok.inj (hr'.trans (logged_alive (by rw [B.fine]; exact ok_alive)))
    exact ⟨w', h2, h3, by omega, by rw [hown]; exact B.last (by omega)⟩
  | wanted k a' out' hfine _ _ _ ho E =>
    have hown : w'.own = r.1 := Except.ok.inj (hr'.trans (logged_alive (by rw [hfine]; exact ok_alive)))
    rw [← hown] at E
    obtain ⟨w2, e1, e2, e3, e4, _⟩ := feed_fine H hscore hK hf (part ch (k + 1) (ch.length - 1)) h2 h3 (by omega) (E.later hz)
      (fun x hx => part_sub hx) (fun x hx => Or.inr hx)
    exact ⟨w2, e1, e2, by omega, e4 (by omega)⟩

theorem can_finish_fine (H : History ch) (hscore : s = worth s0 ch (ch.length - 1))
    (hK : ∀ w, Among lib peer s s0 ch w0 w → Chains.Spec.inserts w.calls ≤ N → ∃ src, Underway lib g N src peer s s0 ch w0 w) {c : Ctx}
    (hf : ∀ j, c.fates j = .ok) (hsh : Shares ch (w0.own.on w0.sh)) (h : Among lib peer s s0 ch w0 w)
    (hN : Chains.Spec.inserts w.calls + 3 * ch.length ≤ N) :
    ∃ w', Among lib peer s s0 ch w0 w' ∧ w'.todo = none ∧ Chains.Spec.inserts w'.calls ≤ Chains.Spec.inserts w.calls + 3 * ch.length ∧
      w'.own.active = false := by
  have rest : ∀ w, Among lib peer s s0 ch w0 w → w.todo = none → Chains.Spec.inserts w.calls + 2 * ch.length ≤ N →
      ∃ w', Among lib peer s s0 ch w0 w' ∧ w'.todo = none ∧ Chains.Spec.inserts w'.calls ≤ Chains.Spec.inserts w.calls + 2 * ch.length ∧
        w'.own.active = false := by
    intro w h ht hN
    obtain ⟨src, K⟩ := hK w h (by omega)
    obtain ⟨more, hout, P, _⟩ := K.phase
    have ask : ∀ w1, Among lib peer s s0 ch w0 w1 → w1.todo = none → Chains.Spec.inserts w1.calls ≤ Chains.Spec.inserts w.calls + ch.length →
        (w1.own.active = true → w1.own.obj.state = .waitingForIDs) →
        ∃ w', Among lib peer s s0 ch w0 w' ∧ w'.todo = none ∧ Chains.Spec.inserts w'.calls ≤ Chains.Spec.inserts w.calls + 2 * ch.length ∧
          w'.own.active = false := by
      intro w1 h1 ht1 hn1 hs
      by_cases ha : w1.own.active = true
      · obtain ⟨w2, e1, e2, e3, e4⟩ := finish_asking_fine H hscore hK hf hsh h1 ht1 (by omega) ha (hs ha)
        exact ⟨w2, e1, e2, by omega, e4⟩
      · exact ⟨w1, h1, ht1, by omega, by simpa using ha⟩
    cases P ht with
    | asking m req A => exact ask w h ht (by omega) (fun _ => A.state)
    | released ha => exact ⟨w, h, ht, by omega, ha⟩
    | loading k a arrived j E =>
      obtain ⟨w1, e1, e2, e3, _, e5⟩ := feed_fine H hscore hK hf (part ch (k + 1) j) h ht (by omega) E (fun x hx => part_sub hx) (fun x hx => Or.inr hx)
      exact ask w1 e1 e2 e3 e5
  cases ht : w.todo with
  | none =>
    obtain ⟨w', e1, e2, e3, e4⟩ := rest w h ht (by omega)
    exact ⟨w', e1, e2, by omega, e4⟩
  | some p =>
    obtain ⟨src, K⟩ := hK w h (by omega)
    obtain ⟨more, _, _, L⟩ := K.phase
    obtain ⟨w1, e1, e2, e3, _⟩ := lone hK p h ht (L p ht).2 (by omega)
    obtain ⟨w', e4, e5, e6, e7⟩ := rest w1 e1 e2 (by omega)
    exact ⟨w', e4, e5, by omega, e7⟩

end Verif.Loading.Fine
