import Verif.Services.Side
/-
What holds along a synchronisation with an honest peer in the program of `Services/Faulty.lean`: lemmas for property C107.
-/

set_option autoImplicit false

namespace Verif.Services.Fine

open Verif
open Verif.Chains (Addr BlockID ProtoBlock MicroInv Linkage LeashOf)
open Verif.Peers (Lib Registry Config AddrPort)
open Verif.Loading (Ctx Starts GenuineMicro History Serving worth Faithful Announced Source Scored Honest)
open Verif.Loading.Fine (World Shared Disk Other Input Answer Call RdStep RdRun Own Proc NotBehind Onward Underway Between Ends Later Sound
  Steady step_room received received_from steadyRd)
open Verif.KV (Fate)

variable {lib : Lib} {g : ProtoBlock} {N : Nat} {peer : Addr} {s s0 : Nat} {ch : List ProtoBlock} {src : Source} {w0 w : World} {x0 x x' : Sys}

/-- a peer keeps its score when a call on the registry fails to read -/
theorem announced_rd {r : Registry} {F : Chains.Rd.Faults} {e : Peers.Event} (I : Peers.Inv r) (hs : Scored r peer) (h : Announced r peer s)
    (he : ∀ f s', e.op = .updateScore f peer s' → s' = s) : Announced (Peers.Rd.step F lib r e) peer s := by
  have one : ∀ y, y = Peers.step lib r e → Announced y peer s := fun y h' => by rw [h']; exact Loading.announced_step I hs h he
  have same : ∀ y : Registry, y.db = r.db → Announced y peer s := by
    intro y hy
    obtain ⟨p, hp, hps⟩ := h
    exact ⟨p, by unfold Peers.PeerOf; rw [hy]; exact hp, hps⟩
  obtain ⟨now, op⟩ := e
  cases op with
  | register f a np hh =>
    rcases Peers.Rd.register_safe F lib f now r a np hh with h | h
    · exact one _ (congrArg Prod.fst h)
    · exact same _ (by rw [show Peers.Rd.step F lib r ⟨now, .register f a np hh⟩ = _ from congrArg Prod.fst h])
  | unregister f a =>
    rcases Peers.Rd.unregister_safe F f now r a with h | h
    · exact one _ (congrArg Prod.fst h)
    · exact same _ (by rw [show Peers.Rd.step F lib r ⟨now, .unregister f a⟩ = _ from congrArg Prod.fst h])
  | markHostile f arg =>
    rcases Peers.Rd.mark_safe F f r arg with h | ⟨a, _, h⟩
    · exact one _ (congrArg Prod.fst h)
    · exact same _ (by rw [show Peers.Rd.step F lib r ⟨now, .markHostile f arg⟩ = _ from congrArg Prod.fst h])
  | updateScore f a sc =>
    rcases Peers.Rd.updateScore_safe F f r a sc with h | h
    · exact one _ (congrArg Prod.fst h)
    · exact same _ (by rw [show Peers.Rd.step F lib r ⟨now, .updateScore f a sc⟩ = _ from congrArg Prod.fst h])
  | append fs l =>
    obtain ⟨k, _, h'⟩ := Peers.Rd.appendLoop_take fs (l.map (fun x => (F, x))) r 0
    have h2 : Peers.Rd.step F lib r ⟨now, .append fs l⟩ = Peers.step lib r ⟨now, .append fs (((l.map (fun x => (F, x))).map (·.2)).take k)⟩ :=
      congrArg Prod.fst h'
    rw [h2]
    exact Loading.announced_step I hs h (fun f s' h => by cases h)
  | take =>
    obtain ⟨l, M, _, h2, _⟩ := Peers.Rd.take_safe F I now
    exact same _ (by rw [show Peers.Rd.step F lib r ⟨now, .take⟩ = _ from congrArg Prod.fst h2])
  | suggest f a =>
    rcases Peers.Rd.suggest_safe F f now r a with h | h
    · exact one _ (congrArg Prod.fst h)
    · exact same _ (by rw [show Peers.Rd.step F lib r ⟨now, .suggest f a⟩ = _ from congrArg Prod.fst h])
  | reopen c => exact one _ rfl

/-- the block of a call on the store -/
def names : Other → Option (Addr × BlockID)
  | .putBlock b a _ _ => some (a, b.id)
  | .putMicro inv a _ _ => some (a, inv.totalBlockID)
  | .registry _ => none

/-- a call of another goroutine leaves the position of the peer on the history, also when it fails to read -/
theorem onward_rd {n : Nat} {y : Shared} (S : Serving g (n + 1) y.link) (D : Disk) (x : Other)
    (hx : ∀ a id, names x = some (a, id) → peer.plain = a.plain → NotBehind peer ch y id) : Onward peer ch y (x.effectRd D lib y) := by
  have same : Onward peer ch y y := fun i b h1 h2 => ⟨i, b, Nat.le_refl _, h1, h2⟩
  have key : ∀ (o : Chains.Spec.Op) (a : Addr) (id : BlockID) {z : Shared}, Chains.Spec.target o = some (a, id) →
      (peer.plain = a.plain → NotBehind peer ch y id) → z.link = (Chains.Rd.step D.chains y.link o).1 → Onward peer ch y z := by
    intro o a id z ht hn hz i b hi hl
    rcases Chains.Rd.safe_step D.chains y.link o with e | ⟨_, e⟩
    · rcases Loading.Fine.leash_step S o ht peer with h | ⟨h1, h2⟩
      · exact ⟨i, b, Nat.le_refl _, hi, by rw [hz, e, h]; exact hl⟩
      · obtain ⟨j, z', hj, hz', he⟩ := hn h1 i b hi hl
        exact ⟨j, z', hj, hz', by rw [hz, e, he]; exact h2⟩
    · exact ⟨i, b, Nat.le_refl _, hi, by rw [hz, e]; exact hl⟩
  cases x with
  | registry e => exact fun i b h1 h2 => ⟨i, b, Nat.le_refl _, h1, h2⟩
  | putBlock b a f1 f2 => exact key (.putBlock b a f1 f2) a b.id rfl (hx a b.id rfl) rfl
  | putMicro inv a f1 f2 => exact key (.putMicro inv a f1 f2) a inv.totalBlockID rfl (hx a inv.totalBlockID rfl) rfl

theorem underway_called (H : History ch) (K : Underway lib g N src peer s s0 ch w0 w) (ha : w.own.active = true) (D : Disk) (x : Other)
    (h1 : ∀ b a f1 f2, x = .putBlock b a f1 f2 → Loading.Genuine ch b) (h2 : ∀ inv a f1 f2, x = .putMicro inv a f1 f2 → GenuineMicro s0 ch w.sh.link.db inv)
    (h3 : ∀ e f s', x = .registry e → e.op = .updateScore f peer s' → s' = s)
    (h4 : w.todo ≠ none → ∀ a id, names x = some (a, id) → peer.plain = a.plain → NotBehind peer ch w.sh id)
    (hN : Chains.Spec.inserts (w.called (x.effectRd D lib w.sh) (some x)).calls ≤ N) :
    Underway lib g N src peer s s0 ch w0 (w.called (x.effectRd D lib w.sh) (some x)) := by
  obtain ⟨more, hout, P, L⟩ := K.phase
  have hN' : Chains.Spec.inserts w.calls + x.cost ≤ N := step_room (w := w) (b := false) (o := x.op) hN
  obtain ⟨S', hl⟩ := K.steady.other x (fun _ => Other.soundRd D x) hN'
  have store : ∀ o : Chains.Spec.Op, Faithful s0 ch (Chains.Spec.step w.sh.link o).1.db → Faithful s0 ch (Chains.Rd.step D.chains w.sh.link o).1.db := by
    intro o h
    rcases Chains.Rd.safe_step D.chains w.sh.link o with e | ⟨_, e⟩
    · rw [e]; exact h
    · rw [e]; exact K.faithful
  have hF : Faithful s0 ch (x.effectRd D lib w.sh).link.db ∧ Announced (x.effectRd D lib w.sh).reg peer s := by
    cases x with
    | putBlock b a f1 f2 =>
      have hc : Other.cost (.putBlock b a f1 f2) = 1 := rfl
      have S : Serving g (0 + 1) w.sh.link := K.steady.sound.store.mono (by omega)
      exact ⟨store (.putBlock b a f1 f2) (K.faithful.put H S b a f1 f2 (h1 b a f1 f2 rfl)), K.announced⟩
    | putMicro inv a f1 f2 =>
      have hc : Other.cost (.putMicro inv a f1 f2) = 1 := rfl
      have S : Serving g (0 + 1) w.sh.link := K.steady.sound.store.mono (by omega)
      exact ⟨store (.putMicro inv a f1 f2) (K.faithful.micro S inv a f1 f2 (h2 inv a f1 f2 rfl)), K.announced⟩
    | registry e => exact ⟨K.faithful, announced_rd K.steady.sound.reg.inv (K.scored ha) K.announced (fun f s' hs => h3 e f s' rfl hs)⟩
  refine ⟨S', hF.1, hF.2, fun h => hl.scored _ (K.scored h), K.who, more, hout, fun h => (P h).later ha hl, ?_⟩
  intro p hp
  obtain ⟨e1, e2⟩ := L p hp
  have hn : w.todo ≠ none := by
    rw [show w.todo = some p from hp]; simp
  refine ⟨e1, e2.later ⟨hl, ?_⟩⟩
  cases x with
  | registry e => exact fun i b h1 h2 => ⟨i, b, Nat.le_refl _, h1, h2⟩
  | putBlock b a f1 f2 =>
    have hc : Other.cost (.putBlock b a f1 f2) = 1 := rfl
    exact onward_rd (n := 0) (K.steady.sound.store.mono (by omega)) D _ (h4 hn)
  | putMicro inv a f1 f2 =>
    have hc : Other.cost (.putMicro inv a f1 f2) = 1 := rfl
    exact onward_rd (n := 0) (K.steady.sound.store.mono (by omega)) D _ (h4 hn)

/-- what the handlers call in a civil event -/
theorem civil_call {e : Ev} {y : Other} (hc : Civil peer s s0 ch x e) (hy : handlerCall e = some y) :
    (∀ b a f1 f2, y = .putBlock b a f1 f2 → Loading.Genuine ch b) ∧ (∀ inv a f1 f2, y = .putMicro inv a f1 f2 → GenuineMicro s0 ch x.world.sh.link.db inv) ∧
    (∀ e f s', y = .registry e → e.op = .updateScore f peer s' → s' = s) ∧
    (x.world.todo ≠ none → ∀ a id, names y = some (a, id) → peer.plain = a.plain → NotBehind peer ch x.world.sh id) := by
  cases e with
  | connected D c p =>
    simp only [handlerCall, Option.map_eq_some_iff] at hy
    obtain ⟨a, _, rfl⟩ := hy
    exact ⟨(fun _ _ _ _ h => by cases h), (fun _ _ _ _ h => by cases h), (fun _ _ _ h h' => by cases h; cases h'), (fun _ _ _ h => by cases h)⟩
  | broken D c p =>
    simp only [handlerCall, Option.map_eq_some_iff] at hy
    obtain ⟨a, _, rfl⟩ := hy
    exact ⟨(fun _ _ _ _ h => by cases h), (fun _ _ _ _ h => by cases h), (fun _ _ _ h h' => by cases h; cases h'), (fun _ _ _ h => by cases h)⟩
  | message D c p m =>
    cases m with
    | peers ps =>
      cases hy
      exact ⟨(fun _ _ _ _ h => by cases h), (fun _ _ _ _ h => by cases h), (fun _ _ _ h h' => by cases h; cases h'), (fun _ _ _ h => by cases h)⟩
    | block b =>
      cases b with
      | none => cases hy
      | some b =>
        simp only [handlerCall, messageCall, Option.map_eq_some_iff] at hy
        obtain ⟨a, hr, rfl⟩ := hy
        refine ⟨(fun _ _ _ _ h => by cases h; exact hc.block D c p b (Or.inl rfl)), (fun _ _ _ _ h => by cases h), (fun _ _ _ h h' => by cases h), ?_⟩
        intro ht a' id hn hp
        cases hn
        exact hc.forth ht a b.id (by simp only [Ev.about, hr]; rfl) hp
    | pbBlock b =>
      cases b with
      | none => cases hy
      | some b =>
        simp only [handlerCall, messageCall, Option.map_eq_some_iff] at hy
        obtain ⟨a, hr, rfl⟩ := hy
        refine ⟨(fun _ _ _ _ h => by cases h; exact hc.block D c p b (Or.inr rfl)), (fun _ _ _ _ h => by cases h), (fun _ _ _ h h' => by cases h), ?_⟩
        intro ht a' id hn hp
        cases hn
        exact hc.forth ht a b.id (by simp only [Ev.about, hr]; rfl) hp
    | score sc =>
      simp only [handlerCall, messageCall, Option.map_eq_some_iff] at hy
      obtain ⟨a, hr, rfl⟩ := hy
      refine ⟨(fun _ _ _ _ h => by cases h), (fun _ _ _ _ h => by cases h), ?_, (fun _ _ _ h => by cases h)⟩
      intro e f s' h h'
      cases h; cases h'
      exact hc.score D c p sc rfl hr
    | microBlockInv inv =>
      cases inv with
      | none => cases hy
      | some inv =>
        simp only [handlerCall, messageCall, Option.map_eq_some_iff] at hy
        obtain ⟨a, hr, rfl⟩ := hy
        refine ⟨(fun _ _ _ _ h => by cases h), (fun _ _ _ _ h => by cases h; exact hc.micro D c p inv rfl), (fun _ _ _ h h' => by cases h), ?_⟩
        intro ht a' id hn hp
        cases hn
        exact hc.forth ht a inv.totalBlockID (by simp only [Ev.about, hr]; rfl) hp
    | _ => cases hy
  | _ => cases hy

/-- what holds along the synchronisation is kept by a civil event -/
theorem side_step (H : History ch) (hscore : s = worth s0 ch (ch.length - 1)) (K : Underway lib g N src peer s s0 ch w0 x.world)
    (ha : x.world.own.active = true) {e : Ev} (hc : Civil peer s s0 ch x e) (hs : x.step lib e = some (.ok x'))
    (hi : ∀ c i, (c, i) ∈ x'.world.ins → i.From src) (hN : Chains.Spec.inserts x'.world.calls ≤ N) :
    Underway lib g N src peer s s0 ch w0 x'.world := by
  have reg : ∀ (D : Disk) (ev : Peers.Event), (∀ f s', ev.op ≠ .updateScore f peer s') →
      Chains.Spec.inserts (x.world.called ((Other.registry ev).effectRd D lib x.world.sh) (some (.registry ev))).calls ≤ N →
      Underway lib g N src peer s s0 ch w0 (x.world.called ((Other.registry ev).effectRd D lib x.world.sh) (some (.registry ev))) := by
    intro D ev hev hN
    refine underway_called H K ha D (.registry ev) (fun _ _ _ _ h => by cases h) (fun _ _ _ _ h => by cases h) ?_ (fun _ _ _ h => by cases h) hN
    intro e f s' h h'
    cases h
    exact absurd h' (hev f s')
  have last : ∀ {c : Ctx} {i : Input}, (∀ c' i', (c', i') ∈ x.world.ins ++ [(c, i)] → i'.From src) → i.From src :=
    fun h => h _ _ (List.mem_append.mpr (Or.inr (List.mem_singleton.mpr rfl)))
  obtain ⟨_, hcase⟩ := step_case hs
  cases hcase with
  | @handled _ r y hd hr hx =>
    obtain ⟨e1, e2⟩ := hr.effect hx
    have hN : Chains.Spec.inserts (x.world.called y.sh y.call).calls ≤ N := hN
    show Underway lib g N src peer s s0 ch w0 (x.world.called y.sh y.call)
    cases hy : y.call with
    | none =>
      rw [hy] at e2
      rw [show y.sh = x.world.sh from e2, called_none]; exact K
    | some o =>
      obtain ⟨q1, q2, q3, q4⟩ := civil_call hc (e1.symm.trans hy)
      rw [hy] at e2 hN
      rw [show y.sh = o.effectRd e.disk lib x.world.sh from e2] at hN ⊢
      exact underway_called H K ha e.disk o q1 q2 q3 q4 hN
  | take c p hd hw =>
    refine K.receive H hscore ha c p.input (waits_iff hw).2 ?_ (last hi)
    have hf := hc.take c rfl
    cases p with
    | ids a ids =>
      refine ⟨?_, (fun _ h => by cases h), (fun h => by cases h), (fun _ _ _ _ h => by cases h), (fun _ _ _ _ h => by cases h), (fun _ _ _ h => by cases h)⟩
      intro l hl hst hne
      cases hl
      exact ⟨hf, fun m req hm hr => hc.ids c ids rfl hd hst hne m req hm hr⟩
    | block a b =>
      refine ⟨(fun _ h => by cases h), ?_, (fun h => by cases h), (fun _ _ _ _ h => by cases h), (fun _ _ _ _ h => by cases h), (fun _ _ _ h => by cases h)⟩
      intro b' hb
      cases hb
      exact ⟨hf, fun y hy => by cases hy; exact hc.held c b rfl hd⟩
  | tick c hw ht =>
    refine K.receive H hscore ha c .tick (waits_iff hw).2 ?_ (last hi)
    exact ⟨(fun _ h => by cases h), (fun _ h => by cases h), (fun _ => hc.tick c rfl), (fun _ _ _ _ h => by cases h), (fun _ _ _ _ h => by cases h), (fun _ _ _ h => by cases h)⟩
  | timer c hw =>
    refine K.receive H hscore ha c .timer (waits_iff hw).2 ?_ (last hi)
    exact ⟨(fun _ h => by cases h), (fun _ h => by cases h), (fun h => by cases h), (fun _ _ _ _ h => by cases h), (fun _ _ _ _ h => by cases h), (fun _ _ _ h => by cases h)⟩
  | call D c k ht hk =>
    cases hc.disk D rfl
    simp only [Loading.Fine.Call.res_good, Loading.Fine.Call.effect_good] at hN ⊢
    exact K.call c k ht (step_room (w := x.world) (b := true) (o := c.op) hN)
  | finish D o ht => exact K.finish o ht
  | respawn D now failed hu har =>
    unfold Sys.respawn at hN ⊢
    split
    · exact K
    · rename_i hf
      rw [if_neg hf] at hN
      dsimp only at hN ⊢
      split
      · rename_i he
        rw [he] at hN
        exact reg D ⟨now, .take⟩ (fun _ _ h => by cases h) hN
      · rename_i as he
        rw [he] at hN
        exact reg D ⟨now, .take⟩ (fun _ _ h => by cases h) hN
  | refused D f now a e hw => exact reg D ⟨now, .suggest f a⟩ (fun _ _ h => by cases h) hN
  | suggested D f now a v hw => exact reg D ⟨now, .suggest f a⟩ (fun _ _ h => by cases h) hN
  | giveUp D f now a hd => exact reg D ⟨now, .unregister f a⟩ (fun _ _ h => by cases h) hN
  | _ => exact K

theorem step_ins {e : Ev} (hs : x.step lib e = some (.ok x')) : (∀ y, y ∈ x.world.ins → y ∈ x'.world.ins) ∧
    Chains.Spec.inserts x.world.calls ≤ Chains.Spec.inserts x'.world.calls := by
  rcases step_world hs with ⟨h, _⟩ | h
  · rw [h]; exact ⟨fun _ h => h, Nat.le_refl _⟩
  · obtain ⟨l, hl⟩ := h.ins
    exact ⟨fun y hy => by rw [hl]; exact List.mem_append.mpr (Or.inl hy), h.inserts⟩

variable {es : List Ev}

theorem Side.mono (h : Side lib peer s s0 ch x0 es x) : (∀ y, y ∈ x0.world.ins → y ∈ x.world.ins) ∧
    Chains.Spec.inserts x0.world.calls ≤ Chains.Spec.inserts x.world.calls := by
  induction h with
  | start => exact ⟨fun _ h => h, Nat.le_refl _⟩
  | step e h ha hc hs ih =>
    have := step_ins hs
    exact ⟨fun y hy => this.1 y (ih.1 y hy), Nat.le_trans ih.2 this.2⟩

theorem side_underway (H : History ch) (hscore : s = worth s0 ch (ch.length - 1)) (K0 : Underway lib g N src peer s s0 ch x0.world x0.world)
    (h : Side lib peer s s0 ch x0 es x) (hi : ∀ c i, (c, i) ∈ x.world.ins → i.From src) (hN : Chains.Spec.inserts x.world.calls ≤ N) :
    Underway lib g N src peer s s0 ch x0.world x.world := by
  induction h with
  | start => exact K0
  | step e h ha hc hs ih =>
    have := step_ins hs
    exact side_step H hscore (ih (fun c i hm => hi c i (this.1 _ hm)) (Nat.le_trans this.2 hN)) ha hc hs hi hN

theorem underway_begun {reg : Registry} {lk : Linkage} {tr : List Answer} (S : Serving g N lk) (R : Peers.Reachable lib reg)
    (h : RdRun lib (World.start reg lk) tr w0) (hi : ∀ c i, (c, i) ∈ w0.ins → i.From src) (hN : Chains.Spec.inserts w0.calls ≤ N)
    (ht : w0.todo = none) (hb : Starts peer s s0 ch (w0.own.on w0.sh)) : Underway lib g N src peer s s0 ch w0 w0 := by
  obtain ⟨St, _⟩ := steadyRd S R h hi hN
  refine ⟨St, hb.faithful, hb.announced, ?_, hb.who, [], (List.append_nil _).symm, fun _ => ?_, (fun p hp => by rw [ht] at hp; cases hp)⟩
  · intro ha
    have := (St.rest ht).1.scored ha
    rw [← hb.who]; exact this
  · obtain ⟨m, req, h1, h2, h3⟩ := hb.asked
    exact .asking m req ⟨hb.active, hb.state, h1, h2, h3, Or.inl ⟨rfl, rfl⟩⟩

/-- what holds at every moment of the synchronisation -/
theorem side_kept {reg : Registry} {lk : Linkage} {tr : List Answer} (H : History ch) (S : Serving g N lk) (R : Peers.Reachable lib reg)
    (h0 : RdRun lib (World.start reg lk) tr x0.world) (ht : x0.world.todo = none) (hb : Starts peer s s0 ch (x0.world.own.on x0.world.sh))
    (h : Side lib peer s s0 ch x0 es x) (hN : Chains.Spec.inserts x.world.calls ≤ N) :
    Underway lib g N (received x.world) peer s s0 ch x0.world x.world :=
  side_underway H hb.score (underway_begun S R h0 (fun c i hm => received_from x.world c i (h.mono.1 _ hm)) (Nat.le_trans h.mono.2 hN) ht hb) h
    (fun c i hm => received_from x.world c i hm) hN

end Verif.Services.Fine
