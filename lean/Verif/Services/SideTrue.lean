import Verif.Services.SideRun
import Verif.Services.Genuine
import Verif.Props.Faulty
/-
How a synchronisation begins while the goroutines work side by side, and what is stored when everybody tells the truth: lemmas for
property C107.
-/

set_option autoImplicit false

namespace Verif.Services.Fine

open Verif
open Verif.Chains (Addr BlockID ProtoBlock MicroInv Linkage LeashOf)
open Verif.Chains.Spec (Stored Truth Truthful Told Holds)
open Verif.Peers (Lib Registry Config AddrPort)
open Verif.Loading (Ctx Serving)
open Verif.Loading.Fine (World Shared Disk Other Input Answer Call RdStep RdRun Own Proc Ends Later Sound Steady received received_from steadyRd)
open Verif.KV (Fate)

variable {lib : Lib} {g : ProtoBlock} {N : Nat} {lk : Linkage} {r : Registry} {D : Disk} {cfg : Config} {fs : Nat → Fate}
  {seeds : List (Option AddrPort)} {listener : Bool} {es0 es : List Ev} {tr : List Answer} {x0 x x' : Sys}

theorem Busy.path (h : Busy lib x0 es x) : ∃ tr, Path lib x0 es tr x := by
  induction h with
  | start => exact ⟨[], .nil⟩
  | step e _ _ _ hs ih => obtain ⟨tr, ih⟩ := ih; exact ⟨_, ih.snoc e hs⟩

theorem Side.path {peer : Addr} {s s0 : Nat} {ch : List ProtoBlock} (h : Side lib peer s s0 ch x0 es x) : ∃ tr, Path lib x0 es tr x := by
  induction h with
  | start => exact ⟨[], .nil⟩
  | step e _ _ _ hs ih => obtain ⟨tr, ih⟩ := ih; exact ⟨_, ih.snoc e hs⟩

theorem Along.path {peer : Addr} {s : Nat} {ch : List ProtoBlock} (h : Along lib peer s ch x0 es x) : ∃ tr, Path lib x0 es tr x := by
  induction h with
  | start => exact ⟨[], .nil⟩
  | step e _ _ _ hs ih => obtain ⟨tr, ih⟩ := ih; exact ⟨_, ih.snoc e hs⟩

/-- the steps while the loader handles an event -/
theorem busy_step {e : Ev} (hs : x.step lib e = some (.ok x')) (hb : x.world.todo ≠ none) (hg : ∀ D, e = .go D → D = .good) :
    (x'.world.own = x.world.own ∧ x'.world.todo = x.world.todo) ∨
    (∃ (c : Call) (k : c.Res → Proc (Go Own)), x.world.todo = some (.call c k) ∧ x'.world.todo = some (k (c.res lib x.world.sh)) ∧
      x'.world.sh = c.effect x.world.sh ∧ Chains.Spec.inserts x'.world.calls = Chains.Spec.inserts x.world.calls + c.cost) ∨
    ∃ o, x.world.todo = some (.ret (.ok o)) ∧ x'.world.todo = none ∧ x'.world.own = o ∧ x'.world.sh = x.world.sh := by
  obtain ⟨_, hc⟩ := step_case hs
  cases hc with
  | take c p hd hw => exact absurd (waits_iff hw).2 hb
  | tick c hw ht => exact absurd (waits_iff hw).2 hb
  | timer c hw => exact absurd (waits_iff hw).2 hb
  | call D c k ht hk =>
    cases hg D rfl
    refine Or.inr (Or.inl ⟨c, k, ht, ?_, ?_, ?_⟩)
    · simp only [Loading.Fine.Call.res_good]
    · simp only [Loading.Fine.Call.effect_good]
    · show Chains.Spec.inserts ((x.world.log ++ (c.op.map (fun o => (true, o))).toList).map (·.2)) = _
      rw [Loading.Fine.calls_append, Chains.inserts_append]; rfl
  | finish D o ht => exact Or.inr (Or.inr ⟨o, ht, rfl, rfl, rfl⟩)
  | respawn D now failed hu ha =>
    left
    unfold Sys.respawn
    split
    · exact ⟨rfl, rfl⟩
    · dsimp only
      split <;> exact ⟨rfl, rfl⟩
  | _ => exact Or.inl ⟨rfl, rfl⟩

/-- along the handling of an event -/
theorem busy_along (S : Serving g N lk) (R : Peers.Reachable lib r) (h0 : Path lib (Sys.start D cfg r.db fs seeds lk listener) es0 tr x0)
    {Q : Go Own → Shared → Prop} {p : Proc (Go Own)} (ht : x0.world.todo = some p) (hp : Ends lib g Q p x0.world.sh)
    (h : Busy lib x0 es x) (hN : Chains.Spec.inserts x.world.calls ≤ N) :
    (∃ q, x.world.todo = some q ∧ Ends lib g Q q x.world.sh) ∨ (x.world.todo = none ∧ Q (.ok x.world.own) x.world.sh) := by
  induction h with
  | start => exact Or.inl ⟨p, ht, hp⟩
  | @step es x x' e h hb hg hs ih =>
    have hmon := step_ins hs
    obtain ⟨tr1, hpath⟩ := h.path
    have hrun := (h0.append hpath).run
    obtain ⟨St, _⟩ := steadyRd (src := received x'.world) S (start_reachable R D cfg fs seeds) hrun
      (fun c i hm => received_from x'.world c i (hmon.1 _ hm)) (Nat.le_trans hmon.2 hN)
    have hlat : Later x.world.sh x'.world.sh := by
      rcases step_world hs with ⟨h1, _⟩ | h1
      · rw [h1]; exact Later.refl _
      · exact (St.stepRd h1 (fun c i hm => received_from x'.world c i hm) hN).2
    rcases ih (Nat.le_trans hmon.2 hN) with ⟨q, hq, hE⟩ | ⟨hn, _⟩
    · rcases busy_step hs hb hg with ⟨_, h1⟩ | ⟨c, k, h1, h2, h3, h4⟩ | ⟨o, h1, h2, h3, h4⟩
      · exact Or.inl ⟨q, h1.trans hq, hE.later hlat⟩
      · rw [h1] at hq; cases hq
        left
        rw [h3]
        exact ⟨_, h2, hE x.world.sh (Later.refl _) (St.sound.mono (by omega))⟩
      · rw [h1] at hq; cases hq
        right
        rw [h3, h4]
        exact ⟨h2, hE x.world.sh (Later.refl _) (St.sound.mono (Nat.zero_le _))⟩
    · exact absurd hn hb

/-! ### everybody tells the truth -/

variable {T : Truth}

theorem says_truthful (ht : Sincere T es) {a : Addr} {b : ProtoBlock} (h : Pkg.block a b ∈ says es) : T b.id = b := by
  obtain ⟨e, he, hs⟩ := List.mem_filterMap.mp h
  cases e with
  | message D c p m =>
    have hm := ht D c p m he
    cases m with
    | block b' =>
      cases b' with
      | none => cases hs
      | some b' =>
        simp only [Ev.says, Option.map_eq_some_iff] at hs
        obtain ⟨_, _, hs⟩ := hs
        cases hs; exact hm
    | pbBlock b' =>
      cases b' with
      | none => cases hs
      | some b' =>
        simp only [Ev.says, Option.map_eq_some_iff] at hs
        obtain ⟨_, _, hs⟩ := hs
        cases hs; exact hm
    | signatures l =>
      simp only [Ev.says, Option.map_eq_some_iff] at hs
      obtain ⟨_, _, hs⟩ := hs
      cases hs
    | blockIds l =>
      simp only [Ev.says] at hs
      split at hs
      · cases hs
      · simp only [Option.map_eq_some_iff] at hs
        obtain ⟨_, _, hs⟩ := hs
        cases hs
    | _ => cases hs
  | _ => cases hs

/-- what the distributor holds was said -/
theorem held_said (h : Path lib (Sys.start D cfg r.db fs seeds lk listener) es tr x) {p : Pkg} (hd : x.dist = .sending p) : p ∈ says es := by
  refine h.chan.order.subset ?_
  rw [h.chan.fifo, hd]
  exact List.mem_append.mpr (Or.inr (List.mem_singleton.mpr rfl))

theorem announces_truthful (ht : Sincere T es) {a : Addr} {inv : MicroInv} (h : (a, inv) ∈ announces es) :
    T inv.totalBlockID = { T inv.reference with id := inv.totalBlockID } := by
  obtain ⟨e, he, hs⟩ := List.mem_filterMap.mp h
  cases e with
  | message D c p m =>
    have hm := ht D c p m he
    cases m with
    | microBlockInv inv' =>
      cases inv' with
      | none => cases hs
      | some inv' =>
        simp only [Ev.announces, Option.map_eq_some_iff] at hs
        obtain ⟨_, _, hs⟩ := hs
        cases hs; exact hm
    | _ => cases hs
  | _ => cases hs

theorem inserts_sublist {l l' : List Chains.Spec.Op} (h : l.Sublist l') : Chains.Spec.inserts l ≤ Chains.Spec.inserts l' :=
  (h.filter _).length_le

/-- what is stored is true, also when reads fail -/
theorem holds_path (S : Serving g N lk) (R : Peers.Reachable lib r) (h : Path lib (Sys.start D cfg r.db fs seeds lk listener) es tr x)
    (hN : Chains.Spec.inserts x.world.calls ≤ N) (h0 : Told T g lk) (ht : Sincere T es) : Holds T g x.world.sh.link := by
  obtain ⟨⟨done, hsub, hex⟩, S', _⟩ := C105_store S R h hN
  obtain ⟨o1, o2, o3, o4⟩ := C105_origin S R h hN
  refine ⟨S'.reachable, ?_⟩
  obtain ⟨ns, hs, Rp, hb⟩ := Serving.rep S
  have := inserts_sublist hsub
  intro id rec hr
  rw [hex] at hr
  refine Chains.told_more h0 Rp (by unfold World.calls at hN this; omega) ?_ hr
  intro o ho
  have ho := hsub.subset ho
  cases o with
  | putBlock b a f1 f2 => exact says_truthful ht (o1 b a f1 f2 ho)
  | putMicro inv a f1 f2 => exact announces_truthful ht (o2 inv a f1 f2 ho)
  | moveLeash id a f => trivial
  | reopen g' f => exact absurd ho (o4 g' f)

/-- a synchronisation that the timer has started -/
theorem begins {s s0 : Nat} {ch : List ProtoBlock} {peer : Addr} (S : Serving g N lk) (R : Peers.Reachable lib r)
    (h0 : Path lib (Sys.start D cfg r.db fs seeds lk listener) es0 tr x0) (hn : x0.world.own.active = false)
    (c : Loading.Ctx) {x1 : Sys} (h1 : x0.step lib (.timer c) = some (.ok x1)) (h : Busy lib x1 es x)
    (hN : Chains.Spec.inserts x.world.calls ≤ N) (ht : x.world.todo = none) (ha : x.world.own.active = true) (hp : x.world.own.peerID = peer)
    (han : Loading.Announced x.world.sh.reg peer s) (hs : s = Loading.worth s0 ch (ch.length - 1)) (F : Loading.Faithful s0 ch x.world.sh.link.db) :
    Loading.Starts peer s s0 ch (x.world.own.on x.world.sh) ∧ x.world.own.prevDiff = x0.world.own.prevDiff := by
  have hp1 := h0.snoc _ h1
  obtain ⟨_, hcase⟩ := step_case h1
  have hx1 : x1.world = x0.world.receive c .timer := by
    cases hcase with
    | timer c hw => rfl
    | handled hd hr => cases hr
  have hE := busy_along S R hp1 (p := Loading.Fine.handle c x0.world.own .timer) (by rw [hx1]; rfl)
    (by rw [hx1]; exact Loading.Fine.ends_sync (lib := lib) (g := g) c (x := x0.world.sh) hn) h hN
  rcases hE with ⟨q, hq, _⟩ | ⟨_, hE⟩
  · rw [ht] at hq; cases hq
  · obtain ⟨e1, e2, m, req, e3, _, _, e4, e5⟩ := hE _ rfl ha
    exact ⟨⟨ha, e1, hp, ⟨m, req, by show x.world.own.out.getLast? = _; rw [e3]; simp, e4, e5⟩, han, hs, F⟩, e2⟩

end Verif.Services.Fine
