import Verif.Loading.AmongFrugal
import Verif.Services.SideLemmas
/-
What is requested from an honest peer in the program: lemmas for property C133.
-/

set_option autoImplicit false

namespace Verif.Services.Fine

open Verif
open Verif.Chains (Addr BlockID ProtoBlock MicroInv Linkage LeashOf)
open Verif.Peers (Lib Registry)
open Verif.Loading (Ctx GenuineMicro History Serving worth Source)
open Verif.Loading.Fine (World Shared Disk Other Input NotBehind Onward Underway Saving Later step_room)

variable {lib : Lib} {g : ProtoBlock} {N : Nat} {peer : Addr} {s s0 : Nat} {ch : List ProtoBlock} {src : Source} {w0 v w : World} {x0 x x' : Sys}
  {es : List Ev}

theorem saving_called (V : Saving lib g peer s s0 ch w0 w) (K : Underway lib g N src peer s s0 ch v w) (D : Disk) (x : Other)
    (h4 : w.todo ≠ none → ∀ a id, names x = some (a, id) → peer.plain = a.plain → NotBehind peer ch w.sh id)
    (hN : Chains.Spec.inserts (w.called (x.effectRd D lib w.sh) (some x)).calls ≤ N) :
    Saving lib g peer s s0 ch w0 (w.called (x.effectRd D lib w.sh) (some x)) := by
  have hN' : Chains.Spec.inserts w.calls + x.cost ≤ N := step_room (w := w) (b := false) (o := x.op) hN
  refine V.other (K.steady.other x (fun _ => Other.soundRd D x) hN').2 (fun hn => ?_)
  cases x with
  | registry e => exact fun i b h1 h2 => ⟨i, b, Nat.le_refl _, h1, h2⟩
  | putBlock b a f1 f2 =>
    have hc : Other.cost (.putBlock b a f1 f2) = 1 := rfl
    exact onward_rd (n := 0) (K.steady.sound.store.mono (by omega)) D _ (h4 hn)
  | putMicro inv a f1 f2 =>
    have hc : Other.cost (.putMicro inv a f1 f2) = 1 := rfl
    exact onward_rd (n := 0) (K.steady.sound.store.mono (by omega)) D _ (h4 hn)

/-- what is requested, through a civil event -/
theorem saving_step (H : History ch) (hscore : s = worth s0 ch (ch.length - 1)) (V : Saving lib g peer s s0 ch w0 x.world)
    (K : Underway lib g N src peer s s0 ch v x.world) (ha : x.world.own.active = true) {e : Ev} (hc : Civil peer s s0 ch x e)
    (hs : x.step lib e = some (.ok x')) (hN : Chains.Spec.inserts x'.world.calls ≤ N) : Saving lib g peer s s0 ch w0 x'.world := by
  have reg : ∀ (D : Disk) (ev : Peers.Event),
      Chains.Spec.inserts (x.world.called ((Other.registry ev).effectRd D lib x.world.sh) (some (.registry ev))).calls ≤ N →
      Saving lib g peer s s0 ch w0 (x.world.called ((Other.registry ev).effectRd D lib x.world.sh) (some (.registry ev))) :=
    fun D ev hN => saving_called V K D (.registry ev) (fun _ _ _ h => by cases h) hN
  obtain ⟨_, hcase⟩ := step_case hs
  cases hcase with
  | @handled _ r y hd hr hx =>
    obtain ⟨e1, e2⟩ := hr.effect hx
    have hN : Chains.Spec.inserts (x.world.called y.sh y.call).calls ≤ N := hN
    show Saving lib g peer s s0 ch w0 (x.world.called y.sh y.call)
    cases hy : y.call with
    | none =>
      rw [hy] at e2
      rw [show y.sh = x.world.sh from e2, called_none]; exact V
    | some o =>
      obtain ⟨_, _, _, q4⟩ := civil_call hc (e1.symm.trans hy)
      rw [hy] at e2 hN
      rw [show y.sh = o.effectRd e.disk lib x.world.sh from e2] at hN ⊢
      exact saving_called V K e.disk o q4 hN
  | take c p hd hw =>
    refine V.receive H hscore K ha c p.input (waits_iff hw).2 ?_
    have hf := hc.take c rfl
    cases p with
    | ids a ids =>
      refine ⟨?_, (fun _ h => by cases h), (fun h => by cases h), (fun _ _ _ _ h => by cases h), (fun _ _ _ _ h => by cases h), (fun _ _ _ h => by cases h)⟩
      intro l hl hst hne
      cases hl
      exact ⟨hf, fun m req hm hr => hc.ids c ids rfl hd hst hne m req hm hr⟩
    | block a b =>
      refine ⟨(fun _ h => by cases h), ?_, (fun h => by cases h), (fun _ _ _ _ h => by cases h), (fun _ _ _ _ h => by cases h), (fun _ _ _ h => by cases h)⟩
      intro b' hb
      cases hb
      exact ⟨hf, fun y hy => by cases hy; exact hc.held c b rfl hd⟩
  | tick c hw ht =>
    refine V.receive H hscore K ha c .tick (waits_iff hw).2 ?_
    exact ⟨(fun _ h => by cases h), (fun _ h => by cases h), (fun _ => hc.tick c rfl), (fun _ _ _ _ h => by cases h), (fun _ _ _ _ h => by cases h), (fun _ _ _ h => by cases h)⟩
  | timer c hw =>
    refine V.receive H hscore K ha c .timer (waits_iff hw).2 ?_
    exact ⟨(fun _ h => by cases h), (fun _ h => by cases h), (fun h => by cases h), (fun _ _ _ _ h => by cases h), (fun _ _ _ _ h => by cases h), (fun _ _ _ h => by cases h)⟩
  | call D c k ht hk =>
    cases hc.disk D rfl
    simp only [Loading.Fine.Call.res_good, Loading.Fine.Call.effect_good] at hN ⊢
    exact V.call K c k ht (step_room (w := x.world) (b := true) (o := c.op) hN)
  | finish D o ht => exact V.finish K o ht
  | respawn D now failed hu har =>
    unfold Sys.respawn at hN ⊢
    split
    · exact V
    · rename_i hf
      rw [if_neg hf] at hN
      dsimp only at hN ⊢
      split
      · rename_i he
        rw [he] at hN
        exact reg D ⟨now, .take⟩ hN
      · rename_i as he
        rw [he] at hN
        exact reg D ⟨now, .take⟩ hN
  | refused D f now a e hw => exact reg D ⟨now, .suggest f a⟩ hN
  | suggested D f now a v hw => exact reg D ⟨now, .suggest f a⟩ hN
  | giveUp D f now a hd => exact reg D ⟨now, .unregister f a⟩ hN
  | _ => exact V

theorem Side.trans {y : Sys} {es' : List Ev} (h : Side lib peer s s0 ch x0 es x) (h' : Side lib peer s s0 ch x es' y) :
    Side lib peer s s0 ch x0 (es ++ es') y := by
  induction h' with
  | start => rw [List.append_nil]; exact h
  | step e _ ha hc hs ih => rw [← List.append_assoc]; exact .step e ih ha hc hs

theorem saving_side (H : History ch) (hscore : s = worth s0 ch (ch.length - 1)) (ht0 : x0.world.todo = none)
    (hK : ∀ es x, Side lib peer s s0 ch x0 es x → Chains.Spec.inserts x.world.calls ≤ N → ∃ src v, Underway lib g N src peer s s0 ch v x.world)
    (h : Side lib peer s s0 ch x0 es x) (hN : Chains.Spec.inserts x.world.calls ≤ N) : Saving lib g peer s s0 ch x0.world x.world := by
  induction h with
  | start => exact Saving.start ht0
  | step e h ha hc hs ih =>
    have hN' := Nat.le_trans (step_ins hs).2 hN
    obtain ⟨_, _, K⟩ := hK _ _ h hN'
    exact saving_step H hscore (ih hN') K ha hc hs hN

end Verif.Services.Fine
