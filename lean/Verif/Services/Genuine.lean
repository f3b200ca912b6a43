import Verif.Services.Origin
import Verif.Chains.Genuine
/-
The calls on the store that a run of the program makes, and what is stored when
everybody tells the truth.
-/

set_option autoImplicit false

namespace Verif.Services

open Verif
open Verif.Chains (ProtoBlock MicroInv Linkage)
open Verif.Chains.Spec (Truth Truthful Told Holds)
open Verif.Loading (Serving)
open Verif.Peers (Lib)

variable {lib : Lib} {g : ProtoBlock}

/-- The message tells the truth about the block in it, or about the block that the announced micro-block makes. -/
def Message.Truthful (T : Truth) : Message → Prop
  | .block (some b) => T b.id = b
  | .pbBlock (some b) => T b.id = b
  | .microBlockInv (some inv) => T inv.totalBlockID = { T inv.reference with id := inv.totalBlockID }
  | _ => True

/-- every message of the execution tells the truth -/
def Sincere (T : Truth) (es : List Ev) : Prop := ∀ c p m, Ev.message c p m ∈ es → m.Truthful T

/-- the store is what calls with things that peers sent made of the store at the start -/
theorem Run.calls {lk : Linkage} {n : Nat} {es : List Ev} {s : Prog} (h : Run lib g lk n es s) :
    ∃ m ops, Serving g (n + m) lk ∧ s.l.link = Chains.Spec.exec lk ops ∧ Chains.Spec.inserts ops ≤ m ∧ ∀ o, o ∈ ops → (heard es).Call o := by
  induction h with
  | @start n r hr hs cfg fs seeds lsn => exact ⟨0, [], hs, rfl, Nat.le_refl _, fun o ho => by cases ho⟩
  | @step n es s s' e h hs ih =>
    obtain ⟨m, ops, S, hex, hin, hcall⟩ := ih
    have T := h.traced
    have hi : ∀ e', e' ∈ es → e' ∈ es ++ [e] := fun _ h => List.mem_append_left _ h
    have hcall' : ∀ o, o ∈ ops → (heard (es ++ [e])).Call o := fun o ho => heard_call hi (hcall o ho)
    have hq : (heard (es ++ [e])).Queue s.l := by
      intro it hit b hb
      obtain ⟨m, hm, he⟩ := T.queue it hit b hb
      exact ⟨m, hm.mono hi, he⟩
    have hl := step_loader (Loading.Ex.ctx 0) hs
    cases he : s.loaderEv (Loading.Ex.ctx 0) e with
    | none =>
      rw [he] at hl
      have hl : s'.l = s.l := hl
      exact ⟨s.cost e + m, ops, by rw [← Nat.add_assoc]; exact S, by rw [hl]; exact hex, by omega, hcall'⟩
    | some le =>
      rw [he] at hl
      obtain ⟨⟨ops', hex', hins, hc'⟩, _⟩ := Loading.Source.step h.alive.running.reachable.inv hq (loaderEv_heard T.dist he) hl
      have hcost := cost_loaderEv he
      refine ⟨s.cost e + m, ops ++ ops', by rw [← Nat.add_assoc]; exact S, ?_, ?_, ?_⟩
      · rw [hex', hex]; simp [Chains.Spec.exec, List.foldl_append]
      · rw [Chains.inserts_append]; omega
      · intro o ho
        rcases List.mem_append.mp ho with ho | ho
        · exact hcall' o ho
        · exact hc' o ho

theorem truthful_heard {T : Truth} {es : List Ev} (ht : Sincere T es) {o : Chains.Spec.Op} (h : (heard es).Call o) : Truthful T o := by
  cases o with
  | putBlock b a f1 f2 =>
    obtain ⟨m, ⟨c, p, hm, _⟩, hb⟩ := h
    have := ht c p m hm
    cases m with
    | block b' => cases hb; exact this
    | pbBlock b' => cases hb; exact this
    | _ => cases hb
  | putMicro inv a f1 f2 =>
    obtain ⟨c, p, hm, _⟩ := h
    exact ht c p _ hm
  | moveLeash id a f => trivial
  | reopen g f => exact h.elim

theorem Run.holds {T : Truth} {lk : Linkage} {n : Nat} {es : List Ev} {s : Prog} (h : Run lib g lk n es s) (h0 : Told T g lk)
    (ht : Sincere T es) : Holds T g s.l.link := by
  refine ⟨h.alive.running.serving.reachable, ?_⟩
  obtain ⟨m, ops, S, hex, hin, hcall⟩ := h.calls
  obtain ⟨ns, hs, R, hb⟩ := Serving.rep S
  intro id r hr
  rw [hex] at hr
  exact Chains.told_more h0 R (by omega) (fun o ho => truthful_heard ht (hcall o ho)) hr

end Verif.Services
