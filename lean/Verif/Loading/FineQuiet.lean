import Verif.Loading.FineRun
import Verif.Chains.Examples
/-
Runs in which the other goroutines wait for the loader are those of `Loading/Spec.lean`.
-/

set_option autoImplicit false

namespace Verif.Loading.Fine

open Verif
open Verif.Chains (Addr BlockID ProtoBlock MicroInv Linkage)
open Verif.Peers (Registry Lib)

variable {lib : Lib} {reg : Registry} {lk : Linkage}

theorem exec_snoc {l' : Loader} (e : Event) : ∀ (es : List Event) (l : Loader), exec lib l es = .ok l' →
    exec lib l (es ++ [e]) = step lib l' e
  | [], l, h => by
    cases h
    show (step lib l' e >>= fun l => exec lib l []) = _
    cases step lib l' e <;> rfl
  | x :: es, l, h => by
    have h : (step lib l x >>= fun l => exec lib l es) = .ok l' := h
    show (step lib l x >>= fun l => exec lib l (es ++ [e])) = _
    cases hs : step lib l x with
    | error _ => rw [hs] at h; cases h
    | ok m => rw [hs] at h; exact exec_snoc e es m h

theorem heard_append (xs : List Event) : ∀ es, heard (es ++ xs) = heard es ++ heard xs
  | [] => rfl
  | ⟨c, op⟩ :: es => by
    cases op <;> simp [heard, heard_append xs es]

theorem heard_input (c : Ctx) (i : Input) : heard [⟨c, i.event⟩] = [(c, i)] := by
  cases i <;> rfl

theorem on_parts (l : Loader) : (Fine.own l).on (Fine.shared l) = l := rfl

/-- the program runs to its end if nobody interferes -/
theorem run_alone {w0 : World} : ∀ (p : Proc (Go Own)) (w : World), Run lib w0 w → w.todo = some p →
    ∃ log, Run lib w0 ⟨w.own, some (.ret (p.alone lib w.sh).1), (p.alone lib w.sh).2, w.ins, log⟩
  | .ret a, w, h, ht => by
    obtain ⟨o, t, s, i, l⟩ := w
    cases ht
    exact ⟨l, h⟩
  | .call c k, w, h, ht => run_alone (k (c.res lib w.sh))
      ⟨w.own, some (k (c.res lib w.sh)), c.effect w.sh, w.ins, w.log ++ (c.op.map (fun o => (true, o))).toList⟩
      (.snoc h (.call w c k ht)) rfl

/-- one event, without interference -/
theorem run_event {w0 w : World} (h : Run lib w0 w) (ht : w.todo = none) (e : Event) {l' : Loader}
    (hs : step lib (w.own.on w.sh) e = .ok l') :
    ∃ w', Run lib w0 w' ∧ w'.todo = none ∧ w'.own.on w'.sh = l' ∧ w'.ins = w.ins ++ heard [e] := by
  have input : ∀ i : Input, e.op = i.event → ∃ w', Run lib w0 w' ∧ w'.todo = none ∧ w'.own.on w'.sh = l' ∧ w'.ins = w.ins ++ heard [e] := by
    intro i hi
    have he : e = ⟨e.ctx, i.event⟩ := by obtain ⟨c, op⟩ := e; cases hi; rfl
    rw [he] at hs ⊢
    obtain ⟨log, hr⟩ := run_alone (handle e.ctx w.own i)
      { w with todo := some (handle e.ctx w.own i), ins := w.ins ++ [(e.ctx, i)] } (.snoc h (.receive w e.ctx i ht)) rfl
    have A := agree_handle (lib := lib) e.ctx w.own w.sh i
    have h1 := A.result
    have h2 := A.shared l' hs
    rw [hs] at h1
    change _ = Except.ok (Fine.own l') at h1
    rw [show ({ w with todo := some (handle e.ctx w.own i), ins := w.ins ++ [(e.ctx, i)] } : World).sh = w.sh from rfl, h1, h2] at hr
    exact ⟨_, .snoc hr (.finish _ _ rfl), rfl, rfl, by rw [heard_input]⟩
  have other : ∀ x : Other, (heard [e] = []) → l' = w.own.on (x.effect lib w.sh) →
      ∃ w', Run lib w0 w' ∧ w'.todo = none ∧ w'.own.on w'.sh = l' ∧ w'.ins = w.ins ++ heard [e] := by
    intro x hh hl
    exact ⟨_, .snoc h (.other w x), ht, hl.symm, by rw [hh, List.append_nil]⟩
  have ok : ∀ r : Linkage × Go Unit, others (w.own.on w.sh) r = .ok l' → l' = { w.own.on w.sh with link := r.1 } := by
    intro r hr
    unfold others at hr
    split at hr
    · cases hr
    · cases hr; rfl
  obtain ⟨c, op⟩ := e
  cases op with
  | ids peer l => exact input (.ids peer l) rfl
  | block peer b => exact input (.block peer b) rfl
  | tick => exact input .tick rfl
  | timer => exact input .timer rfl
  | putBlock b a f1 f2 => exact other (.putBlock b a f1 f2) rfl (ok _ hs)
  | putMicro inv a f1 f2 => exact other (.putMicro inv a f1 f2) rfl (ok _ hs)
  | registry ev => cases hs; exact other (.registry ev) rfl rfl

theorem run_events {w0 : World} : ∀ (es : List Event) {w : World}, Run lib w0 w → w.todo = none → ∀ {l' : Loader},
    exec lib (w.own.on w.sh) es = .ok l' → ∃ w', Run lib w0 w' ∧ w'.todo = none ∧ w'.own.on w'.sh = l' ∧ w'.ins = w.ins ++ heard es
  | [], w, h, ht, l', hs => ⟨w, h, ht, (by cases hs; rfl), by simp [heard]⟩
  | e :: es, w, h, ht, l', hs => by
    have hs : (step lib (w.own.on w.sh) e >>= fun l => exec lib l es) = .ok l' := hs
    cases h1 : step lib (w.own.on w.sh) e with
    | error _ => rw [h1] at hs; cases hs
    | ok m =>
      rw [h1] at hs
      obtain ⟨w1, r1, t1, o1, i1⟩ := run_event h ht e h1
      obtain ⟨w2, r2, t2, o2, i2⟩ := run_events es r1 t1 (by rw [o1]; exact hs)
      refine ⟨w2, r2, t2, o2, ?_⟩
      rw [i2, i1, List.append_assoc, ← heard_append]; rfl

/-- where a quiet run is: between two events, or in the middle of one -/
inductive Along (lib : Lib) (l0 : Loader) (w : World) : Prop where
  | between (es : List Event) (ht : w.todo = none) (he : exec lib l0 es = .ok (w.own.on w.sh)) (hi : heard es = w.ins)
  | during (es : List Event) (c : Ctx) (i : Input) (s0 : Shared) (p : Proc (Go Own)) (ht : w.todo = some p)
      (he : exec lib l0 es = .ok (w.own.on s0)) (hi : heard es ++ [(c, i)] = w.ins)
      (ha : (handle c w.own i).alone lib s0 = p.alone lib w.sh)

theorem quiet_along {w : World} (h : Undisturbed lib (World.start reg lk) w) : Along lib (NewLoader reg lk) w := by
  induction h with
  | nil => exact .between [] rfl rfl rfl
  | @loader v v' h t ht ih =>
    cases t with
    | receive c i hn =>
      cases ih with
      | between es _ he hi => exact .during es c i v.sh _ rfl he (by rw [hi]) rfl
      | during es c i s0 p hp => rw [hn] at hp; cases hp
    | call c k hc =>
      cases ih with
      | between es hn => rw [hn] at hc; cases hc
      | during es c' i s0 p hp he hi ha =>
        rw [hc] at hp; cases hp
        exact .during es c' i s0 _ rfl he hi ha
    | finish o hc =>
      cases ih with
      | between es hn => rw [hn] at hc; cases hc
      | during es c i s0 p hp he hi ha =>
        rw [hc] at hp; cases hp
        have A := agree_handle (lib := lib) c v.own s0 i
        rw [ha] at A
        change Agree (Except.ok o, v.sh) _ at A
        refine .between (es ++ [⟨c, i.event⟩]) rfl ?_ (by rw [heard_append, heard_input]; exact hi)
        rw [exec_snoc _ _ _ he]
        cases hr : step lib (v.own.on s0) ⟨c, i.event⟩ with
        | error e => have := A.result; rw [hr] at this; cases this
        | ok l =>
          have h1 := A.result
          have h2 := A.shared l hr
          rw [hr] at h1
          change Except.ok o = Except.ok (Fine.own l) at h1
          cases h1
          change v.sh = _ at h2
          show Except.ok l = Except.ok ((Fine.own l).on v.sh)
          rw [h2]; rfl
    | other x => exact absurd rfl ht
  | @other v h x ht hp ih =>
    cases ih with
    | during es c i s0 p hp' => rw [ht] at hp'; cases hp'
    | between es _ he hi =>
      have ok : ∀ (r : Linkage × Go Unit), r.2 ≠ goPanic → others (v.own.on v.sh) r = .ok { v.own.on v.sh with link := r.1 } := by
        intro r hr
        unfold others
        split
        · rename_i h; exact absurd h hr
        · rfl
      -- the events of the other goroutines do not use it
      let c0 : Ctx := ⟨Chains.Ex.env, 0, fun _ => .ok, fun _ => 0⟩
      cases x with
      | putBlock b a f1 f2 =>
        refine .between (es ++ [⟨c0, .putBlock b a f1 f2⟩]) ht ?_ (by rw [heard_append]; simpa [heard] using hi)
        rw [exec_snoc _ _ _ he]
        exact ok _ (hp _ rfl)
      | putMicro inv a f1 f2 =>
        refine .between (es ++ [⟨c0, .putMicro inv a f1 f2⟩]) ht ?_ (by rw [heard_append]; simpa [heard] using hi)
        rw [exec_snoc _ _ _ he]
        exact ok _ (hp _ rfl)
      | registry e =>
        refine .between (es ++ [⟨c0, .registry e⟩]) ht ?_ (by rw [heard_append]; simpa [heard] using hi)
        rw [exec_snoc _ _ _ he]
        rfl

end Verif.Loading.Fine
