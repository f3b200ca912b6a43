import Verif.Loading.FineInv
/-
Runs of the loader together with the other goroutines.
-/

set_option autoImplicit false

namespace Verif.Loading.Fine

open Verif
open Verif.Chains (Addr BlockID ProtoBlock MicroInv Linkage)
open Verif.Peers (Registry Lib)

variable {lib : Lib} {g : ProtoBlock} {src : Source}

/-- what holds at every moment; `N` is the room for blocks at the beginning -/
structure Steady (lib : Lib) (g : ProtoBlock) (N : Nat) (src : Source) (w : World) : Prop where
  sound : Sound lib g (N - Chains.Spec.inserts w.calls) w.sh
  rest : w.todo = none → Fit src w.own w.sh ∧ w.own.obj.triggers = []
  busy : ∀ p, w.todo = some p → p = .ret goPanic ∨ Safe lib g src Dies (Rest src) p w.sh
  log : ∀ o, (true, o) ∈ w.log → src.Call o

theorem calls_append (w : World) (x : Bool) (o : Option Chains.Spec.Op) :
    (w.log ++ (o.map (fun o => (x, o))).toList).map (·.2) = w.calls ++ o.toList := by
  cases o <;> simp [World.calls]

theorem log_append {w : World} {x : Bool} {o : Option Chains.Spec.Op} {y : Bool × Chains.Spec.Op}
    (h : y ∈ w.log ++ (o.map (fun o => (x, o))).toList) : y ∈ w.log ∨ (y.1 = x ∧ o = some y.2) := by
  rcases List.mem_append.mp h with h | h
  · exact Or.inl h
  · cases o with
    | none => cases h
    | some o =>
      have : y = (x, o) := by simpa using h
      subst this
      exact Or.inr ⟨rfl, rfl⟩

theorem Steady.receive {N : Nat} {w : World} (H : Steady lib g N src w) (c : Ctx) (i : Input) (h : w.todo = none)
    (hi : i.From src) : Steady lib g N src { w with todo := some (handle c w.own i), ins := w.ins ++ [(c, i)] } := by
  obtain ⟨F, hq⟩ := H.rest h
  exact ⟨H.sound, (fun h => by cases h), (fun p hp => Or.inr (by cases hp; exact safe_handle c i F hq hi)), H.log⟩

theorem Steady.finish {N : Nat} {w : World} (H : Steady lib g N src w) (o : Own) (h : w.todo = some (.ret (.ok o))) :
    Steady lib g N src { w with own := o, todo := none } := by
  refine ⟨H.sound, (fun _ => ?_), (fun p hp => by cases hp), H.log⟩
  rcases H.busy _ h with hx | hx
  · cases hx
  · obtain ⟨o', ho, F, hq⟩ := hx w.sh (Later.refl _) (H.sound.mono (Nat.zero_le _))
    cases ho
    exact ⟨F, hq⟩

/-- the loader makes a call, with any outcome -/
theorem Steady.call {N : Nat} {w : World} (H : Steady lib g N src w) (c : Call) (k : c.Res → Proc (Go Own))
    (h : w.todo = some (.call c k)) {r : c.Res} {s' : Shared} (ho : Out lib c w.sh r s')
    (hN : Chains.Spec.inserts w.calls + c.cost ≤ N) :
    Steady lib g N src ⟨w.own, some (k r), s', w.ins, w.log ++ (c.op.map (fun o => (true, o))).toList⟩ ∧ Later w.sh s' := by
  have hcalls : World.calls ⟨w.own, some (k r), s', w.ins, w.log ++ (c.op.map (fun o => (true, o))).toList⟩
    = w.calls ++ c.op.toList := calls_append w true c.op
  have hcost : c.cost = Chains.Spec.inserts c.op.toList := rfl
  rcases H.busy _ h with hx | hx
  · cases hx
  · obtain ⟨hal, hor⟩ := hx w.sh (Later.refl _) (H.sound.mono (by omega))
    have hl := ho.later (H.sound.mono (by omega)) hal
    refine ⟨⟨?_, (fun h => by cases h), ?_, ?_⟩, hl⟩
    · rw [hcalls, Chains.inserts_append]
      rcases ho with ⟨_, rfl⟩ | ⟨_, rfl⟩
      · exact (Call.sound (n := N - Chains.Spec.inserts w.calls - c.cost) c (H.sound.mono (by omega)) hal).1.mono (by omega)
      · exact H.sound.mono (by omega)
    · intro p hp
      cases hp
      rcases hor r s' ho with ⟨_, a, ha, hd⟩ | hsafe
      · left
        cases hd
        exact ha
      · exact Or.inr hsafe
    · intro o ho
      rcases log_append ho with ho | ⟨_, ho⟩
      · exact H.log o ho
      · exact (hal o ho).1

/-- another goroutine makes a call -/
theorem Steady.other {N : Nat} {w : World} (H : Steady lib g N src w) (x : Other) {s' : Shared}
    (hs : ∀ n, Sound lib g (n + x.cost) w.sh → Sound lib g n s' ∧ Later w.sh s')
    (hN : Chains.Spec.inserts w.calls + x.cost ≤ N) :
    Steady lib g N src { w with sh := s', log := w.log ++ (x.op.map (fun o => (false, o))).toList } ∧ Later w.sh s' := by
  have hcalls : World.calls { w with sh := s', log := w.log ++ (x.op.map (fun o => (false, o))).toList }
    = w.calls ++ x.op.toList := calls_append w false x.op
  have hcost : x.cost = Chains.Spec.inserts x.op.toList := rfl
  have hs := hs (N - Chains.Spec.inserts w.calls - x.cost) (H.sound.mono (by omega))
  refine ⟨⟨?_, ?_, ?_, ?_⟩, hs.2⟩
  · rw [hcalls, Chains.inserts_append]
    exact hs.1.mono (by omega)
  · intro h
    obtain ⟨F, hq⟩ := H.rest h
    exact ⟨F.later hs.2, hq⟩
  · intro p hp
    rcases H.busy p hp with hx | hx
    · exact Or.inl hx
    · exact Or.inr (hx.later hs.2)
  · intro o ho
    rcases log_append ho with ho | ⟨ho, _⟩
    · exact H.log o ho
    · cases ho

theorem Steady.step {N : Nat} {w w' : World} (H : Steady lib g N src w) (t : Step lib w w')
    (hi : ∀ c i, (c, i) ∈ w'.ins → i.From src) (hN : Chains.Spec.inserts w'.calls ≤ N) :
    Steady lib g N src w' ∧ Later w.sh w'.sh := by
  cases t with
  | receive c i h =>
    exact ⟨H.receive c i h (hi c i (List.mem_append.mpr (Or.inr (List.mem_singleton.mpr rfl)))), Later.refl _⟩
  | finish o h => exact ⟨H.finish o h, Later.refl _⟩
  | call c k h =>
    refine H.call c k h (Or.inl ⟨rfl, rfl⟩) ?_
    have e : Chains.Spec.inserts (w.calls ++ c.op.toList) ≤ N := by rw [← calls_append w true c.op]; exact hN
    rwa [Chains.inserts_append] at e
  | other x =>
    refine H.other x (fun _ => Other.sound x) ?_
    have e : Chains.Spec.inserts (w.calls ++ x.op.toList) ≤ N := by rw [← calls_append w false x.op]; exact hN
    rwa [Chains.inserts_append] at e

theorem Step.ins {w w' : World} (t : Step lib w w') : ∀ x, x ∈ w.ins → x ∈ w'.ins := by
  cases t with
  | receive c i h => exact fun x hx => List.mem_append.mpr (Or.inl hx)
  | call c k h => exact fun x hx => hx
  | finish o h => exact fun x hx => hx
  | other x => exact fun x hx => hx

theorem Step.inserts {w w' : World} (t : Step lib w w') : Chains.Spec.inserts w.calls ≤ Chains.Spec.inserts w'.calls := by
  cases t with
  | receive c i h => exact Nat.le_refl _
  | finish o h => exact Nat.le_refl _
  | call c k h =>
    show _ ≤ Chains.Spec.inserts ((w.log ++ (c.op.map (fun o => (true, o))).toList).map (·.2))
    rw [calls_append, Chains.inserts_append]; omega
  | other x =>
    show _ ≤ Chains.Spec.inserts ((w.log ++ (x.op.map (fun o => (false, o))).toList).map (·.2))
    rw [calls_append, Chains.inserts_append]; omega

theorem steady_start {N : Nat} {reg : Registry} {lk : Linkage} (S : Serving g N lk) (R : Peers.Reachable lib reg) :
    Steady lib g N src (World.start reg lk) where
  sound := ⟨S.mono (Nat.sub_le _ _), R⟩
  rest := fun _ => ⟨⟨(fun h => by cases h), (fun h => by cases h), (fun h => by cases h), (fun _ h => by cases h), (fun h => by cases h),
    (fun _ h => by cases h), (fun _ h => by cases h), (fun _ h => by cases h)⟩, rfl⟩
  busy := fun _ h => by cases h
  log := fun _ h => by cases h

theorem steady {N : Nat} {reg : Registry} {lk : Linkage} (S : Serving g N lk) (R : Peers.Reachable lib reg) {w : World}
    (h : Run lib (World.start reg lk) w) (hi : ∀ c i, (c, i) ∈ w.ins → i.From src) (hN : Chains.Spec.inserts w.calls ≤ N) :
    Steady lib g N src w ∧ Later ⟨lk, reg⟩ w.sh := by
  induction h with
  | nil => exact ⟨steady_start S R, Later.refl _⟩
  | snoc h t ih =>
    obtain ⟨H, hl⟩ := ih (fun c i hm => hi c i (t.ins _ hm)) (Nat.le_trans t.inserts hN)
    obtain ⟨H', hl'⟩ := H.step t hi hN
    exact ⟨H', hl.trans hl'⟩

/-- the store is what the recorded calls made of it -/
theorem store_exec {reg : Registry} {lk : Linkage} {w : World} (h : Run lib (World.start reg lk) w) :
    w.sh.link = Chains.Spec.exec lk w.calls := by
  induction h with
  | nil => rfl
  | @snoc v v' h t ih =>
    cases t with
    | receive c i h => exact ih
    | finish o h => exact ih
    | call c k h =>
      show (c.effect v.sh).link = Chains.Spec.exec lk ((v.log ++ (c.op.map (fun o => (true, o))).toList).map (·.2))
      rw [calls_append, Chains.exec_append, ← ih]
      unfold Call.effect
      cases c.op <;> rfl
    | other x =>
      show (x.effect lib v.sh).link = Chains.Spec.exec lk ((v.log ++ (x.op.map (fun o => (false, o))).toList).map (·.2))
      rw [calls_append, Chains.exec_append, ← ih]
      cases x <;> rfl

/-- what the loader has received so far -/
def received (w : World) : Source where
  ids a id := ∃ c l, (c, Input.ids a l) ∈ w.ins ∧ id ∈ l
  blocks a b := ∃ c, (c, Input.block a (some b)) ∈ w.ins
  micros _ _ := False

theorem received_from (w : World) (c : Ctx) (i : Input) (h : (c, i) ∈ w.ins) : i.From (received w) := by
  cases i with
  | ids a l => exact fun id hid => ⟨c, l, h, hid⟩
  | block a b => exact fun x hx => ⟨c, by rw [← hx]; exact h⟩
  | tick => trivial
  | timer => trivial

end Verif.Loading.Fine
