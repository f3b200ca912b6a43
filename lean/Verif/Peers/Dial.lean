import Verif.Peers.Queries
/-
Facts about addresses that persist along histories.
-/

set_option autoImplicit false

namespace Verif.Peers

open Verif
open Verif.Chains (Addr BytesN Env)
open Verif.KV (Fate)

variable {lib : Lib} {r : Registry}

theorem pending_exec {a : Addr} {es : List Event} (I : Inv r) (hm : a ∈ r.pending)
    (hrel : ∀ e, e ∈ es → e.releases a = false) : a ∈ (exec lib r es).pending := by
  induction es generalizing r with
  | nil => exact hm
  | cons e es ih =>
    exact ih I.step (step_pending I.good hm (hrel e (by simp))) (fun e' h => hrel e' (List.mem_cons_of_mem _ h))

/-- the stored next attempt time of the address is at least `T` seconds -/
def NotBefore (r : Registry) (b : BytesN 4) (T : Int) : Prop := ∃ v, view r.db b = some v ∧ T ≤ v.nextAttempt

theorem roundSec_mono {s t : Int} (h : s ≤ t) : roundSec s ≤ roundSec t := by
  unfold roundSec second; omega

theorem NotBefore.step {b : BytesN 4} {t : Int} {e : Event} (I : Inv r)
    (h : NotBefore r b (roundSec (t + delay))) (ht : t ≤ e.now) (hreg : e.registers (.v4 b) = false) :
    NotBefore (Peers.step lib r e) b (roundSec (t + delay)) := by
  obtain ⟨v, hv, hT⟩ := h
  rcases step_view (lib := lib) (e := e) I.good b with h' | ⟨v', h', w⟩
  · exact ⟨v, h' ▸ hv, hT⟩
  · refine ⟨v', h', ?_⟩
    have hmono : roundSec (t + delay) ≤ roundSec (e.now + delay) := roundSec_mono (by omega)
    have same : ∀ v0, view r.db b = some v0 → roundSec (t + delay) ≤ v0.nextAttempt := by
      intro v0 h0; rw [hv] at h0; cases h0; exact hT
    cases w with
    | connected f np h op => simp [Event.registers, op] at hreg
    | shut f np h op => simp [Event.registers, op] at hreg
    | left f op v0 old eq => subst eq; exact hmono
    | marked f op name eq =>
      subst eq
      have : onFile r (.v4 b) = v.toPeer (.v4 b) := by rw [onFile_v4 I.good, hv]
      rw [this]; exact hT
    | scored f s op v0 old eq => subst eq; exact same v0 old
    | first f op old ver best eq => rw [hv] at old; cases old
    | again f op v0 old st ver next eq => subst eq; exact hmono
    | added fs l op old => rw [hv] at old; cases old

theorem NotBefore.exec {b : BytesN 4} {t : Int} {es : List Event} (I : Inv r)
    (h : NotBefore r b (roundSec (t + delay))) (ht : ∀ e, e ∈ es → t ≤ e.now ∧ e.registers (.v4 b) = false) :
    NotBefore (Peers.exec lib r es) b (roundSec (t + delay)) := by
  induction es generalizing r with
  | nil => exact h
  | cons e es ih =>
    exact ih I.step (h.step I (ht e (by simp)).1 (ht e (by simp)).2) (fun e' h => ht e' (List.mem_cons_of_mem _ h))

theorem NotBefore.take {b : BytesN 4} {t t' : Int} (I : Inv r) (h : NotBefore r b (roundSec (t + delay)))
    (ht : t' + 500000000 ≤ t + delay) {l : List AddrPort} (hl : (TakeAvailableAddresses t' r).2 = .ok l) :
    ∀ ap, ap ∈ l → ap.addr ≠ .v4 b := by
  obtain ⟨v, hv, hT⟩ := h
  obtain ⟨l0, pend', h1, h2, _, _⟩ := I.take t'
  rw [h1] at hl
  have hl := Except.ok.inj hl
  subst hl
  intro ap hap e
  obtain ⟨b', v', hv', ⟨_, _, _, g4, _⟩, _, rfl⟩ := (h2 ap).mp hap
  cases e
  rw [hv] at hv'; cases hv'
  have g4 : v.nextAttempt * second ≤ t' := g4
  unfold roundSec delay second at *
  omega

/-- a hostile record -/
def IsHostile (r : Registry) (b : BytesN 4) : Prop := ∃ v, view r.db b = some v ∧ v.state = .hostile

theorem IsHostile.step {b : BytesN 4} {e : Event} (I : Inv r) (h : IsHostile r b)
    (hreg : e.registers (.v4 b) = false) : IsHostile (Peers.step lib r e) b := by
  obtain ⟨v, hv, hs⟩ := h
  rcases step_view (lib := lib) (e := e) I.good b with h' | ⟨v', h', w⟩
  · exact ⟨v, h' ▸ hv, hs⟩
  · refine ⟨v', h', ?_⟩
    have same : ∀ v0, view r.db b = some v0 → v0.state = .hostile := by
      intro v0 h0; rw [hv] at h0; cases h0; exact hs
    cases w with
    | connected f np h op => simp [Event.registers, op] at hreg
    | shut f np h op => simp [Event.registers, op] at hreg
    | left f op v0 old eq => subst eq; exact same v0 old
    | marked f op name eq => subst eq; rfl
    | scored f s op v0 old eq => subst eq; exact same v0 old
    | first f op old ver best eq => rw [hv] at old; cases old
    | again f op v0 old st ver next eq => rw [same v0 old] at st; cases st
    | added fs l op old => rw [hv] at old; cases old

end Verif.Peers
