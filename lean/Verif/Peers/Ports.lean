import Verif.Peers.Queries
import Verif.Peers.History
/-
Where the ports on record come from.
-/

set_option autoImplicit false

namespace Verif.Peers

open Verif
open Verif.Chains (Addr BytesN)
open Verif.KV (Fate)

variable {lib : Lib} {r : Registry}

/-- a call that gives the address a port: the peer declared it, or it was announced -/
def Event.names (e : Event) (ap : AddrPort) : Prop :=
  match e.op with
  | .register _ a _ h => a = ap.addr ∧ h.declared = .addrPort ap
  | .append _ l => some ap ∈ l
  | _ => False

theorem step_port {e : Event} (G : Good r.db) {b : BytesN 4} {v : Value} (h : view (step lib r e).db b = some v) (hp : v.port ≠ 0) :
    (∃ v0, view r.db b = some v0 ∧ v0.port = v.port) ∨ e.names ⟨.v4 b, v.port⟩ ∧ isLoopback (.v4 b) = false := by
  rcases step_view (lib := lib) (e := e) G b with h' | ⟨v', h', w⟩
  · exact Or.inl ⟨v, h' ▸ h, rfl⟩
  · rw [h] at h'; cases h'
    cases w with
    | connected f np h op acc name applied eq =>
      right
      have hv : v.port = portOf (.v4 b) h := by rw [eq]; rfl
      rw [hv] at hp
      unfold portOf at hv hp
      rcases acc.declared with hd | ⟨ap, hd, hl, _⟩
      · rw [hd] at hp; exact absurd rfl hp
      · rw [hd] at hp hv
        simp only at hp hv
        by_cases ha : ap.addr = .v4 b
        · rw [if_pos ha] at hv
          simp only [Event.names, op, hd]
          rw [ha] at hl
          refine ⟨⟨trivial, ?_⟩, hl⟩
          obtain ⟨a, p⟩ := ap
          have ha : a = .v4 b := ha
          have hv : v.port = p := hv
          rw [ha, hv]
        · rw [if_neg ha] at hp; exact absurd rfl hp
    | shut f np h op rej v0 old name eq => exact Or.inl ⟨v0, old, by rw [eq]; rfl⟩
    | left f op v0 old eq => exact Or.inl ⟨v0, old, by rw [eq]⟩
    | marked f op name eq => rw [eq] at hp; exact absurd rfl hp
    | scored f s op v0 old eq => exact Or.inl ⟨v0, old, by rw [eq]⟩
    | first f op old ver best eq => rw [eq] at hp; exact absurd rfl hp
    | again f op v0 old state ver next eq => exact Or.inl ⟨v0, old, by rw [eq]⟩
    | added fs l op old port acc mem eq =>
      right
      have hv : v.port = port := by rw [eq]; rfl
      rw [hv]
      simp only [Event.names, op]
      refine ⟨mem, ?_⟩
      simp only [acceptable, Bool.and_eq_true, Bool.not_eq_true'] at acc
      exact acc.1.2

/-- peers that can be dialled are not on the own machine -/
def NoLoopback (r : Registry) : Prop := ∀ b v, view r.db b = some v → v.port ≠ 0 → isLoopback (.v4 b) = false

theorem NoLoopback.step (h : NoLoopback r) (G : Good r.db) (e : Event) : NoLoopback (Peers.step lib r e) := by
  intro b v hv hp
  rcases step_port G hv hp with ⟨v0, h0, h1⟩ | ⟨_, h1⟩
  · exact h b v0 h0 (h1 ▸ hp)
  · exact h1

theorem NoLoopback.exec {r : Registry} (h : NoLoopback r) (I : Inv r) (es : List Event) : NoLoopback (Peers.exec lib r es) := by
  induction es generalizing r with
  | nil => exact h
  | cons e es ih => exact ih (h.step (lib := lib) I.good e) I.step

theorem Reachable.noLoopback (R : Reachable lib r) : NoLoopback r := by
  obtain ⟨c, es, rfl⟩ := R
  exact NoLoopback.exec (fun b v hv => by cases hv) (Inv.start c) es

end Verif.Peers
