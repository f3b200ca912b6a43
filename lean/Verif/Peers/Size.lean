import Verif.Peers.History
/-
Which calls add records to the database of peers.
-/
set_option autoImplicit false

namespace Verif.Peers

open Verif
open Verif.Chains (Addr BytesN)

variable {lib : Lib} {r : Registry}

/-- the addresses that a call may add -/
def named : Op → List Addr
  | .register _ a _ _ => [a]
  | .markHostile _ (some a) => [a]
  | .suggest _ a => [a]
  | .append _ l => l.filterMap (fun x => x.map (·.addr))
  | _ => []

/-- the address of a new record is named by the call -/
theorem step_named {e : Event} (G : Good r.db) {b : BytesN 4} (h0 : view r.db b = none)
    (h : view (step lib r e).db b ≠ none) : .v4 b ∈ named e.op := by
  rcases step_view (lib := lib) (e := e) G b with h' | ⟨v, _, w⟩
  · rw [h'] at h; exact absurd h0 h
  · cases w with
    | connected f np h op => rw [op]; simp [named]
    | shut f np h op rej v0 old => rw [h0] at old; cases old
    | left f op v0 old => rw [h0] at old; cases old
    | marked f op => rw [op]; simp [named]
    | scored f s op v0 old => rw [h0] at old; cases old
    | first f op => rw [op]; simp [named]
    | again f op v0 old => rw [h0] at old; cases old
    | added fs l op old port acc mem =>
      rw [op]
      exact List.mem_filterMap.mpr ⟨_, mem, rfl⟩

theorem exec_named (es : List Event) : ∀ {r : Registry}, Inv r → ∀ {b : BytesN 4}, view (exec lib r es).db b ≠ none →
    view r.db b ≠ none ∨ ∃ e, e ∈ es ∧ .v4 b ∈ named e.op := by
  induction es with
  | nil => exact fun _ _ h => Or.inl h
  | cons e es ih =>
    intro r I b h
    rcases ih (I.step (lib := lib) (e := e)) h with h | ⟨e', he', h⟩
    · by_cases h0 : view r.db b = none
      · exact Or.inr ⟨e, List.mem_cons_self, step_named I.good h0 h⟩
      · exact Or.inl h0
    · exact Or.inr ⟨e', List.mem_cons_of_mem _ he', h⟩

end Verif.Peers
