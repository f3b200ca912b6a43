import Verif.Services.Settled
import Verif.Services.SideEx
/-
A concrete conversation for property C109: a check whether all has been answered.
-/

set_option autoImplicit false

namespace Verif.Services.Fine.Ex

open Verif
open Verif.Chains (Addr BlockID ProtoBlock)
open Verif.Loading (Sent)
open Verif.Peers (Conn)

/-- a message of the peer with ids -/
def givesIDs (peer : Addr) : Word → Bool
  | .told q m => q.remote == some peer && (match m.idList with | some l => !l.isEmpty | none => false)
  | .said _ => false

/-- a message of the peer with the block -/
def givesBlock (peer : Addr) (id : BlockID) : Word → Bool
  | .told q m => q.remote == some peer && (match m.theBlock with | some b => b.id == id | none => false)
  | .said _ => false

/-- the request is answered in what follows -/
def answers (peer : Addr) (m : Sent) (W : List Word) : Bool :=
  match m.msg with
  | .getBlock id => W.any (givesBlock peer id)
  | _ => W.any (givesIDs peer)

def settles (peer : Addr) : List Word → Bool
  | [] => true
  | .said m :: W => answers peer m W && settles peer W
  | .told _ _ :: W => settles peer W

theorem answers_sound {peer : Addr} {m : Sent} {W : List Word} (h : answers peer m W = true) : Answered peer m W := by
  unfold answers at h
  refine ⟨fun req hr => ?_, fun id hi => ?_⟩
  · have : W.any (givesIDs peer) = true := by
      split at h
      · rename_i hm; rw [hm] at hr; cases hr
      · exact h
    obtain ⟨w, hw, hg⟩ := List.any_eq_true.mp this
    cases w with
    | said _ => cases hg
    | told q msg =>
      simp only [givesIDs, Bool.and_eq_true, beq_iff_eq] at hg
      obtain ⟨h1, h2⟩ := hg
      cases hl : msg.idList with
      | none => rw [hl] at h2; cases h2
      | some l =>
        rw [hl] at h2
        exact ⟨q, msg, l, hw, h1, hl, by intro e; rw [e] at h2; cases h2⟩
  · rw [hi] at h
    obtain ⟨w, hw, hg⟩ := List.any_eq_true.mp h
    cases w with
    | said _ => cases hg
    | told q msg =>
      simp only [givesBlock, Bool.and_eq_true, beq_iff_eq] at hg
      obtain ⟨h1, h2⟩ := hg
      cases hl : msg.theBlock with
      | none => rw [hl] at h2; cases h2
      | some b => rw [hl] at h2; exact ⟨q, msg, b, hw, h1, hl, beq_iff_eq.mp h2⟩

theorem settles_sound {peer : Addr} (cn : Conn) {W : List Word} (h : settles peer W = true) : AllAnswered peer cn W := by
  intro W1 m W2 e _
  induction W1 generalizing W with
  | nil =>
    subst e
    simp only [List.nil_append, settles, Bool.and_eq_true] at h
    exact answers_sound h.1
  | cons w W1 ih =>
    subst e
    cases w with
    | said m' =>
      simp only [List.cons_append, settles, Bool.and_eq_true] at h
      exact ih h.2 rfl
    | told q msg => exact ih (W := W1 ++ .said m :: W2) h rfl

theorem undamaged : Undamaged Loading.Ex.peer loading := by
  intro D c q m b hm hq hb
  simp only [loading, go, List.replicate, List.mem_append, List.mem_cons, List.not_mem_nil, or_false, Ev.message.injEq, reduceCtorEq] at hm
  rcases hm with (((⟨_, _, _, rfl⟩ | ⟨_, _, rfl, _⟩) | ⟨rfl, rfl, _⟩) | ⟨rfl, rfl, _⟩) | ⟨rfl, rfl, _⟩
  · cases hb
  · exact absurd hq (by decide +kernel)
  all_goals exact ⟨rfl, fun _ => rfl⟩

end Verif.Services.Fine.Ex
