import Verif.Loading.FineRun
import Verif.Loading.HonestEx
/-
Concrete runs of the loader together with other goroutines.
-/

set_option autoImplicit false

namespace Verif.Loading.Fine

open Verif
open Verif.Peers (Lib)

/-- what happens next in a concrete run -/
inductive Ex.Move where
  | receive (c : Ctx) (i : Input)
  /-- the loader makes its next call, or ends the handling of the event -/
  | go
  | other (x : Other)

def Ex.move (lib : Lib) (w : World) : Ex.Move → Option World
  | .receive c i =>
    match w.todo with
    | none => some { w with todo := some (handle c w.own i), ins := w.ins ++ [(c, i)] }
    | some _ => none
  | .go =>
    match w.todo with
    | none => none
    | some (.call c k) =>
      some ⟨w.own, some (k (c.res lib w.sh)), c.effect w.sh, w.ins, w.log ++ (c.op.map (fun o => (true, o))).toList⟩
    | some (.ret (.ok o)) => some { w with own := o, todo := none }
    | some (.ret (.error _)) => none
  | .other x => some { w with sh := x.effect lib w.sh, log := w.log ++ (x.op.map (fun o => (false, o))).toList }

theorem Ex.move_step {lib : Lib} {w w' : World} {m : Ex.Move} (h : Ex.move lib w m = some w') : Step lib w w' := by
  cases m with
  | receive c i =>
    unfold Ex.move at h
    cases ht : w.todo with
    | none => rw [ht] at h; cases h; exact .receive w c i ht
    | some p => rw [ht] at h; cases h
  | go =>
    unfold Ex.move at h
    cases ht : w.todo with
    | none => rw [ht] at h; cases h
    | some p =>
      rw [ht] at h
      cases p with
      | call c k => cases h; exact .call w c k ht
      | ret r =>
        cases r with
        | ok o => cases h; exact .finish w o ht
        | error e => cases h
  | other x => cases h; exact .other w x

def Ex.moves (lib : Lib) (w : World) : List Ex.Move → Option World
  | [] => some w
  | m :: ms => (Ex.move lib w m).bind (fun w => Ex.moves lib w ms)

theorem Ex.moves_run {lib : Lib} {w0 : World} : ∀ {ms : List Ex.Move} {w w' : World}, Run lib w0 w → Ex.moves lib w ms = some w' →
    Run lib w0 w'
  | [], _, _, h, e => by cases e; exact h
  | m :: ms, w, w', h, e => by
    unfold Ex.moves at e
    cases hm : Ex.move lib w m with
    | none => rw [hm] at e; cases e
    | some v =>
      rw [hm] at e
      exact Ex.moves_run (.snoc h (Ex.move_step hm)) e

/-- the loader of the honest peer, on a store that contains the genesis block only -/
def Ex.begin : World := World.start Loading.Ex.honestReg Chains.Ex.l0

/-- the world after some moves -/
def Ex.world (ms : List Ex.Move) : World := (Ex.moves Peers.Ex.lib Ex.begin ms).getD Ex.begin

theorem Ex.world_run (ms : List Ex.Move) : Run Peers.Ex.lib Ex.begin (Ex.world ms) := by
  unfold Ex.world
  cases h : Ex.moves Peers.Ex.lib Ex.begin ms with
  | none => exact .nil
  | some w => exact Ex.moves_run .nil h

def Ex.goes (n : Nat) : List Ex.Move := List.replicate n .go

open Chains.Ex in
/-- The timer starts the synchronisation.  The peer lists block 1 and sends it, the loader stores it and asks for more.  The peer
lists block 2 and sends it, the loader stores it. -/
def Ex.twoBlocks : List Ex.Move :=
  .receive (Loading.Ex.ctx 100) .timer :: Ex.goes 5 ++
  .receive (Loading.Ex.ctx 101) (.ids Loading.Ex.peer [bid 0, bid 1]) :: Ex.goes 4 ++
  .receive (Loading.Ex.ctx 102) (.block Loading.Ex.peer (some (blk 1 0))) :: Ex.goes 6 ++
  .receive (Loading.Ex.ctx 103) (.ids Loading.Ex.peer [bid 1, bid 2]) :: Ex.goes 4 ++
  .receive (Loading.Ex.ctx 104) (.block Loading.Ex.peer (some (blk 2 1))) :: Ex.goes 1

open Chains.Ex in
/-- At this moment the distributor stores block 1 again, which the peer has sent a second time. -/
def Ex.race : List Ex.Move := Ex.twoBlocks ++ .other (.putBlock (blk 1 0) Loading.Ex.peer .ok .ok) :: Ex.goes 3

theorem Ex.call_changes {α : Type} : ∀ (p : Proc α) (c : Call) (k : c.Res → Proc α) (r : c.Res), p = .call c k → k r ≠ p
  | .ret a, _, _, _, h => by cases h
  | .call c k, _, _, r, h => by
    cases h
    intro e
    cases hk : k r with
    | ret a => rw [hk] at e; cases e
    | call c' k' =>
      rw [hk] at e
      have := Ex.call_changes (k r) c k r (by rw [hk, e])
      exact this rfl

/-- moves of the loader alone -/
theorem Ex.moves_undisturbed {lib : Lib} {w0 : World} : ∀ {ms : List Ex.Move} {w w' : World}, Undisturbed lib w0 w →
    (∀ m, m ∈ ms → ∀ x, m ≠ .other x) → Ex.moves lib w ms = some w' → Undisturbed lib w0 w'
  | [], _, _, h, _, e => by cases e; exact h
  | m :: ms, w, w', h, hn, e => by
    unfold Ex.moves at e
    cases hm : Ex.move lib w m with
    | none => rw [hm] at e; cases e
    | some v =>
      rw [hm] at e
      refine Ex.moves_undisturbed (.loader h (Ex.move_step hm) ?_) (fun m' h' => hn m' (List.mem_cons_of_mem _ h')) e
      cases m with
      | other x => exact absurd rfl (hn _ List.mem_cons_self x)
      | receive c i =>
        unfold Ex.move at hm
        cases ht : w.todo with
        | none => rw [ht] at hm; cases hm; exact (fun h => by cases h)
        | some p => rw [ht] at hm; cases hm
      | go =>
        unfold Ex.move at hm
        cases ht : w.todo with
        | none => rw [ht] at hm; cases hm
        | some p =>
          rw [ht] at hm
          cases p with
          | call c k => cases hm; exact (fun h => Ex.call_changes _ c k _ rfl (Option.some.inj h))
          | ret r =>
            cases r with
            | ok o => cases hm; exact (fun h => by cases h)
            | error e => cases hm

theorem Ex.world_undisturbed (ms : List Ex.Move) (hn : ∀ m, m ∈ ms → ∀ x, m ≠ .other x) :
    Undisturbed Peers.Ex.lib Ex.begin (Ex.world ms) := by
  unfold Ex.world
  cases h : Ex.moves Peers.Ex.lib Ex.begin ms with
  | none => exact .nil
  | some w => exact Ex.moves_undisturbed .nil hn h

end Verif.Loading.Fine
