import Verif.Loading.BillLemmas
import Verif.Props.ReadsLoader
/-
Property C134: the messages of the loader are bounded by what it is told, whatever the peers do and whatever fails.
-/

set_option autoImplicit false

namespace Verif.Loading

open Verif
open Verif.Chains (BlockID Linkage)
open Verif.Peers (Lib Registry)
open Verif.Loading.Fine

variable {lib : Lib} {reg : Registry} {lk : Linkage} {tr tr' : List Fine.Answer} {v w : World}

/-- Take any moment `v` at which the loader handles no event, and any later moment `w`.  Peers may lie, list ids again and again, list too many
or none; reads and writes may fail; other goroutines work on the store.  What the loader has sent since `v` it owes to what it has received
since `v`: at most one message for every id listed, one for a list without ids, one for every block and one for every firing of the timer, and
none for a tick; ids are asked for at most once after every input; and the blocks requested are, in their order, among the ids listed,
none more often than it was listed. -/
theorem C134_bill (h0 : RdRun lib (World.start reg lk) tr v) (hv : v.todo = none) (h : RdRun lib v tr' w) :
    ∃ more ins, w.own.out = v.own.out ++ more ∧ w.ins = v.ins ++ ins ∧ more.length ≤ dueIn ins ∧ requests more ≤ asksIn ins ∧
      (wanted more).Sublist (listedIn ins) := by
  have H := kept (tr0 := []) (w0 := World.start reg lk) ⟨fun _ => ⟨rfl, fun h => by cases h⟩, fun _ h => by cases h⟩ h0
  have ht := (H.rest hv).1
  have b0 : Bill v.own.out v.own.out.length (requests v.own.out) (wanted v.own.out) v.own := by
    refine ⟨?_, ?_, ?_, List.prefix_refl _⟩
    · rw [ht]; exact Nat.le_refl _
    · rw [ht]; exact Nat.le_refl _
    · rw [ht, List.flatMap_nil, List.append_nil]; exact List.Sublist.refl _
  obtain ⟨ins, e, A⟩ := accounts hv b0 h
  have B := A.bill
  obtain ⟨more, hm⟩ := B.grown
  refine ⟨more, ins, hm.symm, e, ?_, ?_, ?_⟩
  · have := B.due
    rw [← hm, List.length_append] at this
    omega
  · have := B.asks
    rw [← hm, requests_append] at this
    omega
  · have := (List.sublist_append_left _ _).trans B.listed
    rw [← hm, wanted_append] at this
    exact (List.append_sublist_append_left _).mp this

/-- The ticks alone make it send nothing. -/
theorem C134_ticks (h0 : RdRun lib (World.start reg lk) tr v) (hv : v.todo = none) (h : RdRun lib v tr' w)
    (hi : ∀ c i, (c, i) ∈ w.ins.drop v.ins.length → i = .tick) : w.own.out = v.own.out := by
  obtain ⟨more, ins, e, ei, hl, _⟩ := C134_bill h0 hv h
  rw [ei, List.drop_left] at hi
  have : ∀ l : List (Ctx × Input), (∀ c i, (c, i) ∈ l → i = .tick) → dueIn l = 0 := by
    intro l
    induction l with
    | nil => intro _; rfl
    | cons a l ih =>
      intro hl
      have h1 : a.2 = .tick := hl a.1 a.2 List.mem_cons_self
      have h2 := ih (fun c i hm => hl c i (List.mem_cons_of_mem _ hm))
      unfold dueIn at h2 ⊢
      rw [List.map_cons, List.sum_cons, h2, h1]
      rfl
  rw [this ins hi] at hl
  rw [e, List.eq_nil_of_length_eq_zero (Nat.le_zero.mp hl), List.append_nil]

/-- No block is requested more often than it was listed. -/
theorem C134_times (h0 : RdRun lib (World.start reg lk) tr v) (hv : v.todo = none) (h : RdRun lib v tr' w) (id : BlockID) :
    ∃ more ins, w.own.out = v.own.out ++ more ∧ w.ins = v.ins ++ ins ∧ (wanted more).count id ≤ (listedIn ins).count id := by
  obtain ⟨more, ins, e, ei, _, _, hs⟩ := C134_bill h0 hv h
  exact ⟨more, ins, e, ei, hs.count_le id⟩

/-! ### a concrete run -/

open Chains.Ex in
/-- A peer lists a block twice that nobody has, and another one. -/
def Ex.twice : List Fine.Ex.RdMove :=
  .receive (Ex.ctx 100) .timer :: Fine.Ex.rdGoes 5 ++ .receive (Ex.ctx 101) (.ids Ex.peer [bid 7, bid 7, bid 8]) :: Fine.Ex.rdGoes 2

open Chains.Ex in
/-- All of the bill is paid: the loader asks for ids once, and three times for a block, twice for the same.  So the bounds cannot be lowered. -/
example : RdRun Peers.Ex.lib Fine.Ex.begin (Fine.Ex.rdWorld Ex.twice).1 (Fine.Ex.rdWorld Ex.twice).2 ∧
    (Fine.Ex.rdWorld Ex.twice).2.todo = none ∧ (Fine.Ex.rdWorld Ex.twice).2.own.out.length = 4 ∧ dueIn (Fine.Ex.rdWorld Ex.twice).2.ins = 4 ∧
    wanted (Fine.Ex.rdWorld Ex.twice).2.own.out = [bid 7, bid 7, bid 8] ∧ listedIn (Fine.Ex.rdWorld Ex.twice).2.ins = [bid 7, bid 7, bid 8] :=
  ⟨Fine.Ex.rdWorld_run _, rfl, by decide +kernel, by decide +kernel, by decide +kernel, by decide +kernel⟩

/-- After it come only ticks; the second, more than thirty seconds later, ends the synchronisation. -/
example :
    let ms := Ex.twice ++ .receive (Ex.ctx 102) .tick :: Fine.Ex.rdGoes 1 ++ .receive (Ex.ctx 140) .tick :: Fine.Ex.rdGoes 1
    (Fine.Ex.rdWorld ms).2.own.active = false ∧ (Fine.Ex.rdWorld ms).2.ins.length = 4 ∧
    (Fine.Ex.rdWorld ms).2.own.out = (Fine.Ex.rdWorld Ex.twice).2.own.out := by
  decide +kernel

end Verif.Loading
