import Verif.Services.SideBill
import Verif.Services.SideEx
import Verif.Props.Faulty
import Verif.Props.Bill
/-
Property C134 for the whole program: the messages of the loader are bounded by what the peers say.
-/

set_option autoImplicit false

namespace Verif.Services.Fine

open Verif
open Verif.Chains (Addr BlockID Linkage)
open Verif.Peers (Lib Registry Config AddrPort)
open Verif.Loading (wanted requests)
open Verif.Loading.Fine (Answer)
open Verif.KV (Fate)

variable {lib : Lib} {D : Loading.Fine.Disk} {cfg : Config} {pdb : Peers.DB} {fs : Nat → Fate}
  {seeds : List (Option AddrPort)} {lk : Linkage} {listener : Bool} {es : List Ev} {tr : List Answer} {x : Sys}

/-- The same for the whole program from its start, in terms of what the peers say to it: lists of ids, signatures and blocks. -/
theorem C134_program (h : Path lib (Sys.start D cfg pdb fs seeds lk listener) es tr x) :
    x.world.own.out.length ≤ ((says es).map Pkg.due).sum + fired es ∧
    requests x.world.own.out ≤ (says es).length + fired es ∧
    (wanted x.world.own.out).Sublist ((says es).flatMap Pkg.listed) := by
  obtain ⟨more, ins, e, ei, h1, h2, h3⟩ := Loading.C134_bill (.nil : Loading.Fine.RdRun lib _ _ _) rfl h.run
  have e' : x.world.own.out = more := e
  have ei' : x.world.ins = ins := ei
  subst e' ei'
  obtain ⟨c1, c2, c3⟩ := costs x.world.ins h.chan.whole
  rw [timers rfl h] at c1 c2
  have hs : (heard x.world.ins).Sublist (says es) := by
    rw [h.chan.heard]
    refine List.Sublist.trans ?_ h.chan.order
    rw [h.chan.fifo]
    exact List.sublist_append_left _ _
  refine ⟨?_, ?_, ?_⟩
  · have := sum_sublist hs; omega
  · have := hs.length_le; omega
  · rw [c3] at h3
    exact h3.trans (listed_sublist hs)

/-- As long as no peer says anything about blocks and the timer does not fire, the loader sends nothing. -/
theorem C134_silence (h : Path lib (Sys.start D cfg pdb fs seeds lk listener) es tr x) (hs : says es = []) (hf : fired es = 0) :
    x.world.own.out = [] := by
  have := (C134_program h).1
  rw [hs, hf] at this
  exact List.eq_nil_of_length_eq_zero (Nat.le_zero.mp this)

/-- The execution of the examples of C107: the peers say seven things that list or are blocks, the timer fires once, and four messages are sent. -/
example : ∃ tr, Path Peers.Ex.lib Ex.begin (Ex.opening ++ Ex.loading) tr (Ex.at' (Ex.opening ++ Ex.loading)) ∧
    (Ex.at' (Ex.opening ++ Ex.loading)).world.own.out.length = 4 ∧ (says (Ex.opening ++ Ex.loading)).length = 7 ∧
    ((says (Ex.opening ++ Ex.loading)).map Pkg.due).sum = 10 ∧ fired (Ex.opening ++ Ex.loading) = 1 := by
  obtain ⟨tr, hpath⟩ := Ex.at_path (es := Ex.opening ++ Ex.loading) (by decide +kernel)
  exact ⟨tr, hpath, by decide +kernel, by decide +kernel, by decide +kernel, by decide +kernel⟩

/-- before the timer fires nothing is sent -/
example : says (Ex.opening.take 2) = [] ∧ fired (Ex.opening.take 2) = 0 ∧ (Ex.at' (Ex.opening.take 2)).joined ≠ [] := by
  decide +kernel

end Verif.Services.Fine
