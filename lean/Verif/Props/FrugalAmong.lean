import Verif.Loading.AmongFrugal
import Verif.Props.Among
/-
Property C132: an honest peer is asked for missing blocks only and for none of them twice, while the other goroutines work between the calls of the loader.
-/

set_option autoImplicit false

namespace Verif.Loading

open Verif
open Verif.Chains (Addr BlockID ProtoBlock Linkage LeashOf)
open Verif.Chains.Spec (Stored)
open Verif.Peers (Lib Registry)
open Verif.Loading.Fine

variable {lib : Lib} {g : ProtoBlock} {N : Nat} {s s0 : Nat} {ch : List ProtoBlock} {peer : Addr} {reg : Registry} {lk : Linkage} {w0 v w : World}

/-- Take any moment `v` of a synchronisation with an honest peer at which the loader waits for the next event, and what the loader requests from
then on: blocks of the history in their order, each at most once, and none that is stored in `v`, whoever stored it. -/
theorem C132_once (H : History ch) (S : Serving g N lk) (R : Peers.Reachable lib reg) (h0 : Run lib (World.start reg lk) w0)
    (ht : w0.todo = none) (hb : Starts peer s s0 ch (w0.own.on w0.sh)) (hv : Among lib peer s s0 ch w0 v) (hi : v.todo = none)
    (h : Among lib peer s s0 ch v w) (hN : Chains.Spec.inserts w.calls ≤ N) :
    ∃ more, w.own.out = v.own.out ++ more ∧ (wanted more).Nodup ∧ (wanted more).Sublist (ch.map (·.id)) ∧
      ∀ x, x ∈ wanted more → ¬ Stored v.sh.link.db x := by
  obtain ⟨more, t, e, T, _⟩ := (saving H hb.score hi (fun w h hN => ⟨_, _, among_kept H S R h0 ht hb (hv.trans h) hN⟩) h hN).phase
  have hsub := T.order.trans (List.Sublist.map _ (List.take_sublist (t + 1) ch))
  exact ⟨more, e, H.ids.sublist hsub, hsub, T.fresh⟩

/-- If the block with index `i` is stored in `v`, only blocks after it are requested from then on: never more than lie after it. -/
theorem C132_missing (H : History ch) (S : Serving g N lk) (R : Peers.Reachable lib reg) (h0 : Run lib (World.start reg lk) w0)
    (ht : w0.todo = none) (hb : Starts peer s s0 ch (w0.own.on w0.sh)) (hv : Among lib peer s s0 ch w0 v) (hi : v.todo = none)
    (h : Among lib peer s s0 ch v w) (hN : Chains.Spec.inserts w.calls ≤ N) {i : Nat} {b : ProtoBlock}
    (hib : ch[i]? = some b) (hst : Stored v.sh.link.db b.id) :
    ∃ more, w.own.out = v.own.out ++ more ∧ (wanted more).Sublist ((ch.drop (i + 1)).map (·.id)) ∧
      (wanted more).length + (i + 1) ≤ ch.length := by
  obtain ⟨more, e, _, hsub, hno⟩ := C132_once H S R h0 ht hb hv hi h hN
  have G := (among_kept H S R h0 ht hb hv (Nat.le_trans h.inserts hN)).good
  have key : (wanted more).Sublist ((ch.drop (i + 1)).map (·.id)) := by
    rw [List.map_drop]
    refine sublist_drop _ hsub (fun x hx hin => ?_)
    rw [← List.map_take] at hin
    obtain ⟨y, hy, rfl⟩ := List.mem_map.mp hin
    obtain ⟨k, hk, hky⟩ := List.getElem_of_mem hy
    have hk' : k < i + 1 := by have := List.length_take_le (i + 1) ch; omega
    have hy' : ch[k]? = some y := by
      rw [← List.getElem?_take_of_lt hk', List.getElem?_eq_getElem hk, hky]
    exact hno _ hx (G.faithful.below G.sound.store i b hib hst k y (by omega) hy')
  refine ⟨more, e, key, ?_⟩
  have h1 := key.length_le
  have h2 := (List.getElem?_eq_some_iff.mp hib).1
  rw [List.length_map, List.length_drop] at h1
  omega

/-- All messages of the synchronisation together are fewer than the blocks of the history plus the blocks that were missing when it began. -/
theorem C132_messages (H : History ch) (S : Serving g N lk) (R : Peers.Reachable lib reg) (h0 : Run lib (World.start reg lk) w0)
    (ht : w0.todo = none) (hb : Begun peer s s0 ch (w0.own.on w0.sh)) (h : Among lib peer s s0 ch w0 w)
    (hN : Chains.Spec.inserts w.calls ≤ N) {i : Nat} {b : ProtoBlock} (hib : ch[i]? = some b) (hst : Stored w0.sh.link.db b.id) :
    ∃ more, w.own.out = w0.own.out ++ more ∧ more.length < ch.length + (ch.length - i) := by
  obtain ⟨more, e, _, hlen⟩ := C132_missing H S R h0 ht hb.starts .start ht h hN hib hst
  obtain ⟨more', e', hr⟩ := C106_rounds H S R h0 ht hb h hN
  have : more' = more := List.append_cancel_left (e'.symm.trans e)
  subst this
  have := messages_split more'
  have := (List.getElem?_eq_some_iff.mp hib).1
  exact ⟨more', e, by omega⟩

/-- Once the last block of the history is stored, by the loader or by others, no block is requested any more. -/
theorem C132_nothing_new (H : History ch) (S : Serving g N lk) (R : Peers.Reachable lib reg) (h0 : Run lib (World.start reg lk) w0)
    (ht : w0.todo = none) (hb : Starts peer s s0 ch (w0.own.on w0.sh)) (hv : Among lib peer s s0 ch w0 v) (hi : v.todo = none)
    (h : Among lib peer s s0 ch v w) (hN : Chains.Spec.inserts w.calls ≤ N) {b : ProtoBlock} (hl : ch.getLast? = some b)
    (hst : Stored v.sh.link.db b.id) : ∃ more, w.own.out = v.own.out ++ more ∧ wanted more = [] := by
  rw [List.getLast?_eq_getElem?] at hl
  obtain ⟨more, e, _, hlen⟩ := C132_missing H S R h0 ht hb hv hi h hN hl hst
  have := (List.getElem?_eq_some_iff.mp hl).1
  exact ⟨more, e, List.eq_nil_of_length_eq_zero (by omega)⟩

/-! ### a concrete synchronisation -/

open Chains.Ex in
/-- The peer lists the genesis block and the next one: the next one is requested.  All hypotheses of the theorems above hold. -/
example :
    let v := Fine.Ex.world Fine.Ex.opened
    let w := Fine.Ex.world (Fine.Ex.named ++ Fine.Ex.goes 3)
    Among Peers.Ex.lib Ex.peer (worth Ex.base Ex.chain 3) Ex.base Ex.chain v w ∧ w.todo = none ∧ Stored v.sh.link.db (bid 0) ∧
      wanted (w.own.out.drop v.own.out.length) = [bid 1] ∧
      ∃ more, w.own.out = v.own.out ++ more ∧ (wanted more).Nodup ∧ (wanted more).Sublist (Ex.chain.map (·.id)) ∧
        ∀ x, x ∈ wanted more → ¬ Stored v.sh.link.db x := by
  have S : Serving g0 1000 Chains.Ex.l0 := Ex.serving 1000 (by decide)
  have R : Peers.Reachable Peers.Ex.lib Ex.honestReg := Peers.Ex.reach _
  have h := Fine.Ex.among_goes (w' := Fine.Ex.world (Fine.Ex.named ++ Fine.Ex.goes 3)) 3 Fine.Ex.among_named rfl
  exact ⟨h, rfl, Fine.Ex.begun.faithful.first _ rfl, by decide +kernel,
    C132_once Ex.chain_history S R (Fine.Ex.world_run _) rfl Fine.Ex.begun.starts .start rfl h (by decide +kernel)⟩

open Chains.Ex in
/-- The distributor stores the next block for the peer while the loader handles the list that names it: it is not requested, the loader asks
for more ids instead. -/
example :
    let v := Fine.Ex.world Fine.Ex.opened
    let w := Fine.Ex.world (Fine.Ex.pushed ++ Fine.Ex.goes 8)
    Among Peers.Ex.lib Ex.peer (worth Ex.base Ex.chain 3) Ex.base Ex.chain v w ∧ w.todo = none ∧ wanted w.own.out = [] ∧ requests w.own.out = 2 :=
  ⟨Fine.Ex.among_goes (w' := Fine.Ex.world (Fine.Ex.pushed ++ Fine.Ex.goes 8)) 8 Fine.Ex.among_pushed rfl, rfl, by decide +kernel, by decide +kernel⟩

end Verif.Loading
