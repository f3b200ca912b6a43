import Verif.Services.SideFrugal
import Verif.Props.Side
/-
Property C133: in the whole program an honest peer is asked for missing blocks only and for none of them twice.
-/

set_option autoImplicit false

namespace Verif.Services.Fine

open Verif
open Verif.Chains (Addr BlockID ProtoBlock MicroInv Linkage LeashOf)
open Verif.Chains.Spec (Stored Truth Told)
open Verif.Peers (Lib Registry Config AddrPort)
open Verif.Loading (Serving History TrueHistory Starts Begun base wanted requests sublist_drop messages_split)
open Verif.Loading.Fine (Answer)
open Verif.KV (Fate)

variable {lib : Lib} {g : ProtoBlock} {N : Nat} {D : Loading.Fine.Disk} {cfg : Config} {r : Registry} {fs : Nat → Fate}
  {seeds : List (Option AddrPort)} {lk : Linkage} {listener : Bool} {es0 es es' : List Ev} {tr : List Answer} {x0 v x : Sys}
  {s s0 : Nat} {ch : List ProtoBlock} {peer : Addr} {T : Truth}

/-- Take any moment `v` of a synchronisation with an honest peer at which the loader handles no event, and what the loader requests from then
on: blocks of the history in their order, each at most once, and none that is stored in `v`, whoever stored it.  The other goroutines work
all the time, and their reads and writes fail as they like. -/
theorem C133_once (H : History ch) (S : Serving g N lk) (R : Peers.Reachable lib r)
    (h0 : Path lib (Sys.start D cfg r.db fs seeds lk listener) es0 tr x0) (ht : x0.world.todo = none)
    (hb : Starts peer s s0 ch (x0.world.own.on x0.world.sh)) (hv : Side lib peer s s0 ch x0 es v) (hi : v.world.todo = none)
    (h : Side lib peer s s0 ch v es' x) (hN : Chains.Spec.inserts x.world.calls ≤ N) :
    ∃ more, x.world.own.out = v.world.own.out ++ more ∧ (wanted more).Nodup ∧ (wanted more).Sublist (ch.map (·.id)) ∧
      ∀ y, y ∈ wanted more → ¬ Stored v.world.sh.link.db y := by
  obtain ⟨more, t, e, T, _⟩ := (saving_side H hb.score hi
    (fun es x h hN => ⟨_, _, side_kept H S (start_reachable R D cfg fs seeds) h0.run ht hb (hv.trans h) hN⟩) h hN).phase
  have hsub := T.order.trans (List.Sublist.map _ (List.take_sublist (t + 1) ch))
  exact ⟨more, e, H.ids.sublist hsub, hsub, T.fresh⟩

/-- If the block with index `i` is stored in `v`, only blocks after it are requested from then on: never more than lie after it. -/
theorem C133_missing (H : History ch) (S : Serving g N lk) (R : Peers.Reachable lib r)
    (h0 : Path lib (Sys.start D cfg r.db fs seeds lk listener) es0 tr x0) (ht : x0.world.todo = none)
    (hb : Starts peer s s0 ch (x0.world.own.on x0.world.sh)) (hv : Side lib peer s s0 ch x0 es v) (hi : v.world.todo = none)
    (h : Side lib peer s s0 ch v es' x) (hN : Chains.Spec.inserts x.world.calls ≤ N) {i : Nat} {b : ProtoBlock}
    (hib : ch[i]? = some b) (hst : Stored v.world.sh.link.db b.id) :
    ∃ more, x.world.own.out = v.world.own.out ++ more ∧ (wanted more).Sublist ((ch.drop (i + 1)).map (·.id)) ∧
      (wanted more).length + (i + 1) ≤ ch.length := by
  obtain ⟨more, e, _, hsub, hno⟩ := C133_once H S R h0 ht hb hv hi h hN
  have G := (side_kept H S (start_reachable R D cfg fs seeds) h0.run ht hb hv (Nat.le_trans h.mono.2 hN)).good
  have key : (wanted more).Sublist ((ch.drop (i + 1)).map (·.id)) := by
    rw [List.map_drop]
    refine sublist_drop _ hsub (fun x hx hin => ?_)
    rw [← List.map_take] at hin
    obtain ⟨y, hy, rfl⟩ := List.mem_map.mp hin
    obtain ⟨k, hk, hky⟩ := List.getElem_of_mem hy
    have hk' : k < i + 1 := by have := List.length_take_le (i + 1) ch; omega
    have hy' : ch[k]? = some y := by
      rw [← List.getElem?_take_of_lt hk', List.getElem?_eq_getElem hk, hky]
    exact hno _ hx (G.faithful.below G.sound.store i b hib hst k y (by omega) hy')
  refine ⟨more, e, key, ?_⟩
  have h1 := key.length_le
  have h2 := (List.getElem?_eq_some_iff.mp hib).1
  rw [List.length_map, List.length_drop] at h1
  omega

/-- Once the last block of the history is stored, by the loader or by others, no block is requested any more. -/
theorem C133_nothing_new (H : History ch) (S : Serving g N lk) (R : Peers.Reachable lib r)
    (h0 : Path lib (Sys.start D cfg r.db fs seeds lk listener) es0 tr x0) (ht : x0.world.todo = none)
    (hb : Starts peer s s0 ch (x0.world.own.on x0.world.sh)) (hv : Side lib peer s s0 ch x0 es v) (hi : v.world.todo = none)
    (h : Side lib peer s s0 ch v es' x) (hN : Chains.Spec.inserts x.world.calls ≤ N) {b : ProtoBlock} (hl : ch.getLast? = some b)
    (hst : Stored v.world.sh.link.db b.id) : ∃ more, x.world.own.out = v.world.own.out ++ more ∧ wanted more = [] := by
  rw [List.getLast?_eq_getElem?] at hl
  obtain ⟨more, e, _, hlen⟩ := C133_missing H S R h0 ht hb hv hi h hN hl hst
  have := (List.getElem?_eq_some_iff.mp hl).1
  exact ⟨more, e, List.eq_nil_of_length_eq_zero (by omega)⟩

/-- All messages of the synchronisation together are fewer than the blocks of the history plus the blocks that were missing when it began. -/
theorem C133_messages (H : History ch) (S : Serving g N lk) (R : Peers.Reachable lib r)
    (h0 : Path lib (Sys.start D cfg r.db fs seeds lk listener) es0 tr x0) (ht : x0.world.todo = none)
    (hb : Begun peer s s0 ch (x0.world.own.on x0.world.sh)) (h : Side lib peer s s0 ch x0 es x)
    (hN : Chains.Spec.inserts x.world.calls ≤ N) (hn : x.world.todo = none) {i : Nat} {b : ProtoBlock} (hib : ch[i]? = some b)
    (hst : Stored x0.world.sh.link.db b.id) :
    ∃ more, x.world.own.out = x0.world.own.out ++ more ∧ more.length < ch.length + (ch.length - i) := by
  obtain ⟨more, e, _, hlen⟩ := C133_missing H S R h0 ht hb.starts .start ht h hN hib hst
  obtain ⟨more', e', hr⟩ := C107_rounds H S R h0 ht hb h hN hn
  have : more' = more := List.append_cancel_left (e'.symm.trans e)
  subst this
  have := messages_split more'
  have := (List.getElem?_eq_some_iff.mp hib).1
  exact ⟨more', e, by omega⟩

/-- The same if nobody lies about blocks, from the start of the program on: then nothing is asked of the other peers. -/
theorem C133_truthful (H : TrueHistory T g ch) (hT : Told T g lk) (S : Serving g N lk) (R : Peers.Reachable lib r)
    (h0 : Path lib (Sys.start D cfg r.db fs seeds lk listener) es0 tr x0) (ht : x0.world.todo = none)
    (hb : Starts peer s (base g) ch (x0.world.own.on x0.world.sh)) (hv : Along lib peer s ch x0 es v) (hi : v.world.todo = none)
    (h : Along lib peer s ch v es' x) (hs : Sincere T (es0 ++ es ++ es')) (hN : Chains.Spec.inserts x.world.calls ≤ N) :
    ∃ more, x.world.own.out = v.world.own.out ++ more ∧ (wanted more).Nodup ∧ (wanted more).Sublist (ch.map (·.id)) ∧
      ∀ y, y ∈ wanted more → ¬ Stored v.world.sh.link.db y := by
  obtain ⟨tr1, hpath⟩ := hv.path
  have h2 := C107_truthful H hT S R (h0.append hpath) h hs hN
  have h1 := C107_truthful H hT S R h0 hv (fun D c q m hm => hs D c q m (List.mem_append_left _ hm)) (Nat.le_trans h2.mono.2 hN)
  exact C133_once H.history S R h0 ht hb h1 hi h2 hN

/-! ### a concrete execution -/

open Chains.Ex in
/-- The execution of the examples of C107 meets all of this, from its beginning to its end: three blocks are missing, and they are
requested once each. -/
example : ∃ tr,
    Path Peers.Ex.lib Ex.begin Ex.opening tr (Ex.at' Ex.opening) ∧ (Ex.at' Ex.opening).world.todo = none ∧
    Along Peers.Ex.lib Loading.Ex.peer Services.Ex.height Loading.Ex.chain (Ex.at' Ex.opening) Ex.loading (Ex.at' (Ex.opening ++ Ex.loading)) ∧
    Stored (Ex.at' Ex.opening).world.sh.link.db (bid 0) ∧ (Ex.at' (Ex.opening ++ Ex.loading)).world.own.active = false ∧
    wanted ((Ex.at' (Ex.opening ++ Ex.loading)).world.own.out.drop (Ex.at' Ex.opening).world.own.out.length) = [bid 1, bid 2, bid 3] := by
  obtain ⟨tr, hpath⟩ := Ex.at_path (es := Ex.opening) (by decide +kernel)
  exact ⟨tr, hpath, rfl, Ex.along, by rfl, by decide +kernel, by decide +kernel⟩

end Verif.Services.Fine
