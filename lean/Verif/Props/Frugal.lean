import Verif.Loading.FrugalLemmas
import Verif.Props.Honest
/-
Property C131: loading the history of an honest peer costs no more than what is missing.
-/

set_option autoImplicit false

namespace Verif.Loading

open Verif
open Verif.Chains (Addr BlockID ProtoBlock Linkage)
open Verif.Chains.Spec (Stored)
open Verif.Peers (Lib)

variable {lib : Lib} {g : ProtoBlock} {n : Nat} {s s0 : Nat} {ch : List ProtoBlock} {peer : Addr}

/-- During the synchronisation with an honest peer every block is requested at most once, in the order of the history,
and only blocks of the history that were not stored when it began. -/
theorem C131_once (H : History ch) {l0 l : Loader} (h : Session lib g peer s s0 ch l0 n l) :
    ∃ more, l.out = l0.out ++ more ∧ (wanted more).Nodup ∧ (wanted more).Sublist (ch.map (·.id)) ∧
      ∀ x, x ∈ wanted more → ¬ Stored l0.link.db x := by
  obtain ⟨more, t, e, G⟩ := h.frugal H
  have hsub := G.order.trans (List.Sublist.map _ (List.take_sublist (t + 1) ch))
  exact ⟨more, e, H.ids.sublist hsub, hsub, G.fresh⟩

/-- If the block with index `i` was stored at the beginning, only blocks after it are requested: never more than lie
after it. -/
theorem C131_missing (H : History ch) {l0 l : Loader} (h : Session lib g peer s s0 ch l0 n l) {i : Nat} {b : ProtoBlock}
    (hi : ch[i]? = some b) (hst : Stored l0.link.db b.id) :
    ∃ more, l.out = l0.out ++ more ∧ (wanted more).Sublist ((ch.drop (i + 1)).map (·.id)) ∧
      (wanted more).length + (i + 1) ≤ ch.length := by
  obtain ⟨more, e, _, hsub, hno⟩ := C131_once H h
  obtain ⟨m0, R0, B0⟩ := h.begun
  have key : (wanted more).Sublist ((ch.drop (i + 1)).map (·.id)) := by
    rw [List.map_drop]
    refine sublist_drop _ hsub (fun x hx hin => ?_)
    rw [← List.map_take] at hin
    obtain ⟨y, hy, rfl⟩ := List.mem_map.mp hin
    obtain ⟨k, hk, hky⟩ := List.getElem_of_mem hy
    have hk' : k < i + 1 := by have := List.length_take_le (i + 1) ch; omega
    have hy' : ch[k]? = some y := by
      rw [← List.getElem?_take_of_lt hk', List.getElem?_eq_getElem hk, hky]
    exact hno _ hx (B0.faithful.below R0.serving i b hi hst k y (by omega) hy')
  refine ⟨more, e, key, ?_⟩
  have h1 := key.length_le
  have h2 := (List.getElem?_eq_some_iff.mp hi).1
  rw [List.length_map, List.length_drop] at h1
  omega

/-- All messages of the synchronisation together are fewer than the blocks of the history plus the blocks that were
missing. -/
theorem C131_messages (H : History ch) {l0 l : Loader} (h : Session lib g peer s s0 ch l0 n l) {i : Nat} {b : ProtoBlock}
    (hi : ch[i]? = some b) (hst : Stored l0.link.db b.id) :
    ∃ more, l.out = l0.out ++ more ∧ more.length < ch.length + (ch.length - i) := by
  obtain ⟨more, e, _, hlen⟩ := C131_missing H h hi hst
  obtain ⟨more', e', hr⟩ := C89_rounds H h
  have : more' = more := List.append_cancel_left (e'.symm.trans e)
  subst this
  have := messages_split more'
  have := (List.getElem?_eq_some_iff.mp hi).1
  exact ⟨more', e, by omega⟩

/-- A synchronisation with a peer that has nothing new requests no block. -/
theorem C131_nothing_new (H : History ch) {l0 l : Loader} (h : Session lib g peer s s0 ch l0 n l) {b : ProtoBlock}
    (hb : ch.getLast? = some b) (hst : Stored l0.link.db b.id) : ∃ more, l.out = l0.out ++ more ∧ wanted more = [] := by
  rw [List.getLast?_eq_getElem?] at hb
  obtain ⟨more, e, _, hlen⟩ := C131_missing H h hb hst
  have := (List.getElem?_eq_some_iff.mp hb).1
  exact ⟨more, e, List.eq_nil_of_length_eq_zero (by omega)⟩

/-! ### a concrete synchronisation -/

open Chains.Ex in
/-- A synchronisation up to the first request for blocks, as a session: the peer lists the genesis block and the next
one, and the next one is requested. -/
example :
    let l0 := Ex.honest [Ex.at_ 100 .timer]
    let l := Ex.honest [Ex.at_ 100 .timer, Ex.at_ 101 (.ids Ex.peer [bid 0, bid 1])]
    Session Peers.Ex.lib g0 Ex.peer (worth Ex.base Ex.chain 3) Ex.base Ex.chain l0 1000 l ∧ Stored l0.link.db (bid 0) ∧
      l.out.length = l0.out.length + 1 ∧ wanted (l.out.drop l0.out.length) = [bid 1] := by
  intro l0 l
  have R : Running Peers.Ex.lib g0 1000 (Ex.honest []) := .start (Peers.Ex.reach _) (Ex.serving 1000 (by decide))
  have hst : step Peers.Ex.lib (Ex.honest []) (Ex.at_ 100 .timer) = .ok (Ex.honest [Ex.at_ 100 .timer]) := by rfl
  obtain ⟨R', B⟩ := C89_begins (peer := Ex.peer) (s := worth Ex.base Ex.chain 3) (s0 := Ex.base) (ch := Ex.chain) R (by decide +kernel) rfl
    (Ex.ctx 100) hst (by decide +kernel) (by decide +kernel) ⟨_, rfl, by decide +kernel⟩ rfl Ex.chain_faithful
  refine ⟨.step (n := 1000) (Ex.at_ 101 (.ids Ex.peer [bid 0, bid 1])) (.start R' B) (by decide +kernel) ?_ rfl,
    B.faithful.first _ rfl, by decide +kernel, by decide +kernel⟩
  refine ⟨fun ids h _ _ => ?_, fun _ h => (by cases h), fun h => (by cases h), fun _ _ _ _ h => (by cases h), fun _ _ _ _ h => (by cases h),
    fun _ _ _ h => (by cases h)⟩
  cases h
  refine ⟨fun _ => rfl, fun m req hm hr => ?_⟩
  have hreq : req = [bid 0] := by
    cases hm
    exact hr.1.symm
  subst hreq
  exact ⟨[], g0, [], 0, 1, by decide +kernel, by simp, rfl, by decide, by decide, by decide, Or.inl (by decide +kernel)⟩

open Chains.Ex in
/-- the whole synchronisation in two rounds, the second answer overlaps with the first: no block is requested twice -/
example :
    let l := Ex.honest [Ex.at_ 100 .timer, Ex.at_ 101 (.ids Ex.peer [bid 0, bid 1]), Ex.at_ 102 (.block Ex.peer (some (blk 1 0))),
      Ex.at_ 103 (.ids Ex.peer [bid 1, bid 2, bid 3]), Ex.at_ 104 (.block Ex.peer (some (blk 3 2))), Ex.at_ 105 (.block Ex.peer (some (blk 2 1)))]
    l.active = false ∧ wanted l.out = [bid 1, bid 2, bid 3] ∧ requests l.out = 2 := by
  refine ⟨by decide +kernel, by decide +kernel, by decide +kernel⟩

end Verif.Loading
