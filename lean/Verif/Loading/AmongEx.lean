import Verif.Loading.AmongStart
import Verif.Loading.FineEx
/-
A concrete synchronisation for the examples of property C106.
-/

set_option autoImplicit false

namespace Verif.Loading.Fine

open Verif
open Verif.Chains (Addr BlockID ProtoBlock Linkage LeashOf)
open Verif.Peers (Lib)

variable {lib : Lib}

/-- moves of the loader -/
theorem Ex.among_goes {peer : Addr} {s s0 : Nat} {ch : List ProtoBlock} {w0 : World} : ∀ (n : Nat) {w w' : World}, Among lib peer s s0 ch w0 w →
    Ex.moves lib w (Ex.goes n) = some w' → Among lib peer s s0 ch w0 w'
  | 0, _, _, h, e => by cases e; exact h
  | n + 1, w, w', h, e => by
    have e : (Ex.move lib w .go).bind (fun w => Ex.moves lib w (Ex.goes n)) = some w' := e
    cases hm : Ex.move lib w .go with
    | none => rw [hm] at e; cases e
    | some v =>
      rw [hm] at e
      refine Ex.among_goes n ?_ e
      unfold Ex.move at hm
      cases ht : w.todo with
      | none => rw [ht] at hm; cases hm
      | some p =>
        rw [ht] at hm
        cases p with
        | call c k => cases hm; exact .call h c k ht
        | ret r =>
          cases r with
          | ok o => cases hm; exact .finish h o ht
          | error e => cases hm

/-- calls of the loader -/
def Ex.calls (lib : Lib) : Nat → World → Option World
  | 0, w => some w
  | n + 1, w =>
    match w.todo with
    | some (.call c k) => Ex.calls lib n ⟨w.own, some (k (c.res lib w.sh)), c.effect w.sh, w.ins, w.log ++ (c.op.map (fun o => (true, o))).toList⟩
    | _ => none

/-- the timer has started the synchronisation -/
def Ex.opened : List Ex.Move := .receive (Loading.Ex.ctx 100) .timer :: Ex.goes 5

open Chains.Ex in
/-- the peer lists block 1, and the loader has made its first call -/
def Ex.named : List Ex.Move := Ex.opened ++ [.receive (Loading.Ex.ctx 101) (.ids Loading.Ex.peer [bid 0, bid 1]), .go]

open Chains.Ex in
/-- the distributor stores block 1, which the peer has broadcast; then the loader goes on -/
def Ex.pushed : List Ex.Move := Ex.named ++ .other (.putBlock (blk 1 0) Loading.Ex.peer .ok .ok) :: Ex.goes 2


theorem Ex.begun : Begun Loading.Ex.peer (worth Loading.Ex.base Loading.Ex.chain 3) Loading.Ex.base Loading.Ex.chain
    ((Ex.world Ex.opened).own.on (Ex.world Ex.opened).sh) where
  active := by decide +kernel
  state := by decide +kernel
  who := by decide +kernel
  diff := by decide +kernel
  asked := ⟨_, [Chains.Ex.bid 0], rfl, ⟨rfl, by decide +kernel⟩, fun id hid => by
    rw [List.mem_singleton.mp hid]; rfl⟩
  announced := ⟨_, rfl, by decide +kernel⟩
  score := rfl
  faithful := Loading.Ex.chain_faithful

theorem Ex.not_behind : NotBehind Loading.Ex.peer Loading.Ex.chain (Ex.world Ex.named).sh (Chains.Ex.bid 1) := by
  have hl : LeashOf (Ex.world Ex.named).sh.link Loading.Ex.peer = .ok (Chains.Ex.bid 0) := by decide +kernel
  intro i y hi he
  refine ⟨1, Chains.Ex.blk 1 0, ?_, rfl, by decide +kernel⟩
  rw [hl] at he
  match i with
  | 0 => exact Nat.zero_le _
  | 1 => exact Nat.le_refl _
  | 2 => cases hi; exact absurd (Except.ok.inj he) (by decide +kernel)
  | 3 => cases hi; exact absurd (Except.ok.inj he) (by decide +kernel)
  | k + 4 => cases hi

theorem Ex.among_named : Among Peers.Ex.lib Loading.Ex.peer (worth Loading.Ex.base Loading.Ex.chain 3) Loading.Ex.base Loading.Ex.chain
    (Ex.world Ex.opened) (Ex.world Ex.named) := by
  have h1 := Among.receive (lib := Peers.Ex.lib) (peer := Loading.Ex.peer) (s := worth Loading.Ex.base Loading.Ex.chain 3) (s0 := Loading.Ex.base)
    (ch := Loading.Ex.chain) (Among.start (w0 := Ex.world Ex.opened)) (by decide +kernel) (Loading.Ex.ctx 101)
    (.ids Loading.Ex.peer [Chains.Ex.bid 0, Chains.Ex.bid 1]) rfl ?_
  · exact Ex.among_goes 1 h1 (w' := Ex.world Ex.named) rfl
  · refine ⟨?_, (fun _ h => by cases h), (fun h => by cases h), (fun _ _ _ _ h => by cases h), (fun _ _ _ _ h => by cases h), (fun _ _ _ h => by cases h)⟩
    intro ids h _ _
    cases h
    refine ⟨fun _ => rfl, ?_⟩
    intro m req hm ha
    have he : (Ex.world Ex.opened).own.out.getLast?.map (·.msg) = some (.getBlockIds [Chains.Ex.bid 0]) := by decide +kernel
    have hm : (Ex.world Ex.opened).own.out.getLast? = some m := hm
    rw [hm] at he
    have he : m.msg = .getBlockIds [Chains.Ex.bid 0] := Option.some.inj he
    rw [he] at ha
    have : req = [Chains.Ex.bid 0] := ha.1.symm
    subst this
    exact ⟨[], Chains.Ex.g0, [], 0, 1, by decide +kernel, by simp, rfl, by decide, by decide, by decide, Or.inl (by decide +kernel)⟩

theorem Ex.among_pushed : Among Peers.Ex.lib Loading.Ex.peer (worth Loading.Ex.base Loading.Ex.chain 3) Loading.Ex.base Loading.Ex.chain
    (Ex.world Ex.opened) (Ex.world Ex.pushed) := by
  have h3 := Among.other Ex.among_named (by decide +kernel) (.putBlock (Chains.Ex.blk 1 0) Loading.Ex.peer .ok .ok) ?_
  · exact Ex.among_goes 2 h3 rfl
  · refine ⟨?_, (fun _ _ _ _ h => by cases h), (fun _ _ _ h => by cases h), fun _ i b hi hl => ?_⟩
    · intro b a f1 f2 h
      cases h
      unfold Genuine
      decide +kernel
    · obtain ⟨j, z, hj, hz, he⟩ := Ex.not_behind i b hi hl
      refine ⟨1, Chains.Ex.blk 1 0, ?_, rfl, by decide +kernel⟩
      match j with
      | 0 => omega
      | 1 => exact hj
      | 2 => cases hz; exact absurd he (by decide +kernel)
      | 3 => cases hz; exact absurd he (by decide +kernel)
      | k + 4 => cases hz

/-- calls of the loader -/
theorem Ex.handling_goes {v : World} : ∀ (n : Nat) {w w' : World}, Handling lib v w → Ex.calls lib n w = some w' → Handling lib v w'
  | 0, _, _, h, e => by cases e; exact h
  | n + 1, w, w', h, e => by
    unfold Ex.calls at e
    cases ht : w.todo with
    | none => rw [ht] at e; cases e
    | some p =>
      rw [ht] at e
      cases p with
      | call c k => exact Ex.handling_goes n (.call h c k ht) e
      | ret r => cases e

end Verif.Loading.Fine
