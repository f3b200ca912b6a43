import Verif.Services.LinearCode
import Verif.Services.LinearEnds
import Verif.Chains.Examples
/-
Property C91: concurrent calls take effect one after the other.
-/

set_option autoImplicit false

namespace Verif.Props

open Verif
open Verif.Services
open Verif.KV (Fate)
open Verif.Chains (Linkage)

variable {σ ρ : Type}

/-- Any number of goroutines make any calls on the store, and the accesses of the calls come in any order that the mutex allows.  The
calls that have returned gave the results, and led to the state, that they give and lead to when they are made one after the
other without any overlap, in the order in which they gave up the mutex.  While no writer is inside, the present state is
that one: nothing of a call that has not returned is to be seen. -/
theorem C91_serial (mem : σ) (calls : Nat → List (Code σ ρ)) (hc : ∀ i c, c ∈ calls i → ∃ m, CodeOf m c) {s : System σ ρ}
    (r : SysRun (System.start mem calls) s) :
    ∃ a, Serial mem s.log a ∧ ((∀ i, (s.cl i).writing = false) → s.mem = a) := by
  obtain ⟨a, L⟩ := r.lin (Lin.start mem calls (fun i c h => (hc i c h).elim (fun _ hm => codeOf_fair hm)))
  exact ⟨a, L.serial, L.rest⟩

/-- The same for the registry of peers. -/
theorem C91_registry_serial (mem : σ) (calls : Nat → List (Code σ ρ)) (hc : ∀ i c, c ∈ calls i → RegistryCode c) {s : System σ ρ}
    (r : SysRun (System.start mem calls) s) :
    ∃ a, Serial mem s.log a ∧ ((∀ i, (s.cl i).writing = false) → s.mem = a) := by
  obtain ⟨a, L⟩ := r.lin (Lin.start mem calls (fun i c h => registry_fair (hc i c h)))
  exact ⟨a, L.serial, L.rest⟩

/-- The order is that of the goroutines and of time: the calls of a goroutine come in the order in which it makes them,
none is left out or made twice, and a call that has returned stays before all that return later. -/
theorem C91_order (mem : σ) (calls : Nat → List (Code σ ρ)) {s s' : System σ ρ} (r : SysRun (System.start mem calls) s)
    (r' : SysRun s s') : (∀ i, s.calls i = calls i) ∧ s.log <+: s'.log := by
  constructor
  · intro i
    clear r'
    generalize h : System.start mem calls = s0 at r
    induction r with
    | nil => subst h; rfl
    | snoc _ t ih => rw [calls_step t i]; exact ih
  · induction r' with
    | nil => exact List.prefix_refl _
    | snoc _ t ih => exact ih.trans (log_step t)

/-- So whatever is proved about stores that a sequence of calls leads to holds for concurrent programs: while no writer is inside,
the store is one that a sequence of calls leads to. -/
theorem C91_store {g : Chains.ProtoBlock} {l0 : Linkage} (hg : Chains.Spec.Fresh g l0) (calls : Nat → List (Code Linkage ρ))
    (hc : ∀ i c, c ∈ calls i → (∃ m, CodeOf m c) ∧
      ((∃ op, (∀ g f, op ≠ .reopen g f) ∧ ∀ l, (c.run l).1 = (Chains.Spec.step l op).1) ∨ ∀ l, (c.run l).1 = l))
    {s : System Linkage ρ} (r : SysRun (System.start l0 calls) s) (hw : ∀ i, (s.cl i).writing = false)
    (hn : s.log.length + 2 < 2 ^ 32) : Chains.Spec.Reachable g s.mem := by
  obtain ⟨a, hs, hm⟩ := C91_serial l0 calls (fun i c h => (hc i c h).1) r
  have hd : ∀ x, x ∈ s.log → (∃ op, (∀ g f, op ≠ .reopen g f) ∧ ∀ l, (x.code.run l).1 = (Chains.Spec.step l op).1) ∨ ∀ l, (x.code.run l).1 = l := by
    intro x hx
    refine (hc x.who x.code ?_).2
    rw [← (C91_order l0 calls r (.nil s)).1 x.who]
    refine List.mem_append_left _ (List.mem_map.mpr ⟨x, List.mem_filter.mpr ⟨hx, by simp⟩, rfl⟩)
  obtain ⟨ops, h1, _, rfl⟩ := serial_exec hs hd
  refine ⟨l0, ops, hg, ?_, hm hw⟩
  have := inserts_le ops
  omega

/-- The registry is one that a sequence of calls leads to. -/
theorem C91_registry {lib : Peers.Lib} {cfg : Peers.Config} (calls : Nat → List (Code Peers.Registry ρ))
    (hc : ∀ i c, c ∈ calls i → RegistryCode c ∧ ((∃ e, ∀ r, (c.run r).1 = Peers.step lib r e) ∨ ∀ r, (c.run r).1 = r))
    {s : System Peers.Registry ρ} (r : SysRun (System.start (Peers.NewRegistry cfg []) calls) s) (hw : ∀ i, (s.cl i).writing = false) :
    Peers.Reachable lib s.mem := by
  obtain ⟨a, hs, hm⟩ := C91_registry_serial _ calls (fun i c h => (hc i c h).1) r
  have hd : ∀ x, x ∈ s.log → (∃ e, ∀ r, (x.code.run r).1 = Peers.step lib r e) ∨ ∀ r, (x.code.run r).1 = r := by
    intro x hx
    refine (hc x.who x.code ?_).2
    rw [← (C91_order _ calls r (.nil s)).1 x.who]
    refine List.mem_append_left _ (List.mem_map.mpr ⟨x, List.mem_filter.mpr ⟨hx, by simp⟩, rfl⟩)
  obtain ⟨es, rfl⟩ := serial_registry hs hd
  exact ⟨cfg, es, hm hw⟩

/-- `PutBlock`, `PutMicroBlock` and `MoveLeash` access by access are code of that kind, and on their own they are what the model
has for them.  So are queries. -/
theorem C91_methods (f1 f2 : Fate) (b : Chains.ProtoBlock) (inv : Chains.MicroInv) (id : Chains.BlockID) (a : Chains.Addr) (out : Go Unit → ρ) :
    (CodeOf .putBlock (putBlockCode f1 f2 b a out) ∧ ∀ l, (putBlockCode f1 f2 b a out).run l =
      ((Chains.Spec.step l (.putBlock b a f1 f2)).1, out (Chains.Spec.step l (.putBlock b a f1 f2)).2)) ∧
    (CodeOf .putMicroBlock (putMicroCode f1 f2 inv a out) ∧ ∀ l, (putMicroCode f1 f2 inv a out).run l =
      ((Chains.Spec.step l (.putMicro inv a f1 f2)).1, out (Chains.Spec.step l (.putMicro inv a f1 f2)).2)) ∧
    (CodeOf .moveLeash (moveLeashCode f1 id a out) ∧ ∀ l, (moveLeashCode f1 id a out).run l =
      ((Chains.Spec.step l (.moveLeash id a f1)).1, out (Chains.Spec.step l (.moveLeash id a f1)).2)) ∧
    ∀ q : Linkage → ρ, CodeOf .hasBlock (queryCode q) ∧ ∀ l, (queryCode q).run l = (l, q l) :=
  ⟨⟨putBlockCode_keeps f1 f2 b a out, putBlockCode_run f1 f2 b a out⟩, ⟨putMicroCode_keeps f1 f2 inv a out, putMicroCode_run f1 f2 inv a out⟩,
    ⟨moveLeashCode_keeps f1 id a out, moveLeashCode_run f1 id a out⟩, fun q => ⟨queryCode_keeps .hasBlock rfl q, fun _ => rfl⟩⟩

/-- Finitely many goroutines make finitely many calls on the store, `LogInitialStats` excepted.  No schedule goes on for ever, and a schedule
that cannot go on has made all calls: each goroutine has the results of all the calls it was going to make. -/
theorem C91_returns (mem : σ) (calls : Nat → List (Code σ ρ)) (n : Nat) (hn : ∀ i, n ≤ i → calls i = [])
    (hc : ∀ i c, c ∈ calls i → ∃ m, (∀ k, m ≠ .logInitialStats k) ∧ CodeOf m c) :
    (∀ f : Nat → System σ ρ, f 0 = System.start mem calls → ¬ ∀ m, SysStep (f m) (f (m + 1))) ∧
    ∀ s, SysRun (System.start mem calls) s → (∀ s', ¬ SysStep s s') →
      ∀ i, (s.log.filter (fun x => x.who == i)).map (fun x => x.code) = calls i := by
  have S : Staged (System.start mem calls) := .start mem calls (fun i c h => by
    obtain ⟨m, hm, hk⟩ := hc i c h
    exact codeOf_simple hk hm)
  refine ⟨fun f h0 h => no_endless (n := n) (fun i hi => ⟨rfl, hn i hi⟩) S f h0 h, fun s r hs i => ?_⟩
  obtain ⟨h1, h2⟩ := all_made (S.run r) hs i
  have := (C91_order mem calls r (.nil s)).1 i
  rw [System.calls, h1, h2] at this
  simpa using this

/-- The same for the registry of peers. -/
theorem C91_registry_returns (mem : σ) (calls : Nat → List (Code σ ρ)) (n : Nat) (hn : ∀ i, n ≤ i → calls i = [])
    (hc : ∀ i c, c ∈ calls i → RegistryCode c) :
    (∀ f : Nat → System σ ρ, f 0 = System.start mem calls → ¬ ∀ m, SysStep (f m) (f (m + 1))) ∧
    ∀ s, SysRun (System.start mem calls) s → (∀ s', ¬ SysStep s s') →
      ∀ i, (s.log.filter (fun x => x.who == i)).map (fun x => x.code) = calls i := by
  have S : Staged (System.start mem calls) := .start mem calls (fun i c h => registry_simple (hc i c h))
  refine ⟨fun f h0 h => no_endless (n := n) (fun i hi => ⟨rfl, hn i hi⟩) S f h0 h, fun s r hs i => ?_⟩
  obtain ⟨h1, h2⟩ := all_made (S.run r) hs i
  have := (C91_order mem calls r (.nil s)).1 i
  rw [System.calls, h1, h2] at this
  simpa using this

/-! ### examples -/

namespace Ex

/-- goroutine 0 moves a leash, goroutine 1 asks for it -/
def moveAndAsk : Nat → List (Code Linkage (Go Unit ⊕ Go Chains.BlockID))
  | 0 => [moveLeashCode .ok (Chains.Ex.bid 1) (Chains.Ex.ip 2) .inl]
  | 1 => [queryCode (fun l => .inr (Chains.getLeash l.db (Chains.Ex.ip 2)))]
  | _ => []

end Ex

-- the query is inside, the writer announces itself, the query reads and returns, the writer writes and returns
example : ∃ s, SysRun (System.start Chains.Ex.l0 Ex.moveAndAsk) s ∧ s.log.map (fun x => x.who) = [1, 0] ∧ ∀ i, (s.cl i).writing = false := by
  refine ⟨_, .snoc (.snoc (.snoc (.snoc (.snoc (.snoc (.snoc (.snoc (.snoc (.nil _)
    (.begin _ 1 _ _ rfl rfl)) (.begin _ 0 _ _ rfl rfl)) (.rlock _ 1 _ _ rfl ?_)) (.announce _ 0 _ _ rfl ?_)) (.act _ 1 _ _ _ rfl))
    (.runlock _ 1 _ _ 0 rfl rfl)) (.acquire _ 0 _ _ rfl rfl ?_)) (.act _ 0 _ _ _ rfl)) (.unlock _ 0 _ _ rfl rfl), rfl, ?_⟩
  all_goals
    intro j
    match j with
    | 0 => first | rfl | exact ⟨rfl, rfl⟩
    | 1 => first | rfl | exact ⟨rfl, rfl⟩
    | j + 2 => first | rfl | exact ⟨rfl, rfl⟩

-- all calls of the example are of the kind the theorems are about
example : ∀ i c, c ∈ Ex.moveAndAsk i → (∃ m, CodeOf m c) ∧
    ((∃ op, (∀ g f, op ≠ .reopen g f) ∧ ∀ l, (c.run l).1 = (Chains.Spec.step l op).1) ∨ ∀ l, (c.run l).1 = l) := by
  intro i c h
  match i with
  | 0 =>
    rw [List.mem_singleton.mp h]
    exact ⟨⟨_, moveLeashCode_keeps _ _ _ _⟩, Or.inl ⟨.moveLeash (Chains.Ex.bid 1) (Chains.Ex.ip 2) .ok, by simp,
      fun l => by rw [moveLeashCode_run]⟩⟩
  | 1 =>
    rw [List.mem_singleton.mp h]
    exact ⟨⟨.leash, queryCode_keeps _ rfl _⟩, Or.inr (fun _ => rfl)⟩
  | i + 2 => change c ∈ [] at h; cases h

-- two goroutines, none of them calls `LogInitialStats`
example : (∀ i, 2 ≤ i → Ex.moveAndAsk i = []) ∧
    ∀ i c, c ∈ Ex.moveAndAsk i → ∃ m, (∀ k, m ≠ .logInitialStats k) ∧ CodeOf m c := by
  constructor
  · intro i hi
    match i, hi with
    | i + 2, _ => rfl
  · intro i c h
    match i with
    | 0 =>
      rw [List.mem_singleton.mp h]
      exact ⟨.moveLeash, by simp, moveLeashCode_keeps _ _ _ _⟩
    | 1 =>
      rw [List.mem_singleton.mp h]
      exact ⟨.leash, by simp, queryCode_keeps _ rfl _⟩
    | i + 2 => change c ∈ [] at h; cases h

-- a call on the registry
example (lib : Peers.Lib) (e : Peers.Event) :
    RegistryCode (.op .lock (.act (fun r => Peers.step lib r e) (fun _ => .op .unlock (.ret ()))) : Code Peers.Registry Unit) :=
  ⟨_, rfl, .act _ _ _ _ (by simp) (fun _ => .op _ _ _ (.ret _))⟩

end Verif.Props
