import Verif.Services.Records
import Verif.Services.FaultyEx
/-
Property C121 for the whole program, with failing reads and with the loader at work.
-/

set_option autoImplicit false

namespace Verif.Services.Fine

open Verif
open Verif.Chains (Addr Linkage)
open Verif.Peers (Registry Lib AddrPort Config PeerOf NewRegistry is4 second)
open Verif.Loading.Fine (Disk)
open Verif.KV (Fate)

variable {lib : Lib} {r : Registry} {D : Disk} {cfg : Config} {fs : Nat → Fate} {seeds : List (Option AddrPort)}
  {lk : Linkage} {listener : Bool} {es es' : List Ev} {tr tr' : List Loading.Fine.Answer} {s s' : Sys}

/-- Every peer that has a record had one when the program was started, is a seed peer, was in a list of peers that somebody sent, connected, or was
dialled: whatever reads and writes fail and whatever the loader is doing. -/
theorem C121_program (R : Peers.Reachable lib r) (P : Path lib (Sys.start D cfg r.db fs seeds lk listener) es tr s) (a : Addr)
    (h4 : is4 a = true) (h : ∃ p, PeerOf s.world.sh.reg a = .ok p) :
    (∃ p, PeerOf (NewRegistry cfg r.db) a = .ok p) ∨ (∃ ap, some ap ∈ seeds ∧ ap.addr = a) ∨
      (∃ D c p l ap, Ev.message D c p (.peers l) ∈ es ∧ some ap ∈ l ∧ ap.addr = a) ∨
      (∃ D c p, Ev.connected D c p ∈ es ∧ p.remote = some a) ∨ ∃ D f now, Ev.suggest D f now a ∈ es := by
  obtain ⟨b, rfl⟩ := Peers.is4_iff.mp h4
  obtain ⟨p, h⟩ := h
  have R0 : Peers.Reachable lib (NewRegistry cfg r.db) := R.step ⟨0, .reopen cfg⟩
  obtain ⟨Rs, _, k⟩ := view_path (start_reachable R D cfg fs seeds) P
  obtain ⟨v, hv, rfl⟩ := Rs.inv.peerOf.mp h
  rcases k b (by rw [hv]; simp) with h | ⟨e, he, hm⟩
  · rcases rd_named (lib := lib) D.peers R0.inv ⟨0, .append fs seeds⟩ (fun c h => by cases h) h with h | h
    · obtain ⟨v0, h0⟩ := Option.ne_none_iff_exists'.mp h
      exact Or.inl ⟨_, R0.inv.peerOf.mpr ⟨v0, h0, rfl⟩⟩
    · obtain ⟨x, hx, e⟩ := List.mem_filterMap.mp h
      obtain ⟨ap, rfl, e2⟩ := Option.map_eq_some_iff.mp e
      exact Or.inr (Or.inl ⟨ap, hx, e2⟩)
  · right; right
    cases e with
    | message D c p m =>
      cases m with
      | peers l => obtain ⟨ap, h1, h2⟩ := hm; exact Or.inl ⟨D, c, p, l, ap, he, h1, h2⟩
      | _ => exact hm.elim
    | connected D c p => exact Or.inr (Or.inl ⟨D, c, p, he, hm⟩)
    | suggest D f now a' => have : a' = .v4 b := hm; subst this; exact Or.inr (Or.inr ⟨D, f, now, he⟩)
    | _ => exact hm.elim

/-- A peer that has a record keeps one: in an execution, and over a new start of the program, whatever reads and writes fail. -/
theorem C121_never_lost (R : Peers.Reachable lib r) (P : Path lib (Sys.start D cfg r.db fs seeds lk listener) es tr s) (Q : Path lib s es' tr' s')
    (a : Addr) (h4 : is4 a = true) :
    ((∃ p, PeerOf r a = .ok p) → ∃ p, PeerOf s.world.sh.reg a = .ok p) ∧
      ((∃ p, PeerOf s.world.sh.reg a = .ok p) → ∃ p, PeerOf s'.world.sh.reg a = .ok p) := by
  obtain ⟨b, rfl⟩ := Peers.is4_iff.mp h4
  obtain ⟨Rs, k1, _⟩ := view_path (start_reachable R D cfg fs seeds) P
  obtain ⟨Rs', k2, _⟩ := view_path Rs Q
  have known : ∀ {x : Registry}, Peers.Reachable lib x → ((∃ p, PeerOf x (.v4 b) = .ok p) ↔ Peers.view x.db b ≠ none) := by
    intro x Rx
    constructor
    · rintro ⟨p, h⟩
      obtain ⟨v, hv, _⟩ := Rx.inv.peerOf.mp h
      rw [hv]; simp
    · intro h
      obtain ⟨v, hv⟩ := Option.ne_none_iff_exists'.mp h
      exact ⟨_, Rx.inv.peerOf.mpr ⟨v, hv, rfl⟩⟩
  rw [known R, known Rs, known Rs']
  refine ⟨fun h => k1 b ?_, k2 b⟩
  have R0 : Peers.Reachable lib (NewRegistry cfg r.db) := R.step ⟨0, .reopen cfg⟩
  obtain ⟨es', e'⟩ := Peers.Rd.step_exec D.peers lib R0.inv ⟨0, .append fs seeds⟩
  show Peers.view (Peers.Rd.step D.peers lib (NewRegistry cfg r.db) ⟨0, .append fs seeds⟩).db b ≠ none
  rw [e']
  exact Peers.exec_known R0.inv h es'

/-! ### a concrete execution -/

/-- 10.0.0.2 is a seed peer; it lists 9.9.9.9, and 8.8.8.8 while no record can be read; 10.0.0.3 is dialled; a break is not noted, since no record
can be read -/
def Ex.hearsay : List Ev :=
  Ex.joined ++ [.message .good (Loading.Ex.ctx 5) Services.Ex.p2 (.peers [none, some ⟨Peers.Ex.ip 9 9 9 9, 7⟩]),
    .message Ex.noPeers (Loading.Ex.ctx 6) Services.Ex.p2 (.peers [some ⟨Peers.Ex.ip 8 8 8 8, 9⟩]), .timer (Loading.Ex.ctx 100), .go Ex.noBlocks,
    .suggest .good .ok (101 * second) Loading.Ex.peer3, .broken Ex.noPeers (Loading.Ex.ctx 102) Services.Ex.p2]

example : Peers.Reachable Peers.Ex.lib (Peers.Ex.run []) ∧
    ∃ tr s, Path Peers.Ex.lib (Sys.start .good Peers.Ex.cfg (Peers.Ex.run []).db Peers.Ex.ok [some ⟨Loading.Ex.peer, 6868⟩] Chains.Ex.l0 false)
      Ex.hearsay tr s ∧
      [Loading.Ex.peer, Loading.Ex.peer3, Peers.Ex.ip 9 9 9 9, Peers.Ex.ip 8 8 8 8].map (fun a => (PeerOf s.world.sh.reg a).isOk) =
        [true, true, true, false] := by
  have key : (Ex.after Ex.hearsay).any (fun s => decide (
      [Loading.Ex.peer, Loading.Ex.peer3, Peers.Ex.ip 9 9 9 9, Peers.Ex.ip 8 8 8 8].map (fun a => (PeerOf s.world.sh.reg a).isOk) =
        [true, true, true, false])) = true := by decide +kernel
  refine ⟨⟨_, [], rfl⟩, ?_⟩
  cases hs : Ex.after Ex.hearsay with
  | none => rw [hs] at key; cases key
  | some s =>
    rw [hs] at key
    obtain ⟨tr, ht⟩ := Ex.after_path hs
    exact ⟨tr, s, ht, of_decide_eq_true key⟩

end Verif.Services.Fine
