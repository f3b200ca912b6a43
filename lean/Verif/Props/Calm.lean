import Verif.Services.CalmLemmas
import Verif.Services.CalmEx
import Verif.Services.Shown
/-
Property C112: in a calm network all peers are up to date in the end.
-/

set_option autoImplicit false

namespace Verif.Services.Fine

open Verif
open Verif.Chains (Addr BlockID ProtoBlock Linkage LeashOf Forks Fork Env)
open Verif.Chains.Spec (Truth Told)
open Verif.Peers (Lib Registry Config AddrPort)
open Verif.Loading (Serving)
open Verif.Loading.Fine (Answer)
open Verif.KV (Fate)

variable {lib : Lib} {g : ProtoBlock} {N : Nat} {D : Loading.Fine.Disk} {cfg : Config} {r : Registry} {fs : Nat → Fate}
  {seeds : List (Option AddrPort)} {lk : Linkage} {listener : Bool} {es0 : List Ev} {tr : List Answer}
  {T : Truth} {P : List Addr} {hist : Addr → List ProtoBlock} {run : Nat → Sys} {ev : Nat → Ev}

/-- The program runs without end, the goroutines work side by side in any order, but none is forgotten for ever.  Nobody lies, any number of peers is
connected, and they answer what they are asked for.  Then there is a moment from which on nothing is synchronised any more, and for
every connected peer all blocks of its history are stored and its position is the last one.  No choice of the peers to
synchronise with, which is random, lets one of them starve. -/
theorem C112_settles (S : Serving g N lk) (R : Peers.Reachable lib r) (hT : Told T g lk)
    (h0 : Path lib (Sys.start D cfg r.db fs seeds lk listener) es0 tr (run 0)) (ht : (run 0).world.todo = none)
    (hi : (run 0).world.own.active = false) (E : Endless lib run ev)
    (hsi : ∀ n, Sincere T (es0 ++ upto ev n)) (hN : ∀ n, Chains.Spec.inserts (run n).world.calls < N) (C : Calm lib T g P hist run ev) :
    ∃ n, ∀ k, n ≤ k → (run k).world.own.active = false ∧ ∀ a, a ∈ P → UpToDate a (hist a) (run k) :=
  Setting.settles ⟨S, R, hT, ⟨tr, h0⟩, E, hN, hsi, C⟩ hi ht

/-- From this moment on every report of the forks that includes a connected peer has it in the entry of the last block of its history, with the height,
score, time and generator of that block. -/
theorem C112_reported (S : Serving g N lk) (R : Peers.Reachable lib r) (hT : Told T g lk)
    (h0 : Path lib (Sys.start D cfg r.db fs seeds lk listener) es0 tr (run 0)) (ht : (run 0).world.todo = none)
    (hi : (run 0).world.own.active = false) (E : Endless lib run ev)
    (hsi : ∀ n, Sincere T (es0 ++ upto ev n)) (hN : ∀ n, Chains.Spec.inserts (run n).world.calls < N) (C : Calm lib T g P hist run ev) :
    ∃ n, ∀ k, n ≤ k → ∀ a, a ∈ P → 2 ≤ (hist a).length →
      ∀ (env : Env) (filter : List Addr), (filter = [] ∨ a ∈ filter) → ∀ ks, Forks env (run k).world.sh.link.db filter = .ok ks →
        ∃ b f, (hist a).getLast? = some b ∧ f ∈ ks ∧ (∀ f', f' ∈ ks → (a ∈ f'.peers ↔ f' = f)) ∧ f.headBlock = b.id ∧
          f.headHeight.toNat = (hist a).length ∧ f.score = top g (hist a) ∧ f.headTimestamp = b.timestamp ∧ some f.headGenerator = b.generator := by
  have X : Setting lib g N D cfg r fs seeds lk listener es0 T P hist run ev := ⟨S, R, hT, ⟨tr, h0⟩, E, hN, hsi, C⟩
  obtain ⟨n, hn⟩ := X.settles hi ht
  refine ⟨n, fun k hk a ha h2 env filter hfi ks hf => ?_⟩
  obtain ⟨_, b, hlast, hle⟩ := (hn k hk).2 a ha
  obtain ⟨_, hp⟩ := X.to k
  have hH := holds_path S R hp (Nat.le_of_lt (hN k)) hT (hsi k)
  obtain ⟨b4, rfl⟩ := X.v4 ha
  obtain ⟨f, h⟩ := shown (C.history _ ha) hH (X.sound k).store h2 hlast hle trivial rfl env filter hfi hf
  exact ⟨b, f, hlast, h⟩

/-! ### a concrete execution -/

/-- The peers 10.0.0.2 and 10.0.0.3, on different forks, have announced the scores of their histories, but of their blocks only the genesis block is known.
The timer fires and one of them is synchronised; in the middle of this the other one sends a block.  The timer fires again, and the other one
is synchronised; and then the timer fires again and again.  This execution meets all hypotheses. -/
example :
    Serving Chains.Ex.g0 1000 Chains.Ex.l0 ∧ Told Ex.truth2 Chains.Ex.g0 Chains.Ex.l0 ∧
    (∃ tr, Path Peers.Ex.lib Ex.begin Ex.arrived tr (Ex.calmRun 0)) ∧ (Ex.calmRun 0).world.todo = none ∧
    (Ex.calmRun 0).world.own.active = false ∧ (Ex.calmRun 0).world.own.prevDiff = none ∧ Endless Peers.Ex.lib Ex.calmRun Ex.calmEv ∧
    (∀ n, Sincere Ex.truth2 (Ex.arrived ++ upto Ex.calmEv n)) ∧ (∀ n, Chains.Spec.inserts (Ex.calmRun n).world.calls < 1000) ∧
    Calm Peers.Ex.lib Ex.truth2 Chains.Ex.g0 [Loading.Ex.peer, Loading.Ex.peer3] Ex.hists Ex.calmRun Ex.calmEv ∧
    ¬ UpToDate Loading.Ex.peer (Ex.hists Loading.Ex.peer) (Ex.calmRun 0) ∧ (Ex.calmRun 8).world.own.active = true ∧ (Ex.calmRun 34).world.own.active = true := by
  refine ⟨?_, Ex.calm_told, Ex.at_path (by decide +kernel), ?_, by decide +kernel, by decide +kernel, Ex.calm_endless, Ex.calm_sincere, Ex.calm_room, Ex.calm, ?_,
    (Ex.calm_active 8).mpr (by decide), (Ex.calm_active 34).mpr (by decide)⟩
  · exact Loading.Ex.serving 1000 (by decide)
  · have : (Ex.calmRun 0).world.todo.isNone = true := by decide +kernel
    exact Option.isNone_iff_eq_none.mp this
  · rintro ⟨_, b, hb, hle⟩
    have h1 : LeashOf (Ex.calmRun 0).world.sh.link Loading.Ex.peer = .ok Chains.Ex.g0.id := by decide +kernel
    rw [h1] at hle
    have h2 : (Ex.hists Loading.Ex.peer).getLast?.map (·.id) ≠ some Chains.Ex.g0.id := by decide +kernel
    rw [hb] at h2
    exact h2 (congrArg some (Except.ok.inj hle).symm)

/-- so all is loaded in the end -/
example : ∃ n, ∀ k, n ≤ k → (Ex.calmRun k).world.own.active = false ∧ UpToDate Loading.Ex.peer Ex.chain2 (Ex.calmRun k) ∧ UpToDate Loading.Ex.peer3 Ex.chain3 (Ex.calmRun k) := by
  obtain ⟨tr, hp⟩ := Ex.at_path (es := Ex.arrived) (by decide +kernel)
  have ht : (Ex.calmRun 0).world.todo.isNone = true := by decide +kernel
  obtain ⟨n, hn⟩ := C112_settles (run := Ex.calmRun) (Loading.Ex.serving 1000 (by decide)) (Peers.Ex.reach []) Ex.calm_told hp (Option.isNone_iff_eq_none.mp ht)
    (by decide +kernel) Ex.calm_endless Ex.calm_sincere Ex.calm_room Ex.calm
  refine ⟨n, fun k hk => ⟨(hn k hk).1, ?_, ?_⟩⟩
  · rw [← Ex.hists2]; exact (hn k hk).2 _ (by simp)
  · rw [← Ex.hists3]; exact (hn k hk).2 _ (by simp)

end Verif.Services.Fine
