import Verif.Services.Examples
import Verif.Services.ShutdownLemmas
/-
Property C90: the order of the shutdown.
-/

set_option autoImplicit false

namespace Verif.Props

open Verif
open Verif.Peers (Lib)
open Verif.Services

variable {lib : Lib} {s s' : Prog}

/-- Until the signal all services are up. -/
theorem C90_before (R : Reached lib s) (hc : s.cancelled = false) :
    s.main = .waiting ∧ s.apiUp = true ∧ s.respawnUp = true ∧ s.loaderUp = true ∧ s.dist ≠ .exited ∧ s.lsn ≠ .exited := by
  obtain ⟨h1, h2, h3, h4⟩ := R.life.before hc
  refine ⟨h4, R.life.waiting h4, h3, h2, h1, ?_⟩
  intro h
  rw [R.lsn_exited h] at hc; cases hc

/-- The program exits only after the signal and after all its services: nothing is left running that could use the store,
and every package that the distributor sent was taken by the loader. -/
theorem C90_exited (R : Reached lib s) (hm : s.main = .exited) :
    s.cancelled = true ∧ s.apiUp = false ∧ (s.lsn = .off ∨ s.lsn = .exited) ∧ s.respawnUp = false ∧ s.loaderUp = false ∧
    s.dist = .exited ∧ s.sent = s.taken ∧ ∀ e, s.step lib e = none := by
  have L := R.life
  have hd := L.dist hm
  refine ⟨?_, (L.closed (by rw [hm]; rfl)).1, L.off (by rw [hm]; rfl) (by rw [hm]; simp), L.respawn (Or.inr (Or.inr hm)),
    L.loader (Or.inr hm), hd, ?_, fun e => by simp [Prog.step, hm]⟩
  · cases hc : s.cancelled with
    | true => rfl
    | false =>
      have := (L.before hc).2.2.2
      rw [hm] at this; cases this
  · have := R.inv.fifo
    rw [this, hd]; simp [Dist.pending]

/-- The services are stopped one after the other: the API first, then the listener, the dialling, the loader and the
distributor. -/
theorem C90_order (R : Reached lib s) :
    (s.main = .listener ∨ s.main = .respawn ∨ s.main = .loader ∨ s.main = .distributor ∨ s.main = .exited → s.apiUp = false) ∧
    (s.main = .respawn ∨ s.main = .loader ∨ s.main = .distributor ∨ s.main = .exited → s.lsn = .off ∨ s.lsn = .exited) ∧
    (s.main = .loader ∨ s.main = .distributor ∨ s.main = .exited → s.respawnUp = false) ∧
    (s.main = .distributor ∨ s.main = .exited → s.loaderUp = false) ∧
    (s.main = .exited → s.dist = .exited) := by
  have L := R.life
  refine ⟨fun h => (L.closed ?_).1, fun h => L.off ?_ ?_, L.respawn, L.loader, L.dist⟩
  · rcases h with h | h | h | h | h <;> rw [h] <;> rfl
  · rcases h with h | h | h | h <;> rw [h] <;> rfl
  · rcases h with h | h | h | h <;> rw [h] <;> simp

/-- A service that was stopped does not come back, and the signal is not forgotten. -/
theorem C90_stopped (h : Reaches lib s s') :
    (s.cancelled = true → s'.cancelled = true) ∧ (s.apiUp = false → s'.apiUp = false) ∧ (s.respawnUp = false → s'.respawnUp = false) ∧
    (s.loaderUp = false → s'.loaderUp = false) ∧ (s.dist = .exited → s'.dist = .exited) ∧ (s.lsn = .exited → s'.lsn = .exited) := by
  have F : Fewer s s' := by
    induction h with
    | refl => exact .refl s
    | step _ e he ih => exact ih.trans (step_fewer he)
  exact ⟨F.1, F.2, F.3, F.4, F.5, F.6⟩

/-- a whole run: a peer announces a block, the signal comes while the loader is busy, the loader takes the package, and
everything stops in order -/
def Ex.whole : List Ev :=
  Ex.joined ++ [.message (Loading.Ex.ctx 5) Ex.p2 (.blockIds [Chains.Ex.bid 1]), .signal, .take (Loading.Ex.ctx 6), .main, .apiExit, .main,
    .respawnExit, .main, .loaderExit, .main, .distExit, .main]

-- before the signal all services are up, and after the run all of them are stopped and the package was taken
example : (Ex.after Ex.joined).cancelled = false := by decide +kernel
example : (Ex.after Ex.whole).main = .exited ∧ (Ex.after Ex.whole).taken.length = 1 := by decide +kernel
example : (Ex.after Ex.whole).sent = (Ex.after Ex.whole).taken := (C90_exited (Ex.reached Ex.whole) (by decide +kernel)).2.2.2.2.2.2.1

-- with a listener the network connection is closed before anything else but the API
example : (Ex.afterL [.listen true, .signal, .main, .apiExit, .main, .listenerExit false, .main]).main = .respawn := by decide +kernel

end Verif.Props
