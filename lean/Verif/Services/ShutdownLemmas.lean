import Verif.Services.ProgramInv
/-
What an event does to the services that are up.
-/

set_option autoImplicit false

namespace Verif.Services

open Verif
open Verif.Peers (Lib)

variable {lib : Lib}

/-- `s'` has no service up that `s` had not, and knows of the signal if `s` did -/
structure Fewer (s s' : Prog) : Prop where
  cancelled : s.cancelled = true → s'.cancelled = true
  api : s.apiUp = false → s'.apiUp = false
  respawn : s.respawnUp = false → s'.respawnUp = false
  loader : s.loaderUp = false → s'.loaderUp = false
  dist : s.dist = .exited → s'.dist = .exited
  lsn : s.lsn = .exited → s'.lsn = .exited

theorem Fewer.refl (s : Prog) : Fewer s s := ⟨id, id, id, id, id, id⟩

theorem Fewer.trans {s t u : Prog} (h : Fewer s t) (k : Fewer t u) : Fewer s u :=
  ⟨fun x => k.1 (h.1 x), fun x => k.2 (h.2 x), fun x => k.3 (h.3 x), fun x => k.4 (h.4 x), fun x => k.5 (h.5 x), fun x => k.6 (h.6 x)⟩

theorem respawn_fewer (s : Prog) (now : Int) (rf : Bool) : Fewer s (s.respawn now rf) := by
  unfold Prog.respawn
  split
  · exact ⟨id, id, id, id, id, id⟩
  · simp only
    split <;> exact ⟨id, id, id, id, id, id⟩

theorem step_fewer {s s' : Prog} {e : Ev} (h : s.step lib e = some (.ok s')) : Fewer s s' := by
  obtain ⟨_, hc⟩ := step_case h
  cases hc with
  | handled hd => exact ⟨id, id, id, id, (fun h => by rw [hd] at h; cases h), id⟩
  | take c p l' hd => exact ⟨id, id, id, id, (fun h => by rw [hd] at h; cases h), id⟩
  | distExit => exact ⟨id, id, id, id, fun _ => rfl, id⟩
  | tick => exact ⟨id, id, id, id, id, id⟩
  | timer => exact ⟨id, id, id, id, id, id⟩
  | loaderExit => exact ⟨id, id, id, fun _ => rfl, id, id⟩
  | respawn => exact respawn_fewer _ _ _
  | respawnExit => exact ⟨id, id, fun _ => rfl, id, id, id⟩
  | refused => exact ⟨id, id, id, id, id, id⟩
  | suggested => exact ⟨id, id, id, id, id, id⟩
  | giveUp => exact ⟨id, id, id, id, id, id⟩
  | listen ok hl => exact ⟨id, id, id, id, id, (fun h => by rw [hl] at h; cases h)⟩
  | listenerExit => exact ⟨id, id, id, id, id, fun _ => rfl⟩
  | apiExit => exact ⟨id, fun _ => rfl, id, id, id, id⟩
  | signal => exact ⟨fun _ => rfl, id, id, id, id, id⟩
  | mainWaiting => exact ⟨id, id, id, id, id, id⟩
  | mainApi => exact ⟨id, id, id, id, id, id⟩
  | mainOff => exact ⟨id, id, id, id, id, id⟩
  | mainListener => exact ⟨id, id, id, id, id, id⟩
  | mainRespawn => exact ⟨id, id, id, id, id, id⟩
  | mainLoader => exact ⟨id, id, id, id, id, id⟩
  | mainDistributor => exact ⟨id, id, id, id, id, id⟩

theorem respawn_lsn (s : Prog) (now : Int) (rf : Bool) : (s.respawn now rf).lsn = s.lsn := by
  unfold Prog.respawn
  split
  · rfl
  · simp only
    split <;> rfl

/-- the listener stops only because of the signal -/
theorem step_lsn {s s' : Prog} {e : Ev} (h : s.step lib e = some (.ok s')) (ih : s.lsn = .exited → s.cancelled = true)
    (hl : s'.lsn = .exited) : s'.cancelled = true := by
  have F := (step_fewer h).cancelled
  by_cases h0 : s.lsn = .exited
  · exact F (ih h0)
  · obtain ⟨_, hc⟩ := step_case h
    cases hc with
    | listenerExit conn _ hcn => exact hcn
    | signal => rfl
    | listen ok _ => cases ok <;> cases hl
    | respawn now rf => rw [respawn_lsn] at hl; exact absurd hl h0
    | _ => exact absurd hl h0

theorem Reached.lsn_exited {s : Prog} (R : Reached lib s) (hl : s.lsn = .exited) : s.cancelled = true := by
  obtain ⟨cfg, r, fs, seeds, lk, ls, _, h⟩ := R
  induction h with
  | refl => cases ls <;> cases hl
  | step _ e he ih => exact step_lsn he ih hl

end Verif.Services
