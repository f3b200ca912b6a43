import Verif.Services.ExitLemmas
import Verif.Props.Params
import Verif.Props.Shutdown
/-
Property C118: what the exit status of the program tells.
-/

set_option autoImplicit false

namespace Verif.Props

open Verif
open Verif.Peers (Lib)
open Verif.Services

variable {lib : Lib} {o : Opts} {h : Host}

/-- When the standard error can be written, status 0 means that the user asked for help, or that the user sent the signal and after it every
service was stopped in order, with nothing left between the distributor and the loader.  Missing for the full claim: a standard error
that cannot be written (`C118_unseen`). -/
theorem C118_partial (H : OwnPeers lib h) (hw : h.stderr = true) {args : Args} {es : List ProcEv} {e : End}
    (r : Proc.Runs lib (o.main h args) es (.ended e)) (hz : e.status = 0) :
    args = .help ∨ ∃ evs s0 s, es = evs.map .prog ∧ o.main h args = .up s0 ∧ Path lib s0 evs s ∧ Ev.signal ∈ evs ∧
      s.apiUp = false ∧ (s.lsn = .off ∨ s.lsn = .exited) ∧ s.respawnUp = false ∧ s.loaderUp = false ∧ s.dist = .exited ∧ s.sent = s.taken := by
  cases args with
  | help => exact Or.inl rfl
  | bad => obtain ⟨_, hq⟩ := r.ended; cases hq; cases hz
  | flags f =>
    cases hm : o.main h (.flags f) with
    | ended e' =>
      rw [hm] at r
      obtain ⟨_, hq⟩ := r.ended
      cases hq
      simp only [Opts.main, hw, if_true] at hm
      split at hm
      · cases hm
      · cases hm; cases hz
      · split at hm <;> cases hm <;> cases hz
    | up s0 =>
      obtain ⟨R, h1, h2⟩ := started_reached H (main_flags hm)
      rw [hm] at r
      rcases r.cases (by rw [h1]; simp) with ⟨_, _, _, _, _, hq⟩ | ⟨_, _, _, _, _, _, hq⟩ | ⟨_, _, _, _, _, _, _, hq⟩ | ⟨evs, s, he, hp, hx, hq⟩
      · cases hq
      · cases hq; cases hz
      · cases hq; cases hz
      · obtain ⟨c1, c2, c3, c4, c5, c6, c7, _⟩ := C90_exited (R.reaches hp.reaches) hx
        refine Or.inr ⟨evs, s0, s, he, rfl, hp, ?_, c2, c3, c4, c5, c6, c7⟩
        refine Classical.byContradiction fun hn => ?_
        rw [hp.uncancelled h2 hn] at c1; cases c1

/-- The other direction: a process in which the main goroutine came to its end has status 0. -/
theorem C118_orderly {args : Args} {s0 s : Prog} (hm : o.main h args = .up s0) {evs : List Ev} (p : Path lib s0 evs s) (hx : s.main = .exited)
    {es : List ProcEv} {q : Proc} (he : es = evs.map .prog) (r : Proc.Runs lib (o.main h args) es q) : q = .ended ⟨0, none⟩ := by
  have h0 : s0.main ≠ .exited := by
    cases args with
    | help => cases hm
    | bad => cases hm
    | flags f =>
      obtain ⟨_, _, _, _, _, _, _, _, _, _, rfl⟩ := startup_up (main_flags hm)
      simp [Prog.start]
  have r' := Proc.Runs.ofPath h0 p
  rw [if_pos hx, ← he, ← hm] at r'
  exact r.det r' rfl

/-- Parameters that do not pass the checks end the process with status 1, and the user is told why: the line begins with "Invalid
parameters: ". -/
theorem C118_refused {f : Flags} {ps vs : List (List Char)} (hp : MadeOf f.peers ps) (hv : MadeOf f.versions vs) (V : ¬ ValidFlags o f ps vs)
    (hu : h.upper 'i' = 'I') (hw : h.stderr = true) :
    ∃ e, o.newParameters f = fail e ∧
      o.main h (.flags f) = .ended ⟨1, some ("Invalid parameters: ".toList ++ h.text e ++ ['\n'])⟩ := by
  obtain ⟨e, he⟩ := C58_refuses hp hv V
  refine ⟨e, he, ?_⟩
  have hs : o.startup h f = .failed ("invalid parameters: ".toList ++ h.text e) := by
    unfold Opts.startup
    rw [he]; rfl
  have ht : "invalid parameters: ".toList ++ h.text e = 'i' :: ("nvalid parameters: ".toList ++ h.text e) := rfl
  simp only [Opts.main, hs, ht, Host.capitalize, hu, hw, if_true]
  rfl

/-- Whatever keeps the program from starting, but a panic, is told on the standard error and gives status 1. -/
theorem C118_told (hw : h.stderr = true) {f : Flags} {t : List Char} (hs : o.startup h f = .failed t) :
    ∃ b e c cs, b ∈ prefixes ∧ t = b.toList ++ h.text e ∧ t = c :: cs ∧
      o.main h (.flags f) = .ended ⟨1, some (h.upper c :: cs ++ ['\n'])⟩ := by
  obtain ⟨b, e, hb, rfl⟩ := startup_failed hs
  obtain ⟨c, cs, hc⟩ := prefix_ne hb
  refine ⟨b, e, c, cs ++ h.text e, hb, rfl, by rw [hc]; rfl, ?_⟩
  rw [hc, List.cons_append] at hs
  simp only [Opts.main, hs, Host.capitalize, hw, if_true]

/-- A database that cannot be opened keeps the program from starting; the status is not 0, and 1 goes with a line for the user. -/
theorem C118_databases (hw : h.stderr = true) {f : Flags}
    (hd : (∃ e, h.peersDB = .error e) ∨ (∃ e, h.blocksDB = .error e) ∨
      ∃ db e, h.blocksDB = .ok db ∧ (Chains.NewLinkage h.init db (h.genesis f.network)).2 = .error e) :
    ∃ e, o.main h (.flags f) = .ended e ∧ (e.status = 1 ∧ e.line ≠ none ∨ e.status = 2) := by
  have key : ∀ st, o.startup h f = st → (∀ s, st ≠ .up s) →
      ∃ e, o.main h (.flags f) = .ended e ∧ (e.status = 1 ∧ e.line ≠ none ∨ e.status = 2) := by
    intro st hst hn
    cases st with
    | up s => exact absurd rfl (hn s)
    | panicked => exact ⟨⟨2, none⟩, by simp only [Opts.main, hst], Or.inr rfl⟩
    | failed t =>
      obtain ⟨_, _, _, _, _, _, _, hm⟩ := C118_told hw hst
      exact ⟨_, hm, Or.inl ⟨rfl, by simp⟩⟩
  refine key _ rfl fun s hs => ?_
  obtain ⟨_, pdb, db, lk, _, h1, h2, h3, _⟩ := startup_up hs
  rcases hd with ⟨e, hd⟩ | ⟨e, hd⟩ | ⟨db', e, hd, hl⟩
  · rw [h1] at hd; cases hd
  · rw [h2] at hd; cases hd
  · rw [h2] at hd; cases hd
    rw [h3] at hl; cases hl

/-- The claim is false: when the standard error cannot be written, every set of parameters that is refused gives status 0, as if the program had done its
work. -/
theorem C118_unseen {f : Flags} {ps vs : List (List Char)} (hp : MadeOf f.peers ps) (hv : MadeOf f.versions vs) (V : ¬ ValidFlags o f ps vs)
    (hw : h.stderr = false) : o.main h (.flags f) = .ended ⟨0, none⟩ := by
  obtain ⟨e, he⟩ := C58_refuses hp hv V
  have hs : o.startup h f = .failed ('i' :: ("nvalid parameters: ".toList ++ h.text e)) := by
    unfold Opts.startup
    rw [he]; rfl
  simp [Opts.main, hs, Host.capitalize, hw]

/-- At any time before the signal the failure of the API server ends the process with status 1, without stopping the other services. -/
theorem C118_api (H : OwnPeers lib h) {args : Args} {es : List ProcEv} {s : Prog} (r : Proc.Runs lib (o.main h args) es (.up s))
    (hn : ProcEv.prog .signal ∉ es) :
    Proc.Runs lib (o.main h args) (es ++ [.apiFails]) (.ended ⟨1, none⟩) ∧ s.respawnUp = true ∧ s.loaderUp = true ∧ s.dist ≠ .exited := by
  cases args with
  | help => obtain ⟨_, hq⟩ := r.ended; cases hq
  | bad => obtain ⟨_, hq⟩ := r.ended; cases hq
  | flags f =>
    cases hm : o.main h (.flags f) with
    | ended e' => rw [hm] at r; obtain ⟨_, hq⟩ := r.ended; cases hq
    | up s0 =>
      obtain ⟨R, h1, h2⟩ := started_reached H (main_flags hm)
      rw [hm] at r
      rcases r.cases (by rw [h1]; simp) with ⟨evs, s', rfl, hp, _, hq⟩ | ⟨_, _, _, _, _, _, hq⟩ | ⟨_, _, _, _, _, _, _, hq⟩ | ⟨_, _, _, _, _, hq⟩
      · cases hq
        have hc := hp.uncancelled h2 (fun hh => hn (List.mem_map.mpr ⟨_, hh, rfl⟩))
        obtain ⟨_, c2, c3, c4, c5, _⟩ := C90_before (R.reaches hp.reaches) hc
        exact ⟨.snoc r _ (by simp [Proc.step, c2]), c3, c4, c5⟩
      · cases hq
      · cases hq
      · cases hq

/-- The statuses of a program that has started: 1 is a failure of the API server, 2 is a panic, and there is no other besides 0.  After the
end nothing happens. -/
theorem C118_statuses {f : Flags} {s0 : Prog} (hm : o.main h (.flags f) = .up s0) {es : List ProcEv} {e : End}
    (r : Proc.Runs lib (o.main h (.flags f)) es (.ended e)) :
    (e.status = 0 ∨ e.status = 1 ∨ e.status = 2) ∧ (e.status = 1 ↔ ProcEv.apiFails ∈ es) ∧
    (e.status = 2 ↔ ∃ evs ev s x, es = (evs ++ [ev]).map .prog ∧ Path lib s0 evs s ∧ s.step lib ev = some (.error x)) ∧
    ∀ es' q, Proc.Runs lib (.ended e) es' q → es' = [] ∧ q = .ended e := by
  refine ⟨?_, ?_, ?_, fun es' q r' => r'.ended⟩
  all_goals
    have h0 : s0.main ≠ .exited := by
      obtain ⟨_, _, _, _, _, _, _, _, _, _, rfl⟩ := startup_up (main_flags hm)
      simp [Prog.start]
    rw [hm] at r
  · rcases r.cases h0 with ⟨_, _, _, _, _, hq⟩ | ⟨_, _, _, _, _, _, hq⟩ | ⟨_, _, _, _, _, _, _, hq⟩ | ⟨_, _, _, _, _, hq⟩ <;> cases hq <;> simp
  · rcases r.cases h0 with ⟨_, _, _, _, _, hq⟩ | ⟨_, _, rfl, _, _, _, hq⟩ | ⟨_, _, _, _, rfl, _, _, hq⟩ | ⟨_, _, rfl, _, _, hq⟩ <;> cases hq <;> simp
  · constructor
    · intro h2
      rcases r.cases h0 with ⟨_, _, _, _, _, hq⟩ | ⟨_, _, _, _, _, _, hq⟩ | ⟨evs, ev, s, x, he, hp, hx, hq⟩ | ⟨_, _, _, _, _, hq⟩
      · cases hq
      · cases hq; cases h2
      · exact ⟨evs, ev, s, x, he, hp, hx⟩
      · cases hq; cases h2
    · rintro ⟨evs, ev, s, x, he, hp, hx⟩
      cases r.det (.ofFault h0 hp hx) he; rfl

/-! the example: the databases are empty, and the parameters are those of the examples for C58 -/

def exHost : Host where
  upper c := if c = 'i' then 'I' else c
  text _ := "no".toList
  invalid _ := false
  stderr := true
  syncFails := false
  peersDB := .ok (Peers.Ex.run []).db
  blocksDB := .ok []
  init := .ok
  seeds := Peers.Ex.ok
  genesis _ := Chains.Ex.g0

theorem exHost_own : OwnPeers Peers.Ex.lib exHost := fun _ hp => by cases hp; exact ⟨_, Peers.Ex.reach [], rfl⟩

/-- how it ended -/
def _root_.Verif.Services.Proc.how : Proc → Option End
  | .ended e => some e
  | .up _ => none

-- accepted parameters start the program; a missing folder gives a line and status 1, or status 0 when nobody can read it
example : (exOpts.main exHost (.flags exFlags)).how = none ∧
    (exOpts.main exHost (.flags { exFlags with db := [] })).how = some ⟨1, some "Invalid parameters: no\n".toList⟩ ∧
    (exOpts.main { exHost with stderr := false } (.flags { exFlags with db := [] })).how = some ⟨0, none⟩ ∧
    (exOpts.main { exHost with blocksDB := .error .writeFailed } (.flags exFlags)).how =
      some ⟨1, some "failed to initialize Linkage: no\n".toList⟩ ∧
    (exOpts.main { exHost with peersDB := .error .writeFailed, syncFails := true, invalid := fun _ => true } (.flags exFlags)).how =
      some ⟨2, none⟩ := by
  decide +kernel

/-- The concrete case: no folder is given and the standard error cannot be written. -/
theorem C118_witness : ∃ (o : Opts) (h : Host) (f : Flags), o.newParameters f = fail (.other "invalid database folder") ∧
    o.main h (.flags f) = .ended ⟨0, none⟩ := by
  refine ⟨exOpts, { exHost with stderr := false }, { exFlags with db := [] }, rfl, ?_⟩
  rfl

/-- the events that can happen, one after the other -/
def Ex.life (p : Proc) : List ProcEv → Option Proc
  | [] => some p
  | e :: es => (p.step Peers.Ex.lib e).bind (Ex.life · es)

/-- an orderly end with a listener -/
def Ex.orderly : List Ev :=
  [.listen true, .signal, .main, .apiExit, .main, .listenerExit false, .main, .respawnExit, .main, .loaderExit, .main, .distExit, .main]

-- the orderly end, the API server failing, and the signal before the network listener is there
example : ((Ex.life (exOpts.main exHost (.flags exFlags)) (Ex.orderly.map .prog)).bind Proc.how) = some ⟨0, none⟩ ∧
    ((Ex.life (exOpts.main exHost (.flags exFlags)) [.prog (.listen true), .apiFails]).bind Proc.how) = some ⟨1, none⟩ ∧
    ((Ex.life (exOpts.main exHost (.flags exFlags)) [.prog .signal, .prog .main, .prog .apiExit, .prog .main]).bind Proc.how) =
      some ⟨2, none⟩ := by
  decide +kernel

theorem Ex.life_runs {p q : Proc} {es : List ProcEv} (h : Ex.life p es = some q) : Proc.Runs Peers.Ex.lib p es q := by
  have key : ∀ (es0 : List ProcEv) (p0 : Proc), Proc.Runs Peers.Ex.lib p0 es0 p → Proc.Runs Peers.Ex.lib p0 (es0 ++ es) q := by
    induction es generalizing p with
    | nil => intro es0 p0 r; cases h; rw [List.append_nil]; exact r
    | cons e es ih =>
      intro es0 p0 r
      rw [Ex.life] at h
      cases hs : p.step Peers.Ex.lib e with
      | none => rw [hs] at h; cases h
      | some p1 =>
        rw [hs] at h
        have := ih h (es0 ++ [e]) p0 (.snoc r e hs)
        rwa [List.append_assoc, List.singleton_append] at this
  exact key [] p .nil

-- the hypotheses of `C118_partial` are met by a run with status 0 that began with accepted parameters
example : ∃ es e, Proc.Runs Peers.Ex.lib (exOpts.main exHost (.flags exFlags)) es (.ended e) ∧ e.status = 0 := by
  have h1 : ((Ex.life (exOpts.main exHost (.flags exFlags)) (Ex.orderly.map .prog)).bind Proc.how) = some ⟨0, none⟩ := by decide +kernel
  cases h2 : Ex.life (exOpts.main exHost (.flags exFlags)) (Ex.orderly.map .prog) with
  | none => rw [h2] at h1; cases h1
  | some q =>
    rw [h2] at h1
    cases q with
    | up s => cases h1
    | ended e => cases h1; exact ⟨_, _, Ex.life_runs h2, rfl⟩

end Verif.Props
