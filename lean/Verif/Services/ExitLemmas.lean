import Verif.Services.Exit
import Verif.Services.ShutdownLemmas
/-
Lemmas about the process.
-/

set_option autoImplicit false

namespace Verif.Services

open Verif
open Verif.Peers (Lib)

variable {lib : Lib} {o : Opts} {h : Host} {f : Flags}

theorem Host.leave_eq (h : Host) (e : Err) (b : String) : h.leave e b = .panicked ∨ h.leave e b = .failed (b.toList ++ h.text e) := by
  unfold Host.leave
  split
  · exact Or.inl rfl
  · exact Or.inr rfl

/-- the prefixes of the texts that `run` returns -/
def prefixes : List String :=
  ["invalid parameters: ", "failed to create peers registry: failed to create peers registry: ", "failed to initialize Linkage: ",
    "failed to create API server: "]

theorem startup_failed {t : List Char} (hs : o.startup h f = .failed t) : ∃ b e, b ∈ prefixes ∧ t = b.toList ++ h.text e := by
  have key : ∀ e (b : String), b ∈ prefixes → h.leave e b = .failed t → ∃ b e, b ∈ prefixes ∧ t = b.toList ++ h.text e := by
    intro e b hb hl
    rcases h.leave_eq e b with h1 | h1
    · rw [h1] at hl; cases hl
    · rw [h1] at hl; cases hl; exact ⟨b, e, hb, rfl⟩
  unfold Opts.startup at hs
  split at hs
  · cases hs
  · cases hs; exact ⟨_, _, by simp [prefixes], rfl⟩
  · split at hs
    · exact key _ _ (by simp [prefixes]) hs
    · split at hs
      · exact key _ _ (by simp [prefixes]) hs
      · split at hs
        · cases hs
        · exact key _ _ (by simp [prefixes]) hs
        · split at hs
          · cases hs
          · split at hs
            · exact key _ _ (by simp [prefixes]) hs
            · cases hs

theorem startup_up {s : Prog} (hs : o.startup h f = .up s) :
    ∃ p pdb db lk, o.newParameters f = .ok p ∧ h.peersDB = .ok pdb ∧ h.blocksDB = .ok db ∧
      (Chains.NewLinkage h.init db (h.genesis f.network)).2 = .ok lk ∧ Chains.LogInitialStats lk.db = .ok () ∧ p.api ≠ [] ∧
      s = Prog.start (o.config p) pdb h.seeds (p.seeds.map seedOf) lk (o.listens p) := by
  have key : ∀ e (b : String), h.leave e b ≠ .up s := by
    intro e b hl
    rcases h.leave_eq e b with h1 | h1 <;> rw [h1] at hl <;> cases hl
  unfold Opts.startup at hs
  split at hs
  · cases hs
  · cases hs
  · next p hp =>
    split at hs
    · exact absurd hs (key _ _)
    · next pdb hpdb =>
      split at hs
      · exact absurd hs (key _ _)
      · next db hdb =>
        split at hs
        · cases hs
        · exact absurd hs (key _ _)
        · next lk hlk =>
          split at hs
          · cases hs
          · next hst =>
            split at hs
            · exact absurd hs (key _ _)
            · next ha => cases hs; exact ⟨p, pdb, db, lk, hp, hpdb, hdb, hlk, hst, ha, rfl⟩

theorem prefix_ne {b : String} (hb : b ∈ prefixes) : ∃ c cs, b.toList = c :: cs := by
  simp only [prefixes, List.mem_cons, List.not_mem_nil, or_false] at hb
  rcases hb with rfl | rfl | rfl | rfl <;> exact ⟨_, _, rfl⟩

/-- what a process that has started can become -/
theorem Proc.Runs.cases {s0 : Prog} (h0 : s0.main ≠ .exited) {es : List ProcEv} {q : Proc} (r : Proc.Runs lib (.up s0) es q) :
    (∃ evs s, es = evs.map .prog ∧ Path lib s0 evs s ∧ s.main ≠ .exited ∧ q = .up s) ∨
    (∃ evs s, es = evs.map .prog ++ [.apiFails] ∧ Path lib s0 evs s ∧ s.main ≠ .exited ∧ s.apiUp = true ∧ q = .ended ⟨1, none⟩) ∨
    (∃ evs e s x, es = (evs ++ [e]).map .prog ∧ Path lib s0 evs s ∧ s.step lib e = some (.error x) ∧ q = .ended ⟨2, none⟩) ∨
    (∃ evs s, es = evs.map .prog ∧ Path lib s0 evs s ∧ s.main = .exited ∧ q = .ended ⟨0, none⟩) := by
  induction r with
  | nil => exact Or.inl ⟨[], s0, rfl, .nil, h0, rfl⟩
  | snoc r e he ih =>
    rcases ih with ⟨evs, s, rfl, hp, hm, rfl⟩ | ⟨_, _, _, _, _, _, rfl⟩ | ⟨_, _, _, _, _, _, _, rfl⟩ | ⟨_, _, _, _, _, rfl⟩
    · cases e with
      | apiFails =>
        simp only [Proc.step] at he
        split at he
        · next ha => cases he; exact Or.inr (Or.inl ⟨evs, s, rfl, hp, hm, ha, rfl⟩)
        · cases he
      | prog e =>
        simp only [Proc.step] at he
        split at he
        · cases he
        · next x hx => cases he; exact Or.inr (Or.inr (Or.inl ⟨evs, e, s, x, by simp, hp, hx, rfl⟩))
        · next s' hs' =>
          split at he
          · next hm' => cases he; exact Or.inr (Or.inr (Or.inr ⟨evs ++ [e], s', by simp, .snoc hp e hs', hm', rfl⟩))
          · next hm' => cases he; exact Or.inl ⟨evs ++ [e], s', by simp, .snoc hp e hs', hm', rfl⟩
    · cases he
    · cases he
    · cases he

theorem Proc.Runs.ended {e : End} {es : List ProcEv} {q : Proc} (r : Proc.Runs lib (.ended e) es q) : es = [] ∧ q = .ended e := by
  induction r with
  | nil => exact ⟨rfl, rfl⟩
  | snoc r e he ih => rw [ih.2] at he; cases he

/-- a path of the program is a run of the process until the end of the program -/
theorem Proc.Runs.ofPath {s0 s : Prog} (h0 : s0.main ≠ .exited) {evs : List Ev} (p : Path lib s0 evs s) :
    Proc.Runs lib (.up s0) (evs.map .prog) (if s.main = .exited then .ended ⟨0, none⟩ else .up s) := by
  induction p with
  | nil => rw [if_neg h0]; exact .nil
  | @snoc es s' s'' hp e he ih =>
    have hm : s'.main ≠ .exited := by
      intro hm
      simp [Prog.step, hm] at he
    rw [if_neg hm] at ih
    rw [List.map_append]
    refine .snoc ih _ ?_
    simp only [Proc.step, he]
    split <;> rfl

theorem Proc.Runs.det {p q q' : Proc} {es es' : List ProcEv} (r : Proc.Runs lib p es q) (r' : Proc.Runs lib p es' q') (he : es = es') :
    q = q' := by
  induction r generalizing es' q' with
  | nil =>
    cases r' with
    | nil => rfl
    | snoc _ _ _ => simp at he
  | snoc r1 e h1 ih =>
    cases r' with
    | nil => simp at he
    | snoc r2 e' h2 =>
      obtain ⟨e1, e2⟩ := List.append_inj' he rfl
      cases e2
      cases ih r2 e1
      rw [h1] at h2
      exact Option.some.inj h2

/-- a fault ends the process -/
theorem Proc.Runs.ofFault {s0 s : Prog} (h0 : s0.main ≠ .exited) {evs : List Ev} (p : Path lib s0 evs s) {e : Ev} {x : Fault}
    (hx : s.step lib e = some (.error x)) : Proc.Runs lib (.up s0) ((evs ++ [e]).map .prog) (.ended ⟨2, none⟩) := by
  have hm : s.main ≠ .exited := by
    intro hm
    simp [Prog.step, hm] at hx
  have r := Proc.Runs.ofPath h0 p
  rw [if_neg hm] at r
  rw [List.map_append]
  refine .snoc r _ ?_
  simp only [Proc.step, hx]

theorem respawn_cancelled (s : Prog) (now : Int) (rf : Bool) : (s.respawn now rf).cancelled = s.cancelled := by
  unfold Prog.respawn
  split
  · rfl
  · simp only
    split <;> rfl

/-- without the signal nothing is cancelled -/
theorem step_uncancelled {s s' : Prog} {e : Ev} (h : s.step lib e = some (.ok s')) (hn : e ≠ .signal) (hc : s.cancelled = false) :
    s'.cancelled = false := by
  obtain ⟨_, hcase⟩ := step_case h
  cases hcase with
  | signal => exact absurd rfl hn
  | respawn => rw [respawn_cancelled]; exact hc
  | _ => exact hc

theorem Path.uncancelled {s0 s : Prog} {evs : List Ev} (p : Path lib s0 evs s) (hc : s0.cancelled = false) (hn : Ev.signal ∉ evs) :
    s.cancelled = false := by
  induction p with
  | nil => exact hc
  | snoc hp e he ih =>
    rw [List.mem_append, not_or] at hn
    exact step_uncancelled he (fun hh => hn.2 (by rw [hh]; exact List.mem_singleton.mpr rfl)) (ih hn.1)

/-- the database of the registry is one that the program has written -/
def OwnPeers (lib : Lib) (h : Host) : Prop := ∀ pdb, h.peersDB = .ok pdb → ∃ r, Peers.Reachable lib r ∧ r.db = pdb

theorem started_reached (H : OwnPeers lib h) {f : Flags} {s0 : Prog} (hs : o.startup h f = .up s0) :
    Reached lib s0 ∧ s0.main = .waiting ∧ s0.cancelled = false := by
  obtain ⟨p, pdb, db, lk, _, hpdb, _, _, _, _, rfl⟩ := startup_up hs
  obtain ⟨r, hr, rfl⟩ := H pdb hpdb
  exact ⟨⟨_, _, _, _, _, _, hr, .refl⟩, rfl, rfl⟩

theorem main_flags {f : Flags} {s0 : Prog} (hm : o.main h (.flags f) = .up s0) : o.startup h f = .up s0 := by
  simp only [Opts.main] at hm
  split at hm
  · cases hm; assumption
  · cases hm
  · split at hm
    · cases hm
    · split at hm <;> cases hm

end Verif.Services
