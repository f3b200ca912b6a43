import Verif.Services.SideTrue
import Verif.Services.FaultyEx
import Verif.Services.WholeEx
/-
A concrete synchronisation for the examples of property C107: the goroutines work side by side, and some reads fail.
-/

set_option autoImplicit false

namespace Verif.Services.Fine.Ex

open Verif
open Verif.Chains (Addr BlockID ProtoBlock)
open Verif.Chains.Ex (bid blk g0 l0)
open Verif.Peers (second Lib)
open Verif.Loading (Ctx)
open Verif.Loading.Ex (ctx peer chain)
open Verif.Loading.Fine (Answer)
open Verif.Services.Ex (p2 p3 truth height)

/-- The peer 10.0.0.2 connects and announces the score of its history.  A message of another peer meets a disk that does not read blocks, and
its failure one that does not read peers. -/
def before : List Ev :=
  [.suggest .good .ok (1 * second) peer, .connected .good (ctx 2) p2,
   .message .good (ctx 50) p2 (.score [0x0a, 0x3d, 0x70, 0xa3, 0xd7, 0x0a, 0x3d, 0x70]),
   .message noBlocks (ctx 60) p3 (.block (some (blk 1 0))), .broken noPeers (ctx 61) p3]

/-- the loader handles the timer, in between a peer sends a block -/
def handling : List Ev := go 2 ++ .message noBlocks (ctx 100) p3 (.block (some (blk 1 0))) :: go 3

def opening : List Ev := before ++ .timer (ctx 100) :: handling

/-- The peer lists its blocks; while the loader handles the list, the other peer sends block 1, and the disk does not read blocks for the
distributor.  Then the blocks come in the wrong order. -/
def loading : List Ev :=
  [.message .good (ctx 101) p2 (.blockIds [bid 0, bid 1, bid 2, bid 3]), .take (ctx 102)] ++ go 2 ++
  [.message noBlocks (ctx 103) p3 (.block (some (blk 1 0)))] ++ go 2 ++
  [.message .good (ctx 105) p2 (.block (some (blk 3 2))), .take (ctx 106)] ++ go 1 ++
  [.message .good (ctx 107) p2 (.block (some (blk 1 0))), .take (ctx 108)] ++ go 1 ++
  [.message .good (ctx 109) p2 (.pbBlock (some (blk 2 1))), .take (ctx 110), .broken noPeers (ctx 111) p3] ++ go 6

/-- the state after some events that are all possible -/
def at' (es : List Ev) : Sys := (after es).getD begin

theorem at_path {es : List Ev} (h : (after es).isSome = true) : ∃ tr, Path Peers.Ex.lib begin es tr (at' es) := by
  obtain ⟨s, hs⟩ := Option.isSome_iff_exists.mp h
  unfold at'
  rw [hs]
  exact after_path hs

theorem run_append {lib : Lib} (es es' : List Ev) (s : Sys) :
    run lib s (es ++ es') = (run lib s es).bind (fun y => (run lib y.2 es').map (fun z => (y.1 ++ z.1, z.2))) := by
  induction es generalizing s with
  | nil => simp [run]
  | cons e es ih =>
    simp only [List.cons_append, run]
    split
    · rw [ih]
      cases run lib _ es with
      | none => rfl
      | some y => cases hz : run lib y.2 es' <;> simp [hz]
    · rfl

theorem at_snoc (es : List Ev) (e : Ev) (h : (after (es ++ [e])).isSome = true) :
    (at' es).step Peers.Ex.lib e = some (.ok (at' (es ++ [e]))) := by
  unfold at' after at *
  rw [run_append] at h ⊢
  cases hr : run Peers.Ex.lib begin es with
  | none => rw [hr] at h; cases h
  | some y =>
    rw [hr] at h
    simp only [Option.bind_some, Option.map_some, Option.getD_some, run] at h ⊢
    split at h
    · rename_i s' hs'
      rw [hs']; simp
    · cases h

/-! ### what is asked of the events -/

section
variable {s : Nat} {ch : List ProtoBlock} {x : Sys}

theorem patient_go : Patient peer s ch x (.go .good) := (civil_go (s0 := 0) x).toPatient

theorem patient_ids (D : Loading.Fine.Disk) (c : Ctx) (q : Sender) (ids : List BlockID) : Patient peer s ch x (.message D c q (.blockIds ids)) where
  disk := fun _ h => (by cases h)
  score := fun _ _ _ _ h => (by cases h)
  ids := fun _ _ h => (by cases h)
  forth := fun _ _ _ h => (by cases h)
  take := fun _ h => (by cases h)
  tick := fun _ h => (by cases h)

theorem patient_broken (D : Loading.Fine.Disk) (c : Ctx) (q : Sender) : Patient peer s ch x (.broken D c q) where
  disk := fun _ h => (by cases h)
  score := fun _ _ _ _ h => (by cases h)
  ids := fun _ _ h => (by cases h)
  forth := fun _ _ _ h => (by cases h)
  take := fun _ h => (by cases h)
  tick := fun _ h => (by cases h)

/-- a block of another peer, or while the loader waits -/
theorem patient_block {D : Loading.Fine.Disk} {c : Ctx} {q : Sender} {b : ProtoBlock} {m : Message} (hm : m = .block (some b) ∨ m = .pbBlock (some b))
    (h : x.world.todo = none ∨ ∀ a, q.remote = some a → peer.plain ≠ a.plain) : Patient peer s ch x (.message D c q m) where
  disk := fun _ h => (by cases h)
  score := fun _ _ _ _ h => (by cases h; rcases hm with h | h <;> cases h)
  ids := fun _ _ h => (by cases h)
  forth := fun ht a id hab hp => by
    rcases h with h | h
    · exact absurd h ht
    · rcases hm with rfl | rfl <;>
      · simp only [Ev.about, Option.map_eq_some_iff, Prod.mk.injEq] at hab
        obtain ⟨a', ha, rfl, _⟩ := hab
        exact absurd hp (h _ ha)
  take := fun _ h => (by cases h)
  tick := fun _ h => (by cases h)

theorem patient_take {t : Int} (h : ∀ ids, x.dist = .sending (.ids peer ids) → Answers ch (x.world.own.on x.world.sh) ids) :
    Patient peer s ch x (.take (ctx t)) where
  disk := fun _ h => (by cases h)
  score := fun _ _ _ _ h => (by cases h)
  ids := fun _ ids _ hd => h ids hd
  forth := fun _ _ _ h => (by cases h)
  take := fun _ h => (by cases h; exact fun _ => rfl)
  tick := fun _ h => (by cases h)

theorem patient_take_block {t : Int} {p : Pkg} (h : x.dist = .sending p) (hp : ∀ ids, p ≠ .ids peer ids) : Patient peer s ch x (.take (ctx t)) :=
  patient_take (fun ids hd => by rw [h] at hd; cases hd; exact absurd rfl (hp ids))

end

abbrev Al (es : List Ev) : Prop := Along Peers.Ex.lib peer height chain (at' opening) es (at' (opening ++ es))

theorem al_step {es : List Ev} (e : Ev) (h : Al es) (ha : (at' (opening ++ es)).world.own.active = true)
    (hc : Patient peer height chain (at' (opening ++ es)) e) (hs : (after (opening ++ es ++ [e])).isSome = true) : Al (es ++ [e]) := by
  have := Along.step e h ha hc (at_snoc (opening ++ es) e hs)
  rw [List.append_assoc] at this
  exact this

theorem along : Along Peers.Ex.lib peer height chain (at' opening) loading (at' (opening ++ loading)) := by
  have h0 : Al [] := by
    show Along _ _ _ _ _ _ (at' (opening ++ []))
    rw [List.append_nil]; exact .start
  have h1 := al_step (.message .good (ctx 101) p2 (.blockIds [bid 0, bid 1, bid 2, bid 3])) h0 (by decide +kernel) (patient_ids ..) (by decide +kernel)
  have h2 := al_step (.take (ctx 102)) h1 (by decide +kernel) (patient_take (fun ids hd _ _ m req hm hr => by
    have hp : (at' (opening ++ ([] ++ [.message .good (ctx 101) p2 (.blockIds [bid 0, bid 1, bid 2, bid 3])]))).dist =
        .sending (.ids peer [bid 0, bid 1, bid 2, bid 3]) := by decide +kernel
    rw [hp] at hd; cases hd
    have hl : (at' (opening ++ ([] ++ [.message .good (ctx 101) p2 (.blockIds [bid 0, bid 1, bid 2, bid 3])]))).world.own.out.getLast? =
        some ⟨100 * second, Peers.Ex.conn 65, .getBlockIds [bid 0]⟩ := by decide +kernel
    replace hm := hl.symm.trans hm
    cases hm
    obtain ⟨rfl, _⟩ := hr
    exact ⟨[], g0, [], 0, 3, rfl, by simp, rfl, by decide, by decide, by decide, Or.inl (by decide +kernel)⟩)) (by decide +kernel)
  have h3 := al_step (.go .good) h2 (by decide +kernel) (patient_go) (by decide +kernel)
  have h4 := al_step (.go .good) h3 (by decide +kernel) (patient_go) (by decide +kernel)
  have h5 := al_step (.message noBlocks (ctx 103) p3 (.block (some (blk 1 0)))) h4 (by decide +kernel) (patient_block (.inl rfl) (.inr (fun a h => by cases h; decide +kernel))) (by decide +kernel)
  have h6 := al_step (.go .good) h5 (by decide +kernel) (patient_go) (by decide +kernel)
  have h7 := al_step (.go .good) h6 (by decide +kernel) (patient_go) (by decide +kernel)
  have h8 := al_step (.message .good (ctx 105) p2 (.block (some (blk 3 2)))) h7 (by decide +kernel) (patient_block (.inl rfl) (.inl (by decide +kernel))) (by decide +kernel)
  have h9 := al_step (.take (ctx 106)) h8 (by decide +kernel) (patient_take_block rfl (fun _ h => by cases h)) (by decide +kernel)
  have h10 := al_step (.go .good) h9 (by decide +kernel) (patient_go) (by decide +kernel)
  have h11 := al_step (.message .good (ctx 107) p2 (.block (some (blk 1 0)))) h10 (by decide +kernel) (patient_block (.inl rfl) (.inl (by decide +kernel))) (by decide +kernel)
  have h12 := al_step (.take (ctx 108)) h11 (by decide +kernel) (patient_take_block rfl (fun _ h => by cases h)) (by decide +kernel)
  have h13 := al_step (.go .good) h12 (by decide +kernel) (patient_go) (by decide +kernel)
  have h14 := al_step (.message .good (ctx 109) p2 (.pbBlock (some (blk 2 1)))) h13 (by decide +kernel) (patient_block (.inr rfl) (.inl (by decide +kernel))) (by decide +kernel)
  have h15 := al_step (.take (ctx 110)) h14 (by decide +kernel) (patient_take_block rfl (fun _ h => by cases h)) (by decide +kernel)
  have h16 := al_step (.broken noPeers (ctx 111) p3) h15 (by decide +kernel) (patient_broken ..) (by decide +kernel)
  have h17 := al_step (.go .good) h16 (by decide +kernel) (patient_go) (by decide +kernel)
  have h18 := al_step (.go .good) h17 (by decide +kernel) (patient_go) (by decide +kernel)
  have h19 := al_step (.go .good) h18 (by decide +kernel) (patient_go) (by decide +kernel)
  have h20 := al_step (.go .good) h19 (by decide +kernel) (patient_go) (by decide +kernel)
  have h21 := al_step (.go .good) h20 (by decide +kernel) (patient_go) (by decide +kernel)
  have h22 := al_step (.go .good) h21 (by decide +kernel) (patient_go) (by decide +kernel)
  exact h22

/-- the state in which the loader has begun to handle the timer -/
abbrev fired : Sys := at' (before ++ [.timer (ctx 100)])

abbrev Bz (es : List Ev) : Prop := Busy Peers.Ex.lib fired es (at' (before ++ [.timer (ctx 100)] ++ es))

theorem bz_step {es : List Ev} (e : Ev) (h : Bz es) (hb : (at' (before ++ [.timer (ctx 100)] ++ es)).world.todo.isSome = true)
    (hg : ∀ D, e = .go D → D = .good) (hs : (after (before ++ [.timer (ctx 100)] ++ es ++ [e])).isSome = true) : Bz (es ++ [e]) := by
  have := Busy.step e h (by intro hn; rw [hn] at hb; cases hb) hg (at_snoc _ e hs)
  rw [List.append_assoc] at this
  exact this

theorem busy : Busy Peers.Ex.lib fired handling (at' opening) := by
  have h0 : Bz [] := by
    show Busy _ _ _ (at' (before ++ [.timer (ctx 100)] ++ []))
    rw [List.append_nil]; exact .start
  have hg : ∀ D, Ev.go .good = .go D → D = .good := fun D h => by cases h; rfl
  have h1 := bz_step (.go .good) h0 (by decide +kernel) hg (by decide +kernel)
  have h2 := bz_step (.go .good) h1 (by decide +kernel) hg (by decide +kernel)
  have h3 := bz_step (.message noBlocks (ctx 100) p3 (.block (some (blk 1 0)))) h2 (by decide +kernel) (fun D h => by cases h) (by decide +kernel)
  have h4 := bz_step (.go .good) h3 (by decide +kernel) hg (by decide +kernel)
  have h5 := bz_step (.go .good) h4 (by decide +kernel) hg (by decide +kernel)
  have h6 := bz_step (.go .good) h5 (by decide +kernel) hg (by decide +kernel)
  exact h6

theorem sincere : Sincere truth (opening ++ loading) := by
  intro D c p m hm
  simp only [opening, handling, before, loading, go, List.replicate, List.mem_append, List.mem_cons, List.not_mem_nil, or_false, Ev.message.injEq,
    reduceCtorEq, false_or] at hm
  rcases hm with ((⟨_, _, _, rfl⟩ | ⟨_, _, _, rfl⟩) | ⟨_, _, _, rfl⟩) | ((((⟨_, _, _, rfl⟩ | ⟨_, _, _, rfl⟩) | ⟨_, _, _, rfl⟩) | ⟨_, _, _, rfl⟩) | ⟨_, _, _, rfl⟩) <;>
    first | trivial | (show _ = _; decide +kernel)

theorem told : Chains.Spec.Told truth g0 l0 := ⟨_, [], Chains.Ex.fresh, by decide, fun o ho => (by cases ho), rfl⟩

/-- what the events before a given one are -/
theorem sincere_left {es es' : List Ev} (h : Sincere truth (es ++ es')) : Sincere truth es :=
  fun D c p m hm => h D c p m (List.mem_append_left _ hm)

end Verif.Services.Fine.Ex
