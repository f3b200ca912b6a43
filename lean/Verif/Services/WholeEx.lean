import Verif.Services.WholeSteps
import Verif.Services.OriginEx
import Verif.Loading.HonestEx
import Verif.Loading.HonestTrue
/-
A concrete synchronisation of the program for the examples of property C97.
-/

set_option autoImplicit false

namespace Verif.Services.Ex

open Verif
open Verif.Chains (Linkage ProtoBlock Addr)
open Verif.Chains.Ex (bid blk g0 l0)
open Verif.Chains.Spec (Truth)
open Verif.Loading (TrueHistory)
open Verif.Loading.Ex (ctx peer chain)
open Verif.Peers (Lib second)

/-- what the ids stand for -/
def truth : Truth := fun id =>
  if id = bid 1 then blk 1 0
  else if id = bid 2 then blk 2 1
  else if id = bid 3 then blk 3 2
  else { g0 with id := id }

theorem chain_true : TrueHistory truth g0 chain where
  history := Loading.Ex.chain_history
  first := rfl
  real := by
    intro b hb
    simp only [chain, List.mem_cons, List.not_mem_nil, or_false] at hb
    rcases hb with rfl | rfl | rfl | rfl <;> decide +kernel

/-- the score of the history -/
def height : Nat := Loading.worth (Loading.base g0) chain 3

/-- two peers connect, one announces the score of the history -/
def before : List Ev := joined ++ [.message (ctx 50) p2 (.score [0x0a, 0x3d, 0x70, 0xa3, 0xd7, 0x0a, 0x3d, 0x70])]

/-- the timer starts the synchronisation -/
def begun : List Ev := before ++ [.timer (ctx 100)]

/-- the other peer talks as well, the peer lists its blocks, and they come in the wrong order -/
def loading : List Ev :=
  [.message (ctx 101) p3 (.blockIds [bid 7]), .take (ctx 102), .message (ctx 103) p2 (.blockIds [bid 0, bid 1, bid 2, bid 3]), .take (ctx 104),
   .message (ctx 105) p2 (.block (some (blk 3 2))), .take (ctx 106), .message (ctx 107) p2 (.block (some (blk 1 0))), .tick (ctx 108), .take (ctx 109),
   .message (ctx 110) p2 (.pbBlock (some (blk 2 1))), .take (ctx 111)]

theorem run_append {lib : Lib} (es es' : List Ev) (s : Prog) : run lib s (es ++ es') = (run lib s es).bind (fun s' => run lib s' es') := by
  induction es generalizing s with
  | nil => rfl
  | cons e es ih =>
    simp only [List.cons_append, run]
    split
    · exact ih _
    · rfl

theorem after_snoc (es : List Ev) (e : Ev) (h : (run Peers.Ex.lib start (es ++ [e])).isSome = true) :
    (after es).step Peers.Ex.lib e = some (.ok (after (es ++ [e]))) := by
  unfold after
  rw [run_append] at h ⊢
  cases hr : run Peers.Ex.lib start es with
  | none => rw [hr] at h; cases h
  | some s =>
    rw [hr] at h
    simp only [Option.bind_some, run, Option.getD_some] at h ⊢
    split at h
    · rename_i s' hs'
      rw [hs']; rfl
    · cases h

/-- each event of the list meets what is asked -/
def Goes (lib : Lib) (a : Addr) (s : Nat) (ch : List ProtoBlock) : Prog → List Ev → Prop
  | _, [] => True
  | p, e :: es => p.l.active = true ∧ Replies a s ch p e ∧ ∃ p', p.step lib e = some (.ok p') ∧ Goes lib a s ch p' es

theorem Course.extend {lib : Lib} {g : ProtoBlock} {lk : Linkage} {n : Nat} {a : Addr} {s : Nat} {ch : List ProtoBlock} {es0 es es' : List Ev}
    {p0 p p' : Prog} (h : Course lib g lk a s ch es0 p0 (n + total lib p es') es p) (hr : run lib p es' = some p') (hg : Goes lib a s ch p es') :
    Course lib g lk a s ch es0 p0 n (es ++ es') p' := by
  induction es' generalizing es p with
  | nil => cases hr; simpa [total] using h
  | cons e es' ih =>
    obtain ⟨ha, hre, p1, h1, hg⟩ := hg
    rw [run, h1] at hr
    rw [total, h1] at h
    have := ih (es := es ++ [e]) (.step e (by rw [Nat.add_assoc, Nat.add_comm (total lib p1 es')]; exact h) ha hre h1) hr hg
    simpa using this

theorem replies_tick {a : Addr} {s : Nat} {ch : List ProtoBlock} {p : Prog} {c : Loading.Ctx} (h : c.now - p.l.obj.timestamp ≤ 30 * second) :
    Replies a s ch p (.tick c) where
  score := fun _ _ _ h => (by cases h)
  ids := fun _ _ _ h => (by cases h)
  signatures := fun _ _ _ h => (by cases h)
  take := fun _ h => (by cases h)
  tick := fun _ e => (by cases e; exact h)

theorem replies_block {a : Addr} {s : Nat} {ch : List ProtoBlock} {p : Prog} {c : Loading.Ctx} {q : Sender} {b : Option ProtoBlock} {m : Message}
    (hm : m = .block b ∨ m = .pbBlock b) : Replies a s ch p (.message c q m) where
  score := fun _ _ _ h => (by cases h; rcases hm with h | h <;> cases h)
  ids := fun _ _ _ h => (by cases h; rcases hm with h | h <;> cases h)
  signatures := fun _ _ _ h => (by cases h; rcases hm with h | h <;> cases h)
  take := fun _ h => (by cases h)
  tick := fun _ e => (by cases e)

theorem replies_ids {a : Addr} {s : Nat} {ch : List ProtoBlock} {p : Prog} {c : Loading.Ctx} {q : Sender} {ids : List Chains.BlockID}
    (h : q.remote = some a → Answers ch p.l ids) : Replies a s ch p (.message c q (.blockIds ids)) where
  score := fun _ _ _ h => (by cases h)
  ids := fun _ _ _ e hq => (by cases e; exact h hq)
  signatures := fun _ _ _ h => (by cases h)
  take := fun _ h => (by cases h)
  tick := fun _ e => (by cases e)

theorem replies_take {a : Addr} {s : Nat} {ch : List ProtoBlock} {p : Prog} {t : Int} : Replies a s ch p (.take (ctx t)) :=
  (upright_take (s0 := 0) p (fun _ => rfl)).toReplies

theorem goes : Goes Peers.Ex.lib peer height chain (after begun) loading := by
  refine ⟨by decide +kernel, replies_ids (fun h => absurd h (by decide +kernel)), _, after_snoc begun _ (by decide +kernel), ?_⟩
  refine ⟨by decide +kernel, replies_take, _, after_snoc _ _ (by decide +kernel), ?_⟩
  refine ⟨by decide +kernel, replies_ids (fun _ _ _ m req hm hr => ?_), _, after_snoc _ _ (by decide +kernel), ?_⟩
  · have hl : (after (begun ++ [.message (ctx 101) p3 (.blockIds [bid 7])] ++ [.take (ctx 102)])).l.out.getLast? =
        some ⟨100 * second, Peers.Ex.conn 65, .getBlockIds [bid 0]⟩ := by decide +kernel
    rw [hl] at hm; cases hm
    obtain ⟨rfl, _⟩ := hr
    exact ⟨[], g0, [], 0, 3, rfl, by simp, rfl, by decide, by decide, by decide, Or.inl (by decide +kernel)⟩
  refine ⟨by decide +kernel, replies_take, _, after_snoc _ _ (by decide +kernel), ?_⟩
  refine ⟨by decide +kernel, replies_block (Or.inl rfl), _, after_snoc _ _ (by decide +kernel), ?_⟩
  refine ⟨by decide +kernel, replies_take, _, after_snoc _ _ (by decide +kernel), ?_⟩
  refine ⟨by decide +kernel, replies_block (Or.inl rfl), _, after_snoc _ _ (by decide +kernel), ?_⟩
  refine ⟨by decide +kernel, replies_tick (by decide +kernel), _, after_snoc _ _ (by decide +kernel), ?_⟩
  refine ⟨by decide +kernel, replies_take, _, after_snoc _ _ (by decide +kernel), ?_⟩
  refine ⟨by decide +kernel, replies_block (Or.inr rfl), _, after_snoc _ _ (by decide +kernel), ?_⟩
  exact ⟨by decide +kernel, replies_take, _, after_snoc _ _ (by decide +kernel), trivial⟩

theorem course (n : Nat) (hn : n + 100 < 2 ^ 32) :
    Course Peers.Ex.lib g0 l0 peer height chain begun (after begun) n loading (after (begun ++ loading)) := by
  have hr : run Peers.Ex.lib (after begun) loading = some (after (begun ++ loading)) := by
    have h1 : (run Peers.Ex.lib start begun).isSome = true := by decide +kernel
    have h2 : (run Peers.Ex.lib start (begun ++ loading)).isSome = true := by decide +kernel
    unfold after
    rw [run_append] at h2 ⊢
    cases h : run Peers.Ex.lib start begun with
    | none => rw [h] at h1; cases h1
    | some s =>
      rw [h] at h2
      simp only [Option.bind_some, Option.getD_some] at h2 ⊢
      cases h' : run Peers.Ex.lib s loading with
      | none => rw [h'] at h2; cases h2
      | some s' => rfl
  have ht : total Peers.Ex.lib (after begun) loading ≤ 50 := by decide +kernel
  have h0 : total Peers.Ex.lib start begun = 0 := by decide +kernel
  have := Course.extend (es := []) (n := n) (.start (runs (n + total Peers.Ex.lib (after begun) loading) begun (by decide +kernel) (by rw [h0]; omega))) hr goes
  simpa using this

end Verif.Services.Ex
