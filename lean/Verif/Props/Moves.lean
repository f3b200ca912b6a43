import Verif.Services.Moves
import Verif.Services.SideEx
/-
Property C111: who moves the position of a peer, and when, while the goroutines work side by side and reads fail.
-/

set_option autoImplicit false

namespace Verif.Services.Fine

open Verif
open Verif.Chains (Addr BlockID ProtoBlock MicroInv Linkage LeashOf)
open Verif.Peers (Lib Registry Config AddrPort)
open Verif.Loading (Ctx Serving)
open Verif.Loading.Fine (World Disk Answer)
open Verif.KV (Fate)

variable {lib : Lib} {g : ProtoBlock} {N : Nat} {D : Disk} {cfg : Config} {r : Registry} {fs : Nat → Fate}
  {seeds : List (Option AddrPort)} {lk : Linkage} {listener : Bool} {es : List Ev} {tr : List Answer} {x x' : Sys}

/-- One event moves the position of a peer only like this.  A message about a block arrives from this very peer, and the position moves to this block.
Or the loader makes a call during a synchronisation with this very peer; then the position moves to a block that the peer has listed or
sent before.  No event of another peer moves it, and the synchronisation with another peer does not. -/
theorem C111_moves (S : Serving g N lk) (R : Peers.Reachable lib r) (h : Path lib (Sys.start D cfg r.db fs seeds lk listener) es tr x)
    {e : Ev} (hs : x.step lib e = some (.ok x')) (hN : Chains.Spec.inserts x'.world.calls < N) (a : Addr)
    (hm : LeashOf x'.world.sh.link a ≠ LeashOf x.world.sh.link a) :
    ∃ id, LeashOf x'.world.sh.link a = .ok id ∧
      ((∃ a0, e.about = some (a0, id) ∧ a.plain = a0.plain) ∨ ((∃ D, e = .go D) ∧ x.Loads a ∧ Named es x.world.own.peerID id)) := by
  rcases moves S R h hs hN a with h | ⟨a0, id, h1, h2, h3⟩ | ⟨h1, h2, h3, id, h4, h5⟩
  · exact absurd h hm
  · exact ⟨id, h3, Or.inl ⟨a0, h1, h2⟩⟩
  · exact ⟨id, h4, Or.inr ⟨h1, ⟨h2, h3⟩, h5⟩⟩

/-- In any part of an execution in which no message about a block comes from the peer and no synchronisation with it runs, its position stays. -/
theorem C111_still (S : Serving g N lk) (R : Peers.Reachable lib r) (h : Path lib (Sys.start D cfg r.db fs seeds lk listener) es tr x)
    {es' : List Ev} {tr' : List Answer} (h' : Path lib x es' tr' x') (hN : Chains.Spec.inserts x'.world.calls < N) (a : Addr)
    (hq : ∀ e a0 id, e ∈ es' → e.about = some (a0, id) → a.plain ≠ a0.plain)
    (hl : ∀ es1 es2 tr1 y, es' = es1 ++ es2 → Path lib x es1 tr1 y → ¬ y.Loads a) :
    LeashOf x'.world.sh.link a = LeashOf x.world.sh.link a := by
  induction h' with
  | nil => rfl
  | @snoc es1 tr1 y y' h1 e he ih =>
    rw [← ih (Nat.lt_of_le_of_lt (step_ins he).2 hN) (fun e' a0 id hm => hq e' a0 id (List.mem_append_left _ hm))
      (fun es2 es3 tr2 z hz => hl es2 (es3 ++ [e]) tr2 z (by rw [hz, List.append_assoc]))]
    refine Decidable.byContradiction (fun hc => ?_)
    obtain ⟨id, _, ⟨a0, h2, h3⟩ | ⟨_, h2, _⟩⟩ := C111_moves S R (h.append h1) he hN a hc
    · exact hq e a0 id (by simp) h2 h3
    · exact hl es1 [e] tr1 y rfl h1 h2

/-- The position of a peer at any moment of any execution is the one that it had when the program was started, or a block that this peer named
in a message. -/
theorem C111_position (S : Serving g N lk) (R : Peers.Reachable lib r) (h : Path lib (Sys.start D cfg r.db fs seeds lk listener) es tr x)
    (hN : Chains.Spec.inserts x.world.calls < N) (a : Addr) (id : BlockID) (hl : LeashOf x.world.sh.link a = .ok id) :
    LeashOf lk a = .ok id ∨ ∃ D c p m a0, Ev.message D c p m ∈ es ∧ p.remote = some a0 ∧ a0.plain = a.plain ∧ id ∈ m.blockIDs := by
  induction h with
  | nil => exact Or.inl hl
  | @snoc es tr y y' h e he ih =>
    by_cases hm : LeashOf y'.world.sh.link a = LeashOf y.world.sh.link a
    · rw [hm] at hl
      rcases ih (Nat.lt_of_le_of_lt (step_ins he).2 hN) hl with h | ⟨D, c, p, m, a0, h1, h2⟩
      · exact Or.inl h
      · exact Or.inr ⟨D, c, p, m, a0, List.mem_append_left _ h1, h2⟩
    · obtain ⟨id', h1, h2⟩ := C111_moves S R h he hN a hm
      rw [hl] at h1; cases h1
      rcases h2 with ⟨a0, h3, h4⟩ | ⟨_, ⟨_, h4⟩, h3⟩
      · obtain ⟨D, c, p, m, rfl, h5, h6⟩ := about_message h3
        exact Or.inr ⟨D, c, p, m, a0, by simp, h5, h4.symm, h6⟩
      · obtain ⟨D, c, p, m, h5, h6, h7⟩ := named_message h3
        exact Or.inr ⟨D, c, p, m, _, List.mem_append_left _ h5, h6, h4.symm, h7⟩

/-- A peer that says nothing keeps the position that it had when the program was started. -/
theorem C111_silent (S : Serving g N lk) (R : Peers.Reachable lib r) (h : Path lib (Sys.start D cfg r.db fs seeds lk listener) es tr x)
    (hN : Chains.Spec.inserts x.world.calls < N) (a : Addr)
    (hq : ∀ D c p m a0, Ev.message D c p m ∈ es → p.remote = some a0 → a0.plain ≠ a.plain) :
    LeashOf x.world.sh.link a = LeashOf lk a := by
  obtain ⟨id, hid, _⟩ := (C105_store S R h (Nat.le_of_lt hN)).2.1.leash a
  rcases C111_position S R h hN a id hid with h' | ⟨D, c, p, m, a0, hm, hr, hp, _⟩
  · rw [hid, h']
  · exact absurd hp (hq D c p m a0 hm hr)

/-! ### a concrete execution -/

open Chains.Ex in
/-- In the execution of the examples for C107 the position of 10.0.0.2 moves when a block of this peer arrives (the event 22), and when the loader
makes its calls in the synchronisation with this peer (the event 30).  A block of 10.0.0.3 after that moves the position of 10.0.0.3 and
no other. -/
example :
    let at' := fun es => (Ex.at' es).world.sh.link
    let es := Ex.opening ++ Ex.loading ++ [.message .good (Loading.Ex.ctx 120) Services.Ex.p3 (.block (some (blk 1 0)))]
    let other := Addr.v4 ⟨[10, 0, 0, 3], rfl⟩
    (∃ tr, Path Peers.Ex.lib Ex.begin es tr (Ex.at' es)) ∧ Serving g0 1000 l0 ∧ Peers.Reachable Peers.Ex.lib (Peers.Ex.run []) ∧
    Chains.Spec.inserts (Ex.at' es).world.calls < 1000 ∧
    (LeashOf (at' (es.take 22)) Loading.Ex.peer, es[22]?.bind Ev.about, LeashOf (at' (es.take 23)) Loading.Ex.peer) =
      (.ok (bid 0), some (Loading.Ex.peer, bid 1), .ok (bid 1)) ∧
    (LeashOf (at' (es.take 30)) Loading.Ex.peer, LeashOf (at' (es.take 31)) Loading.Ex.peer) = (.ok (bid 2), .ok (bid 3)) ∧ es[30]? = some (.go .good) ∧
    (Ex.at' (es.take 30)).Loads Loading.Ex.peer ∧
    (LeashOf (at' (es.take 34)) other, LeashOf (at' es) other, LeashOf (at' es) Loading.Ex.peer) = (.ok (bid 0), .ok (bid 1), .ok (bid 3)) := by
  refine ⟨Ex.at_path (by decide +kernel), Loading.Ex.serving 1000 (by decide), Peers.Ex.reach _, by decide +kernel, by decide +kernel, by decide +kernel,
    rfl, ⟨by decide +kernel, by decide +kernel⟩, by decide +kernel⟩

end Verif.Services.Fine
