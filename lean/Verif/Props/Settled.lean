import Verif.Services.SettledLemmas
import Verif.Services.SettledEx
import Verif.Props.Side
/-
Property C109: an honest peer that has answered all it was asked for has been loaded completely.
-/

set_option autoImplicit false

namespace Verif.Services.Fine

open Verif
open Verif.Chains (Addr BlockID ProtoBlock MicroInv Linkage LeashOf Forks Fork Env)
open Verif.Chains.Spec (Stored Truth Told Holds)
open Verif.Peers (Lib Registry Config AddrPort)
open Verif.Loading (Ctx Serving History TrueHistory Begun worth base Announced Faithful Sent)
open Verif.Loading.Fine (World Answer ends_sync)
open Verif.KV (Fate)

variable {lib : Lib} {g : ProtoBlock} {N : Nat} {D : Loading.Fine.Disk} {cfg : Config} {r : Registry} {fs : Nat → Fate}
  {seeds : List (Option AddrPort)} {lk : Linkage} {listener : Bool} {es0 es : List Ev} {tr : List Answer} {x0 x : Sys}
  {s s0 : Nat} {ch : List ProtoBlock} {peer : Addr} {T : Truth} {m : Sent}

/-- During a synchronisation with an honest peer the goroutines work side by side.  At some moment the peer has answered every request that was sent to it since
the first one, the distributor and the loader have passed on and handled what was answered.  Then the synchronisation has ended: all blocks of the history
are stored, and the position of the peer is the last one.  So the loader asks for all that it needs, and loses no answer: neither between the
distributor and the loader, nor because the answers come in another order, nor because the blocks were stored before. -/
theorem C109_settled (H : History ch) (S : Serving g N lk) (R : Peers.Reachable lib r)
    (h0 : Path lib (Sys.start D cfg r.db fs seeds lk listener) es0 tr x0) (ht : x0.world.todo = none)
    (hb : Begun peer s s0 ch (x0.world.own.on x0.world.sh)) (ho : Opens x0 m) (h : Side lib peer s s0 ch x0 es x)
    (hN : Chains.Spec.inserts x.world.calls < N) (hu : Undamaged peer es) (hr : x.world.todo = none) (hd : NothingHeld peer x)
    (hA : AllAnswered peer m.to (.said m :: talk lib x0 es)) :
    x.world.own.active = false ∧ (∀ y, y ∈ ch → Stored x.world.sh.link.db y.id) ∧
    ∃ b, ch.getLast? = some b ∧ LeashOf x.world.sh.link peer = .ok b.id := by
  have hR := start_reachable R D cfg fs seeds
  obtain ⟨T, hT⟩ := heeds_side H S hR h0.run ht hb.starts ho h hN hu
  have K := side_kept H S hR h0.run ht hb.starts h (Nat.le_of_lt hN)
  have ha := waits_unanswered hb.who ho.conn K h hT hr hd hA
  obtain ⟨_, _, _, hrest⟩ := C107_ends H S R h0 ht hb h hN
  rcases hrest hr with ⟨h1, _⟩ | h1
  · rw [ha] at h1; cases h1
  · exact h1

/-- Every synchronisation that the timer starts opens with a request like this, on the connection that the synchronisation uses, and the time
of the request is the one from which the thirty seconds are counted. -/
theorem C109_opens (S : Serving g N lk) (R : Peers.Reachable lib r)
    (h0 : Path lib (Sys.start D cfg r.db fs seeds lk listener) es0 tr x0) (hn : x0.world.own.active = false) (c : Ctx) {x1 : Sys}
    (h1 : x0.step lib (.timer c) = some (.ok x1)) (h : Busy lib x1 es x) (hN : Chains.Spec.inserts x.world.calls ≤ N) (ht : x.world.todo = none)
    (ha : x.world.own.active = true) : ∃ m, Opens x m ∧ x.world.own.out = x0.world.own.out ++ [m] := by
  have hp1 := h0.snoc _ h1
  obtain ⟨_, hcase⟩ := step_case h1
  have hx1 : x1.world = x0.world.receive c .timer := by
    cases hcase with
    | timer c hw => rfl
    | handled hd hr => cases hr
  have hE := busy_along S R hp1 (p := Loading.Fine.handle c x0.world.own .timer) (by rw [hx1]; rfl)
    (by rw [hx1]; exact ends_sync (lib := lib) (g := g) c (x := x0.world.sh) hn) h hN
  rcases hE with ⟨q, hq, _⟩ | ⟨_, hE⟩
  · rw [ht] at hq; cases hq
  · obtain ⟨_, _, m, req, e3, e4, e5, _, _⟩ := hE _ rfl ha
    exact ⟨m, ⟨by rw [e3]; simp, e5, e4⟩, e3⟩

/-- The whole way: nobody lied, the peer answered honestly, and it has answered all it was asked for.  Then every report of the forks that includes the peer
has it in the entry of the last block of its history, with the height, score, time and generator of that block. -/
theorem C109_reported (H : TrueHistory T g ch) (hT : Told T g lk) (S : Serving g N lk) (R : Peers.Reachable lib r)
    (h0 : Path lib (Sys.start D cfg r.db fs seeds lk listener) es0 tr x0) (ht0 : x0.world.todo = none)
    (hb : Begun peer s (base g) ch (x0.world.own.on x0.world.sh)) (ho : Opens x0 m) (h : Along lib peer s ch x0 es x)
    (ht : Sincere T (es0 ++ es)) (hN : Chains.Spec.inserts x.world.calls < N) (hu : Undamaged peer es) (hr : x.world.todo = none)
    (hd : NothingHeld peer x) (hA : AllAnswered peer m.to (.said m :: talk lib x0 es)) (h2 : 2 ≤ ch.length)
    (hli : Chains.Listed peer) (hpl : peer = peer.plain) (env : Env) (filter : List Addr) (hfi : filter = [] ∨ peer ∈ filter)
    {ks : List Fork} (hf : Forks env x.world.sh.link.db filter = .ok ks) :
    ∃ b f, ch.getLast? = some b ∧ f ∈ ks ∧ (∀ f', f' ∈ ks → (peer ∈ f'.peers ↔ f' = f)) ∧ f.headBlock = b.id ∧ f.headHeight.toNat = ch.length ∧
      f.score = s ∧ f.headTimestamp = b.timestamp ∧ some f.headGenerator = b.generator :=
  C107_reported H hT S R h0 ht0 hb h ht hN
    (C109_settled H.history S R h0 ht0 hb ho (C107_truthful H hT S R h0 h ht (Nat.le_of_lt hN)) hN hu hr hd hA).1 h2 hli hpl env filter hfi hf

/-! ### a concrete execution -/

/-- The execution of the examples for C107 meets the further hypotheses: the request of the opening, the store works when blocks of the peer arrive, and at
the end all is answered.  Eight events before the end, all is answered too, and the loader rests, but the distributor still holds the last
block: the synchronisation has not ended. -/
example :
    Opens (Ex.at' Ex.opening) ⟨100 * Peers.second, Peers.Ex.conn 65, .getBlockIds [Chains.Ex.bid 0]⟩ ∧ Undamaged Loading.Ex.peer Ex.loading ∧
    (Ex.at' (Ex.opening ++ Ex.loading)).world.todo = none ∧ NothingHeld Loading.Ex.peer (Ex.at' (Ex.opening ++ Ex.loading)) ∧
    AllAnswered Loading.Ex.peer (Peers.Ex.conn 65)
      (.said ⟨100 * Peers.second, Peers.Ex.conn 65, .getBlockIds [Chains.Ex.bid 0]⟩ :: talk Peers.Ex.lib (Ex.at' Ex.opening) Ex.loading) ∧
    (let y := Ex.at' (Ex.opening ++ Ex.loading.take 14)
     AllAnswered Loading.Ex.peer (Peers.Ex.conn 65) (.said ⟨100 * Peers.second, Peers.Ex.conn 65, .getBlockIds [Chains.Ex.bid 0]⟩ ::
       talk Peers.Ex.lib (Ex.at' Ex.opening) (Ex.loading.take 14)) ∧
     y.world.todo = none ∧ y.dist = .sending (.block Loading.Ex.peer (Chains.Ex.blk 2 1)) ∧ y.world.own.active = true) := by
  have hd : (Ex.at' (Ex.opening ++ Ex.loading)).dist = .ready := by decide +kernel
  refine ⟨⟨by decide +kernel, by decide +kernel, by decide +kernel⟩, Ex.undamaged, by rfl, ⟨fun l h => ?_, fun b h => ?_⟩,
    Ex.settles_sound _ (by decide +kernel), Ex.settles_sound _ (by decide +kernel), by rfl, by decide +kernel, by decide +kernel⟩
  · rw [hd] at h; cases h
  · rw [hd] at h; cases h

end Verif.Services.Fine
