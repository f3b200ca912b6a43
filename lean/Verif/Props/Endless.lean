import Verif.Services.EndlessTrue
import Verif.Services.EndlessEx
import Verif.Props.Settled
/-
Property C110: an honest peer that answers all requests is loaded in the end.
-/

set_option autoImplicit false

namespace Verif.Services.Fine

open Verif
open Verif.Chains (Addr BlockID ProtoBlock MicroInv Linkage LeashOf Forks Fork Env)
open Verif.Chains.Spec (Stored Truth Told Holds)
open Verif.Peers (Lib Registry Config AddrPort)
open Verif.Loading (Ctx Serving History TrueHistory Begun worth base Announced Faithful Sent)
open Verif.Loading.Fine (World Answer)
open Verif.KV (Fate)

variable {lib : Lib} {g : ProtoBlock} {N : Nat} {D : Loading.Fine.Disk} {cfg : Config} {r : Registry} {fs : Nat → Fate}
  {seeds : List (Option AddrPort)} {lk : Linkage} {listener : Bool} {es0 : List Ev} {tr : List Answer}
  {s s0 : Nat} {ch : List ProtoBlock} {peer : Addr} {T : Truth} {m : Sent} {run : Nat → Sys} {ev : Nat → Ev}

/-- The program runs without end, the goroutines work side by side in any order, but none is forgotten for ever.  The peer is honest and answers every request
at some time, before the thirty seconds are over.  The store works when its blocks arrive.  Then the synchronisation comes to its end: there
is a moment at which it has ended, all blocks of the history are stored, and the position of the peer is the last one.  No order
of the events makes the loader wait for ever, or ask for ever, or give the peer up. -/
theorem C110_ends (H : History ch) (S : Serving g N lk) (R : Peers.Reachable lib r)
    (h0 : Path lib (Sys.start D cfg r.db fs seeds lk listener) es0 tr (run 0)) (ht : (run 0).world.todo = none)
    (hb : Begun peer s s0 ch ((run 0).world.own.on (run 0).world.sh)) (ho : Opens (run 0) m) (E : Endless lib run ev)
    (hc : ∀ n, During run n → Civil peer s s0 ch (run n) (ev n)) (hu : ∀ n, NotYet run n → Undamaged peer (upto ev n))
    (hd : Diligent run ev) (hr : Responsive lib peer m run ev) (hN : ∀ n, NotYet run n → Chains.Spec.inserts (run n).world.calls < N) :
    ∃ n, NotYet run n ∧ (run n).world.todo = none ∧ (run n).world.own.active = false ∧
      (∀ y, y ∈ ch → Stored (run n).world.sh.link.db y.id) ∧ ∃ b, ch.getLast? = some b ∧ LeashOf (run n).world.sh.link peer = .ok b.id := by
  obtain ⟨n, h1, h2⟩ := ends H S (start_reachable R D cfg fs seeds) h0.run ht hb.starts ho E hc (fun n D c q m b hd he =>
    hu (n + 1) (fun i hi => hd i (by omega)) D c q m b (by rw [upto_succ, he]; simp)) hd hr hN
  have hS := E.side hc n h1
  obtain ⟨_, _, hact, hrest⟩ := C107_ends H S R h0 ht hb hS (hN n h1)
  have hto : (run n).world.todo = none := by
    cases hw : (run n).world.todo with
    | none => rfl
    | some p => have := hact (by rw [hw]; simp); rw [h2] at this; cases this
  rcases hrest hto with ⟨h, _⟩ | ⟨_, h⟩
  · rw [h2] at h; cases h
  · exact ⟨n, h1, hto, h2, h⟩

/-- The whole way: nobody lies, the peer answers honestly and answers everything.  Then there is a moment from which on, until the next event,
every report of the forks that includes the peer has it in the entry of the last block of its history, with the height, score, time
and generator of that block. -/
theorem C110_reported (H : TrueHistory T g ch) (hT : Told T g lk) (S : Serving g N lk) (R : Peers.Reachable lib r)
    (h0 : Path lib (Sys.start D cfg r.db fs seeds lk listener) es0 tr (run 0)) (ht0 : (run 0).world.todo = none)
    (hb : Begun peer s (base g) ch ((run 0).world.own.on (run 0).world.sh)) (ho : Opens (run 0) m) (E : Endless lib run ev)
    (hc : ∀ n, During run n → Patient peer s ch (run n) (ev n)) (hsi : ∀ n, NotYet run n → Sincere T (es0 ++ upto ev n))
    (hu : ∀ n, NotYet run n → Undamaged peer (upto ev n))
    (hd : Diligent run ev) (hr : Responsive lib peer m run ev) (hN : ∀ n, NotYet run n → Chains.Spec.inserts (run n).world.calls < N)
    (h2 : 2 ≤ ch.length) (hli : Chains.Listed peer) (hpl : peer = peer.plain) :
    ∃ n b, ch.getLast? = some b ∧ (run n).world.own.active = false ∧
      ∀ (env : Env) (filter : List Addr), (filter = [] ∨ peer ∈ filter) → ∀ ks, Forks env (run n).world.sh.link.db filter = .ok ks →
        ∃ f, f ∈ ks ∧ (∀ f', f' ∈ ks → (peer ∈ f'.peers ↔ f' = f)) ∧ f.headBlock = b.id ∧ f.headHeight.toNat = ch.length ∧
          f.score = s ∧ f.headTimestamp = b.timestamp ∧ some f.headGenerator = b.generator := by
  have hal := E.along hc
  have hci := E.civil H hT S R h0 hc hsi hN
  obtain ⟨n, hbe, _, hact, _, b, hlast, _⟩ := C110_ends H.history S R h0 ht0 hb ho E hci hu hd hr hN
  refine ⟨n, b, hlast, hact, fun env filter hfi ks hf => ?_⟩
  obtain ⟨b', f, hb', h⟩ := C107_reported H hT S R h0 ht0 hb (hal n hbe) (hsi n hbe) (hN n hbe) hact h2 hli hpl env filter hfi hf
  cases hlast.symm.trans hb'
  exact ⟨f, h⟩

/-! ### a concrete execution -/

/-- The execution of the examples for C107 and C109, followed by pings without end, meets the further hypotheses.  The synchronisation ends at
the event 22, not before. -/
example :
    Ex.runs 0 = Ex.at' Ex.opening ∧ Endless Peers.Ex.lib Ex.runs Ex.evs ∧
    (∀ n, During Ex.runs n → Patient Loading.Ex.peer Services.Ex.height Loading.Ex.chain (Ex.runs n) (Ex.evs n)) ∧
    (∀ n, NotYet Ex.runs n → Sincere Services.Ex.truth (Ex.opening ++ upto Ex.evs n)) ∧ (∀ n, NotYet Ex.runs n → Undamaged Loading.Ex.peer (upto Ex.evs n)) ∧
    Diligent Ex.runs Ex.evs ∧ Responsive Peers.Ex.lib Loading.Ex.peer ⟨100 * Peers.second, Peers.Ex.conn 65, .getBlockIds [Chains.Ex.bid 0]⟩ Ex.runs Ex.evs ∧
    (∀ n, NotYet Ex.runs n → Chains.Spec.inserts (Ex.runs n).world.calls < 1000) ∧ NotYet Ex.runs 22 ∧ (Ex.runs 22).world.own.active = false := by
  refine ⟨rfl, Ex.endless, fun n hn => ?_, fun n hn => ?_, fun n hn => ?_, Ex.diligent, ?_, fun n hn => ?_, fun i hi => ?_, Ex.ended⟩
  · exact (Ex.along.along Ex.endless rfl Ex.upto_loading).2 n (Ex.during hn)
  · intro D c p m hm
    refine Ex.sincere D c p m ?_
    rcases List.mem_append.mp hm with h | h
    · exact List.mem_append_left _ h
    · obtain ⟨i, _, he⟩ := List.mem_map.mp h
      rcases Ex.evs_mem i with h | h
      · rw [he] at h; exact List.mem_append_right _ h
      · rw [he] at h; cases h
  · intro D c q m b hm
    refine Ex.undamaged D c q m b ?_
    obtain ⟨i, _, he⟩ := List.mem_map.mp hm
    rcases Ex.evs_mem i with h | h
    · rw [he] at h; exact h
    · rw [he] at h; cases h
  · refine Responsive.of Ex.endless Ex.ended ?_
    rw [Ex.upto_loading]
    exact Ex.settles_sound _ (by decide +kernel)
  · have h : ∀ n, n < 23 → Chains.Spec.inserts (Ex.at' (Ex.opening ++ Ex.loading.take n)).world.calls < 1000 := by decide +kernel
    rw [Ex.runs_at n (Ex.notYet hn)]
    exact h n (Nat.lt_succ_of_le (Ex.notYet hn))
  · have h : ∀ n, n < 22 → (Ex.at' (Ex.opening ++ Ex.loading.take n)).world.own.active = true := by decide +kernel
    rw [Ex.runs_at i (Nat.le_of_lt hi)]
    exact h i hi

end Verif.Services.Fine
