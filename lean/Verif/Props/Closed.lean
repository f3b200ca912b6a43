import Verif.Services.Closed
import Verif.Services.Examples
import Verif.Services.FaultyEx
/-
Property C136: what is written to a connection that has been closed.
-/

set_option autoImplicit false

namespace Verif.Services

open Verif
open Verif.Chains (Addr)
open Verif.Peers (Conn Lib second)

variable {lib : Lib} {s0 s s' : Prog} {es : List Ev} {e : Ev}

/-- After a connection has been closed, no ping is sent to it: whatever happens, in whatever order, and whatever writes fail.

Missing: that nothing else is sent to it; there the claim is false (`C136_list`, `C136_loader`).  And that no read fails; otherwise the claim is
false too (`C136_failed_read`). -/
theorem C136_pings_partial (R : Reached lib s0) (h0 : s0.l.reg.connections = []) (ho : s0.out = []) (h : Path lib s0 es s) (O : Orderly es) :
    ∀ o1 cn o2, s.out = o1 ++ .close cn :: o2 → Out.ping cn ∉ o2 :=
  (apart R h0 ho h O).spared

/-- No synchronisation is begun over a connection that has been closed.

Missing: this is so only if the loader is not interrupted while it chooses the peer; otherwise it is false (`C136_begun_late`). -/
theorem C136_begun_partial (R : Reached lib s0) (h0 : s0.l.reg.connections = []) (ho : s0.out = []) (h : Path lib s0 es s) (O : Orderly es)
    (he : s.step lib e = some (.ok s')) (hn : s.l.active = false) (ha : s'.l.active = true) :
    ∃ cn, s'.l.obj.peer.conn = some cn ∧ Out.close cn ∉ s.out := by
  have R1 := R.reaches h.reaches
  have hl := step_loader (Loading.Ex.ctx 0) he
  cases hle : s.loaderEv (Loading.Ex.ctx 0) e with
  | none =>
    rw [hle] at hl
    have hl : s'.l = s.l := hl
    rw [hl, hn] at ha
    cases ha
  | some le =>
    rw [hle] at hl
    obtain ⟨_, ps, p, hc, hp, _, hpe, _⟩ := Loading.started R1.inv.loader hn hl ha
    obtain ⟨b, v, cn, rfl, _, hcn⟩ := Loading.connections_mem R1.inv.loader.inv.reg.inv hc p hp
    exact ⟨cn, by rw [hpe], (apart R h0 ho h O).listedOpen _ cn hcn⟩

/-! ### where the claim is false -/

/-- peer 10.0.0.2 asks for peers; the message was on its way when its connection broke -/
def Ex.late : List Ev := Ex.joined ++ [.broken (Loading.Ex.ctx 5) Ex.p2, .message (Loading.Ex.ctx 6) Ex.p2 .getPeers]

/-- A message that was on its way when the connection broke is answered over the connection that has been closed. -/
theorem C136_list : Path Peers.Ex.lib Ex.start Ex.late (Ex.after Ex.late) ∧
    (Ex.after Ex.late).out.map (fun o => match o with | .close c => (0, c) | .ping c => (1, c) | .peersTo c _ => (2, c)) =
      [(0, Ex.p2.conn), (2, Ex.p2.conn)] := by
  refine ⟨?_, by decide +kernel⟩
  unfold Ex.after
  cases h : Ex.run Peers.Ex.lib Ex.start Ex.late with
  | none => exact absurd h (by decide +kernel)
  | some s => exact Ex.run_path h

/-- peer 10.0.0.2 is synchronised with, and its connection breaks -/
def Ex.halfway : List Ev :=
  Ex.joined ++ [.message (Loading.Ex.ctx 5) Ex.p2 (.score (be64 (2 ^ 63))), .timer (Loading.Ex.ctx 100), .broken (Loading.Ex.ctx 101) Ex.p2]

/-- its list of ids was on its way -/
def Ex.onwards : List Ev :=
  Ex.halfway ++ [.message (Loading.Ex.ctx 102) Ex.p2 (.blockIds [Chains.Ex.bid 0, Chains.Ex.bid 1]), .take (Loading.Ex.ctx 102)]

/-- The loader does not learn that the connection of its peer was closed, and goes on writing to it. -/
theorem C136_loader : Path Peers.Ex.lib Ex.start Ex.onwards (Ex.after Ex.onwards) ∧
    (Ex.after Ex.halfway).out = [.close Ex.p2.conn] ∧
    (Ex.after Ex.halfway).l.out.map (·.to) = [Ex.p2.conn] ∧ (Ex.after Ex.onwards).l.out.map (·.to) = [Ex.p2.conn, Ex.p2.conn] := by
  refine ⟨?_, by decide +kernel, by decide +kernel, by decide +kernel⟩
  unfold Ex.after
  cases h : Ex.run Peers.Ex.lib Ex.start Ex.onwards with
  | none => exact absurd h (by decide +kernel)
  | some s => exact Ex.run_path h

/-- If the record of the peer cannot be read when its connection breaks, the connection is closed but stays on the list, and is pinged. -/
theorem C136_failed_read : ∃ tr x,
    Fine.Path Peers.Ex.lib Fine.Ex.begin (Fine.Ex.joined ++ [.broken Fine.Ex.noPeers (Loading.Ex.ctx 5) Ex.p2, .ping (Loading.Ex.ctx 6)]) tr x ∧
    x.out = [.close Ex.p2.conn, .ping Ex.p2.conn] := by
  have key : (Fine.Ex.after (Fine.Ex.joined ++ [.broken Fine.Ex.noPeers (Loading.Ex.ctx 5) Ex.p2, .ping (Loading.Ex.ctx 6)])).any
      (fun s => decide (s.out = [.close Ex.p2.conn, .ping Ex.p2.conn])) = true := by decide +kernel
  cases hs : Fine.Ex.after (Fine.Ex.joined ++ [.broken Fine.Ex.noPeers (Loading.Ex.ctx 5) Ex.p2, .ping (Loading.Ex.ctx 6)]) with
  | none => rw [hs] at key; cases key
  | some s =>
    rw [hs] at key
    obtain ⟨tr, ht⟩ := Fine.Ex.after_path hs
    exact ⟨tr, s, ht, of_decide_eq_true key⟩

/-! ### a concrete execution -/

/-- two peers are connected, one breaks, and the timer of the pings fires before and after; then a synchronisation begins with the other one -/
def Ex.parted : List Ev :=
  Ex.joined ++ [.ping (Loading.Ex.ctx 5), .broken (Loading.Ex.ctx 6) Ex.p2, .ping (Loading.Ex.ctx 7),
    .message (Loading.Ex.ctx 8) Ex.p3 (.score (be64 (2 ^ 63)))]

theorem Ex.parted_orderly : Orderly Ex.parted := by
  refine ⟨by decide +kernel, ?_, ?_⟩
  · intro c p c' p' h1 h2 hc
    simp only [Ex.parted, Ex.joined, List.cons_append, List.nil_append, List.mem_cons, List.not_mem_nil, or_false, reduceCtorEq, false_or,
      Ev.connected.injEq, Ev.broken.injEq] at h1 h2
    obtain ⟨_, rfl⟩ := h2
    rcases h1 with ⟨_, rfl⟩ | ⟨_, rfl⟩
    · rfl
    · exact absurd hc (by decide +kernel)
  · intro pre c p post e
    rcases pre with _ | ⟨_, _ | ⟨_, _ | ⟨_, _ | ⟨_, _ | ⟨_, _ | ⟨_, _ | ⟨_, _ | ⟨_, pre⟩⟩⟩⟩⟩⟩⟩⟩ <;>
      first
        | (cases e; done)
        | (cases e; decide +kernel)
        | (have := congrArg List.length e; simp [Ex.parted, Ex.joined] at this)

example : Reached Peers.Ex.lib Ex.start ∧ Ex.start.l.reg.connections = [] ∧ Ex.start.out = [] ∧
    Path Peers.Ex.lib Ex.start Ex.parted (Ex.after Ex.parted) ∧ Orderly Ex.parted ∧
    (Ex.after Ex.parted).out.drop 2 = [.close Ex.p2.conn, .ping Ex.p3.conn] ∧ Out.ping Ex.p2.conn ∈ (Ex.after Ex.parted).out.take 2 ∧
    (Ex.after Ex.parted).l.active = false ∧ (Ex.after (Ex.parted ++ [.timer (Loading.Ex.ctx 100)])).l.active = true := by
  refine ⟨Ex.reached_start, by decide +kernel, by decide +kernel, ?_, Ex.parted_orderly, by decide +kernel, by decide +kernel, by decide +kernel,
    by decide +kernel⟩
  unfold Ex.after
  cases h : Ex.run Peers.Ex.lib Ex.start Ex.parted with
  | none => exact absurd h (by decide +kernel)
  | some s => exact Ex.run_path h

end Verif.Services
