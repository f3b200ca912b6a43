import Verif.Services.Examples
import Verif.Props.Dialing
/-
Properties C52-C54: the message filter, shutdown and reconnection.
-/

set_option autoImplicit false

namespace Verif.Props

open Verif
open Verif.Chains (Addr BytesN BlockID ProtoBlock)
open Verif.Peers (Conn Registry Lib AddrPort Config PeerOf second is4)
open Verif.Loading (Ctx Loader)
open Verif.KV (Fate)
open Verif.Services

variable {lib : Lib} {s s' : Prog}

/-! ### C52 -/

/-- what a peer could notice, or the program remembers: the package, the messages and closed connections, the registry and
the store -/
def NoEffect (l : Loader) (h : Handled) : Prop :=
  h.pkg = none ∧ h.out = [] ∧ h.l.reg.db = l.reg.db ∧ h.l.reg.connections = l.reg.connections ∧ h.l.link.db = l.link.db

/-- The filter skips a kind of message exactly when the distributor would do nothing with any message of that kind, in any
state of the program and whatever the circumstances. -/
theorem C52_filter (m : Message) :
    skip m.kind = true ↔ ∀ lib s c p m', Reached lib s → m'.kind = m.kind → ∃ h, handleMessage lib c s.l p m' = .ok h ∧ NoEffect s.l h := by
  constructor
  · intro hs lib s c p m' _ hk
    rw [← hk] at hs
    refine ⟨{ l := s.l }, ?_, rfl, rfl, rfl, rfl, rfl⟩
    cases m' <;> first | rfl | (cases hs)
  · intro h
    cases hsk : skip m.kind with
    | true => rfl
    | false =>
      exfalso
      have no : ∀ (es : List Ev) (p : Sender) (m' : Message), m'.kind = m.kind →
          (handleMessage Peers.Ex.lib (Loading.Ex.ctx 9) (Ex.after es).l p m').map
            (fun x => decide (x.pkg = none ∧ x.out = [] ∧ x.l.reg.db = (Ex.after es).l.reg.db ∧ x.l.link.db = (Ex.after es).l.link.db))
            = .ok false → False := by
        intro es p m' hk hf
        obtain ⟨x, hx, h1, h2, h3, _, h5⟩ := h Peers.Ex.lib _ (Loading.Ex.ctx 9) p m' (Ex.reached es) hk
        rw [hx] at hf
        simp [Except.map, h1, h2, h3, h5] at hf
      cases m with
      | getPeers => exact no [] Ex.p2 .getPeers rfl (by decide +kernel)
      | peers _ => exact no [] Ex.p2 (.peers [some ⟨Loading.Ex.peer3, 6868⟩]) rfl (by decide +kernel)
      | signatures _ => exact no [] Ex.p2 (.signatures []) rfl (by decide +kernel)
      | block _ => exact no [] Ex.p2 (.block (some (Chains.Ex.blk 1 0))) rfl (by decide +kernel)
      | score _ => exact no [] Ex.p2 (.score [1]) rfl (by decide +kernel)
      | microBlockInv _ =>
        exact no [.message (Loading.Ex.ctx 1) Ex.p2 (.block (some (Chains.Ex.blk 1 0)))] Ex.p2
          (.microBlockInv (some ⟨Chains.Ex.bid 2, Chains.Ex.bid 1⟩)) rfl (by decide +kernel)
      | pbBlock _ => exact no [] Ex.p2 (.pbBlock (some (Chains.Ex.blk 1 0))) rfl (by decide +kernel)
      | blockIds _ => exact no [] Ex.p2 (.blockIds [Chains.Ex.bid 1]) rfl (by decide +kernel)
      | _ => exact absurd hsk (by decide)

/-- The filter loses nothing: the program behaves as if there were none. -/
theorem C52_lossless (lib : Lib) (c : Ctx) (l : Loader) (p : Sender) (m : Message) :
    receive lib c l p m = handleMessage lib c l p m := receive_eq lib c l p m

/-- Every content id with a name is in the table of the filter. -/
theorem C52_table (k : Kind) : (discarded.lookup k).isSome = true ↔ ∀ b, k ≠ .unnamed b := by
  cases k with
  | unnamed b =>
    constructor
    · intro h; cases h
    · intro h; exact absurd rfl (h b)
  | _ => exact ⟨fun _ b => (by simp), fun _ => rfl⟩

example : skip Message.transaction.kind = true ∧ skip (Message.score []).kind = false := by decide

/-! ### C53 -/

/-- The claim is false.  After the signal the loader may leave while the distributor waits for it to take a package: then the
program never exits, whatever happens. -/
theorem C53_deadlock : ∃ s, Reached Peers.Ex.lib s ∧ s.cancelled = true ∧ ∀ s', Reaches Peers.Ex.lib s s' → s'.main ≠ .exited := by
  refine ⟨Ex.after (Ex.joined ++ [.message (Loading.Ex.ctx 5) Ex.p2 (.blockIds [Chains.Ex.bid 1]), .signal, .loaderExit]),
    Ex.reached _, by decide +kernel, ?_⟩
  intro s' h
  have hd : (Ex.after (Ex.joined ++ [.message (Loading.Ex.ctx 5) Ex.p2 (.blockIds [Chains.Ex.bid 1]), .signal, .loaderExit])).dist
      = .sending (.ids Loading.Ex.peer [Chains.Ex.bid 1]) := by decide +kernel
  exact (stuck_reaches (by decide +kernel) ⟨by decide +kernel, _, hd⟩ h).1

/-- Whenever the loader has left and the distributor waits for it, the program never exits. -/
theorem C53_stuck (hm : s.main ≠ .exited) (hs : s.Stuck) (h : Reaches lib s s') : s'.main ≠ .exited := (stuck_reaches hm hs h).1

/-- When the network listener could not be opened, the shutdown ends in a crash instead of an exit. -/
theorem C53_no_listener (R : Reached lib s) (hl : s.lsn = .failed) :
    (∀ s', Reaches lib s s' → s'.main ≠ .exited) ∧
    ∀ s', Reaches lib s s' → s'.main = .api → s'.apiUp = false → s'.lsn = .failed → s'.step lib .main = some goPanic := by
  have hw : s.main = .waiting ∨ s.main = .api := by
    have L := R.life
    cases hm : s.main with
    | waiting => exact Or.inl rfl
    | api => exact Or.inr rfl
    | _ => exact absurd hl (L.closed (by rw [hm]; rfl)).2.2
  refine ⟨fun s' h => ?_, fun s' _ hm hu hl' => by simp [Prog.step, Prog.mainStep, hm, hu, hl']⟩
  rcases failed_reaches hw hl h with h | h <;> simp [h]

/-- that can happen -/
theorem C53_crash : (Ex.afterL [.listen false, .signal, .main, .apiExit]).lsn = .failed ∧
    (Ex.afterL [.listen false, .signal, .main, .apiExit]).step Peers.Ex.lib .main = some goPanic := by
  have hm : (Ex.afterL [.listen false, .signal, .main, .apiExit]).main = .api := by decide +kernel
  have hu : (Ex.afterL [.listen false, .signal, .main, .apiExit]).apiUp = false := by decide +kernel
  have hl : (Ex.afterL [.listen false, .signal, .main, .apiExit]).lsn = .failed := by decide +kernel
  exact ⟨hl, by simp [Prog.step, Prog.mainStep, hm, hu, hl]⟩

/-- What holds.  After the signal the program can exit, from every state in which the listener is not missing and a package
that the distributor is sending is taken by the loader.

Missing: "in every schedule", which is false (`C53_deadlock`, `C53_crash`). -/
theorem C53_exit_partial (R : Reached lib s) (hc : s.cancelled = true) (hm : s.main ≠ .exited) (hl : s.lsn ≠ .failed)
    (hd : ∀ p, s.dist = .sending p → s.loaderUp = true ∧ ∃ c l', takePkg c s.l p = .ok l') :
    ∃ s', Reaches lib s s' ∧ s'.main = .exited := by
  -- let the listener start
  have h1 : ∃ s1, Reaches lib s s1 ∧ s1.cancelled = true ∧ s1.main ≠ .exited ∧ s1.lsn ≠ .starting ∧ s1.lsn ≠ .failed ∧
      s1.dist = s.dist ∧ s1.loaderUp = s.loaderUp ∧ s1.l = s.l := by
    by_cases hs : s.lsn = .starting
    · exact ⟨{ s with lsn := .listening }, .step .refl (.listen true) (by simp [Prog.step, guarded, hm, hs]), hc, hm, by simp, by simp,
        rfl, rfl, rfl⟩
    · exact ⟨s, .refl, hc, hm, hs, hl, rfl, rfl, rfl⟩
  obtain ⟨s1, r1, hc1, hm1, hs1, hf1, e1, e2, e3⟩ := h1
  -- let the loader take the package
  cases hds : s1.dist with
  | ready =>
    obtain ⟨s', r', hx⟩ := can_exit (lib := lib) (R.reaches r1).life hc1 hs1 hf1 (by rw [hds]; simp)
    exact ⟨s', r1.trans r', hx⟩
  | exited =>
    obtain ⟨s', r', hx⟩ := can_exit (lib := lib) (R.reaches r1).life hc1 hs1 hf1 (by rw [hds]; simp)
    exact ⟨s', r1.trans r', hx⟩
  | sending p =>
    obtain ⟨hu, c, l', hl'⟩ := hd p (by rw [← e1, hds])
    have hst : s1.step lib (.take c) = some (.ok { s1 with l := l', dist := .ready, taken := s1.taken ++ [p] }) := by
      simp [Prog.step, guarded, hm1, hds, e2, hu, e3, hl']
    have r2 := Reaches.step r1 (.take c) hst
    obtain ⟨s', r', hx⟩ := can_exit (lib := lib) (R.reaches r2).life hc1 hs1 hf1 (by simp)
    exact ⟨s', r2.trans r', hx⟩

/-- The shutdown takes no more than eleven steps of the goroutines that leave, in every schedule, and as long as it is not
done one of them can leave, unless the distributor waits for the loader or the listener is missing.

Missing: the excepted cases, where the claim is false. -/
theorem C53_steps_partial (R : Reached lib s) {es : List Ev} (h : Path lib s es s') :
    (es.filter Ev.closing).length ≤ 11 ∧
    (s'.cancelled = true → s'.main ≠ .exited → s'.lsn ≠ .starting → s'.lsn ≠ .failed → (∀ p, s'.dist ≠ .sending p) →
      ∃ e s'', e.closing = true ∧ s'.step lib e = some (.ok s'')) := by
  constructor
  · have h1 : (es.filter Ev.closing).length + s'.rank ≤ s.rank := by
      clear R
      induction h with
      | nil => simp
      | snoc _ e he ih =>
        have := rank_step he
        rw [List.filter_append, List.length_append]
        cases hcl : e.closing <;> simp [hcl] at this ⊢ <;> omega
    have h2 : s.rank ≤ 11 := by
      unfold Prog.rank
      have : s.main.rank ≤ 6 := by cases s.main <;> simp [Main.rank]
      have : s.lsn.rank ≤ 1 := by cases s.lsn <;> simp [Lsn.rank]
      repeat' split
      all_goals omega
    omega
  · intro hc hm hl hf hd
    obtain ⟨e, s'', hcl, hs, _⟩ := closing_enabled (lib := lib) (R.reaches h.reaches).life hc hm hl hf hd
    exact ⟨e, s'', hcl, hs⟩

/-- two peers connected, a package on its way, and the signal: the program can exit -/
example : ∃ s', Reaches Peers.Ex.lib
    (Ex.after (Ex.joined ++ [.message (Loading.Ex.ctx 5) Ex.p2 (.blockIds [Chains.Ex.bid 1]), .signal])) s' ∧ s'.main = .exited := by
  have hd : (Ex.after (Ex.joined ++ [.message (Loading.Ex.ctx 5) Ex.p2 (.blockIds [Chains.Ex.bid 1]), .signal])).dist
      = .sending (.ids Loading.Ex.peer [Chains.Ex.bid 1]) := by decide +kernel
  refine C53_exit_partial (Ex.reached _) (by decide +kernel) (by decide +kernel) (by decide +kernel) ?_
  intro p hp
  rw [hd] at hp
  cases hp
  refine ⟨by decide +kernel, Loading.Ex.ctx 6, ?_⟩
  have : ((takePkg (Loading.Ex.ctx 6) (Ex.after (Ex.joined ++ [.message (Loading.Ex.ctx 5) Ex.p2 (.blockIds [Chains.Ex.bid 1]), .signal])).l
      (.ids Loading.Ex.peer [Chains.Ex.bid 1])).map (fun _ => ())) = .ok () := by decide +kernel
  revert this
  cases takePkg (Loading.Ex.ctx 6) (Ex.after (Ex.joined ++ [.message (Loading.Ex.ctx 5) Ex.p2 (.blockIds [Chains.Ex.bid 1]), .signal])).l
      (.ids Loading.Ex.peer [Chains.Ex.bid 1]) with
  | error e => intro h; cases h
  | ok l => exact fun _ => ⟨l, rfl⟩

/-! ### C54 -/

/-- The timer fires: exactly the addresses that are available at that time are dialled, and the timer is set again. -/
theorem C54_fires_partial (R : Reached lib s) (hm : s.main ≠ .exited) (hu : s.respawnUp = true) (ha : s.armed = true) (now : Int) :
    ∃ s' l, s.step lib (.respawn now false) = some (.ok s') ∧ s'.armed = true ∧ s'.respawnUp = true ∧ s'.dialled = s.dialled ++ l ∧
      (∀ ap, ap ∈ l ↔ is4 ap.addr = true ∧ ∃ p, PeerOf s.l.reg ap.addr = .ok p ∧ p.port = ap.port ∧
        p.state ≠ .hostile ∧ p.port ≠ 0 ∧ ap.addr ≠ s.l.reg.declared ∧ p.nextAttempt * second ≤ now ∧
        (¬ ∃ c, (ap.addr, c) ∈ s.l.reg.connections) ∧ ap.addr ∉ s.l.reg.pending) ∧
      (l.map (·.addr)).Nodup := by
  obtain ⟨r', l, h1, h2, h3⟩ := Peers.C29_available R.inv.loader.inv.reg now
  refine ⟨s.respawn now false, l, by simp [Prog.step, guarded, hm, hu, ha], ?_, ?_, ?_, h2, h3⟩ <;>
    simp [Prog.respawn, h1, hu]

/-- As long as no read of the stored peers failed, the timer is set: with `C54_fires_partial`, dialling goes on again and again
until the shutdown.

Missing: after a failed read, where the claim is false (`C54_stops`). -/
theorem C54_armed_partial (cfg : Config) (r : Registry) (hr : Peers.Reachable lib r) (fs : Nat → Fate) (seeds : List (Option AddrPort)) (lk : Chains.Linkage)
    (ls : Bool) {es : List Ev} (h : Path lib (Prog.start cfg r.db fs seeds lk ls) es s) (hn : ∀ now, Ev.respawn now true ∉ es) :
    s.armed = true := by
  suffices Reached lib s ∧ s.armed = true from this.2
  induction h with
  | nil => exact ⟨⟨cfg, r, fs, seeds, lk, ls, hr, .refl⟩, rfl⟩
  | @snoc es s1 s2 _ e he ih =>
    obtain ⟨R, ha⟩ := ih (fun now hm => hn now (List.mem_append_left _ hm))
    refine ⟨R.step he, ?_⟩
    obtain ⟨hm, hc⟩ := step_case he
    cases hc with
    | respawn now rf hu _ =>
      cases rf with
      | true => exact absurd (List.mem_append_right _ (List.mem_singleton.mpr rfl)) (hn now)
      | false =>
        obtain ⟨s', l, h1, h2, _⟩ := C54_fires_partial R hm hu ha now
        rw [h1] at he; cases he; exact h2
    | _ => exact ha

/-- The claim is false after a failed read: the program goes on, but it never dials again. -/
theorem C54_stops (hm : s.main ≠ .exited) (hu : s.respawnUp = true) (ha : s.armed = true) (now : Int) :
    ∃ s1, s.step lib (.respawn now true) = some (.ok s1) ∧ ∀ s', Reaches lib s1 s' → s'.dialled = s.dialled := by
  refine ⟨{ s with armed := false }, by simp [Prog.step, guarded, hm, hu, ha, Prog.respawn], fun s' h => ?_⟩
  suffices s'.armed = false ∧ s'.dialled = s.dialled from this.2
  induction h with
  | refl => exact ⟨rfl, rfl⟩
  | step _ e he ih =>
    obtain ⟨_, hc⟩ := step_case he
    cases hc with
    | respawn now rf _ ha => rw [ih.1] at ha; cases ha
    | _ => exact ih

/-- the seed peer is dialled, and again ten minutes after the dial failed -/
example : (Ex.after [.respawn (10 * second) false, .suggest .ok (10 * second) Loading.Ex.peer,
      .giveUp .ok (11 * second) Loading.Ex.peer, .respawn (20 * second) false, .respawn (700 * second) false]).dialled =
    [⟨Loading.Ex.peer, 6868⟩, ⟨Loading.Ex.peer, 6868⟩] := by decide +kernel

end Verif.Props
