import Verif.Services.WholeSteps
import Verif.Services.WholeEx
import Verif.Loading.HonestTrue
import Verif.Props.Honest
import Verif.Props.TrueForks
/-
Property C97: what an honest peer has is loaded by the program and shown in its reports.
-/

set_option autoImplicit false

namespace Verif.Props

open Verif
open Verif.Chains (Addr BlockID ProtoBlock Linkage LeashOf Leashes Leash Forks Fork Env)
open Verif.Chains.Spec (Stored Truth Told Holds)
open Verif.Loading (Ctx Session History TrueHistory Begun Shares worth base Announced)
open Verif.Peers (Lib)
open Verif.Services

variable {lib : Lib} {g : ProtoBlock} {n s s0 : Nat} {ch : List ProtoBlock} {peer : Addr} {T : Truth}

/-- When the synchronisation of the program with an honest peer ends, all blocks of the history are stored and the position of
the peer is the last of them.  Until then the loader waits for ids or blocks of this peer. -/
theorem C97_ends (H : History ch) {p0 p : Prog} {es : List Ev} (h : Syncing lib g peer s s0 ch p0 n es p) :
    (p.l.active = true ∧ p.l.peerID = peer ∧ (p.l.obj.state = .waitingForIDs ∨ p.l.obj.state = .waitingForBlocks)) ∨
    (p.l.active = false ∧ (∀ x, x ∈ ch → Stored p.l.link.db x.id) ∧ ∃ b, ch.getLast? = some b ∧ LeashOf p.l.link peer = .ok b.id) :=
  Loading.C89_released H (h.session H).1

/-- The end can be reached by messages of the peer from every state of the synchronisation, as long as the program has not
been told to stop: nothing that happened before, and nothing that waits in the channel, can keep it from ending. -/
theorem C97_can_finish (H : History ch) {p0 p : Prog} {es : List Ev} {m : Nat} (hsh : Shares ch p0.l)
    (h : Syncing lib g peer s s0 ch p0 m es p) (h1 : p.main ≠ .exited) (h2 : p.loaderUp = true) (h3 : p.dist ≠ .exited)
    (hm : n + 2 * (ch.length * (ch.length + 1)) + p.l.obj.queue.length ≤ m) (c : Ctx) (hf : ∀ j, c.fates j = .ok) (q : Sender)
    (hq : q.remote = some peer) :
    ∃ m' es' p', n ≤ m' ∧ Syncing lib g peer s s0 ch p0 m' (es ++ es') p' ∧ p'.l.active = false :=
  can_finish H hf hq hsh h h1 h2 h3 hm

/-- A synchronisation that the timer starts begins like this when the store tells the truth, no difference is remembered, the
peer announced the score of its history, and the distributor does not hold an old list of ids of the peer. -/
theorem C97_begins (H : TrueHistory T g ch) {p p' : Prog} (A : Alive lib g n p) (h : Holds T g p.l.link) (c : Ctx)
    (hs : p.step lib (.timer c) = some (.ok p')) (hn : p.l.active = false) (hd : p.l.prevDiff = none) (ha : p'.l.active = true)
    (hp : p'.l.peerID = peer) (han : Announced p.l.reg peer s) (hsc : s = worth (base g) ch (ch.length - 1)) :
    Begun peer s (base g) ch p'.l ∧ (p'.Clean peer ch → Syncing lib g peer s (base g) ch p' n [] p') := by
  have hl := step_loader (Loading.Ex.ctx 0) hs
  obtain ⟨_, B⟩ := Loading.C89_begins A.running hn hd c hl ha hp han hsc (H.faithful h A.running.serving)
  exact ⟨B, fun hc => .start (.step (n := n) (.timer c) A hs) B hc⟩

/-- If everybody tells the truth, then no more than the honest answers of the peer is needed. -/
theorem C97_truthful (H : TrueHistory T g ch) {lk : Linkage} (h0 : Told T g lk) {es0 es : List Ev} {p0 p : Prog}
    (h : Course lib g lk peer s ch es0 p0 n es p) (ht : Sincere T (es0 ++ es)) (hb : Begun peer s (base g) ch p0.l)
    (hc : p0.Clean peer ch) : Syncing lib g peer s (base g) ch p0 n es p := by
  induction h with
  | start h => exact .start h.alive hb hc
  | @step n es p p' e h ha hr hs ih =>
    rw [← List.append_assoc] at ht
    have ht1 : Sincere T (es0 ++ es) := fun c q m hm => ht c q m (List.mem_append_left _ hm)
    have ht2 : ∀ c q m, e = .message c q m → m.Truthful T := fun c q m hm => ht c q m (List.mem_append_right _ (by simp [hm]))
    have hR := h.run
    have hH := hR.holds h0 ht1
    refine .step e (ih ht1) ha ⟨hr, ?_, ?_⟩ hs
    · rintro c q x (rfl | rfl)
      · exact H.genuine (ht2 c q _ rfl)
      · exact H.genuine (ht2 c q _ rfl)
    · rintro c q inv rfl
      exact H.micro hH hR.alive.running.serving (ht2 c q _ rfl)

/-- The whole way, from the messages to the report: everybody told the truth, the peer answered honestly, the synchronisation
has ended.  Then every report of the forks that includes the peer has it in the entry of the last block of its history, with
the height, score, time and generator of that block. -/
theorem C97_reported (H : TrueHistory T g ch) {lk : Linkage} (h0 : Told T g lk) {es0 es : List Ev} {p0 p : Prog}
    (h : Course lib g lk peer s ch es0 p0 n es p) (ht : Sincere T (es0 ++ es)) (hb : Begun peer s (base g) ch p0.l)
    (hc : p0.Clean peer ch) (hend : p.l.active = false) (h2 : 2 ≤ ch.length) (hli : Chains.Listed peer) (hpl : peer = peer.plain)
    (env : Env) (filter : List Addr) (hfi : filter = [] ∨ peer ∈ filter) {fs : List Fork} (hf : Forks env p.l.link.db filter = .ok fs) :
    ∃ b f, ch.getLast? = some b ∧ f ∈ fs ∧ (∀ f', f' ∈ fs → (peer ∈ f'.peers ↔ f' = f)) ∧ f.headBlock = b.id ∧ f.headHeight.toNat = ch.length ∧
      f.score = s ∧ f.headTimestamp = b.timestamp ∧ some f.headGenerator = b.generator := by
  have hS := C97_truthful H h0 h ht hb hc
  have hR := h.run
  have hH := hR.holds h0 ht
  have hsc := ((hS.session H.history).1.base H.history).1
  rcases C97_ends H.history hS with ⟨ha, _⟩ | ⟨_, hst, b, hlast, hle⟩
  · rw [hend] at ha; cases ha
  obtain ⟨ns, hs, R, _⟩ := Chains.reachable_rep hH.reachable
  have hlast' : ch[ch.length - 1]? = some b := by rw [← List.getLast?_eq_getElem?]; exact hlast
  have hidx : ch.length - 1 = (ch.length - 2) + 1 := by omega
  have hbne : b.id ≠ g.id := H.other (by rw [← hidx]; exact hlast')
  have hbm : b ∈ ch := List.mem_of_getElem? hlast'
  have hgl : Chains.getLeash p.l.link.db peer = .ok b.id := by
    unfold LeashOf at hle
    rw [hR.alive.running.serving.genesis_eq] at hle
    split at hle
    · rename_i id hid; rw [hid]; exact hle
    · exact absurd (Except.ok.inj hle).symm hbne
    · cases hle
  obtain ⟨ls, hls, _, hmem⟩ := R.leashes
  have hin : { addr := peer, blockID := b.id } ∈ ls := (hmem peer b.id).mpr ⟨hli, hpl, hgl⟩
  obtain ⟨x, _, hx, _, hxa, _, honly, _⟩ := C96_detected hH env filter hf hls (p := peer) (q := peer) ⟨hin, hfi⟩ ⟨hin, hfi⟩
  obtain ⟨f0, rest, rfl, _⟩ := C16_ranked hH.reachable env filter hf
  obtain ⟨_, r, _, hr, _, _, _, e1, e2, e3, e4⟩ := (C17_lengths hH.reachable env filter hf).2.2 x hx
  rw [hxa] at hr
  have hrec := hH.record _ _ hr
  obtain ⟨r0, ga, _, hga, he⟩ := hrec.inv hbne
  have htb := H.real b hbm
  refine ⟨b, x, hlast, hx, honly, hxa, ?_, ?_, ?_, ?_⟩
  · rw [e1, H.height hH (ch.length - 1) b r hlast' hr]; omega
  · rw [e4, (H.fits (ch.length - 1) b r hlast' hrec).1, hsc]
  · rw [e2, he]; simp only [htb]
  · rw [e3, he, ← hga, htb]

/-! ### a concrete execution -/

/-- the execution of the examples meets all of this: it begins when the timer fires, it ends, and the report shows block 3 -/
example : TrueHistory Services.Ex.truth Chains.Ex.g0 Loading.Ex.chain ∧ Told Services.Ex.truth Chains.Ex.g0 Chains.Ex.l0 ∧ Sincere Services.Ex.truth (Services.Ex.begun ++ Services.Ex.loading) ∧
    Begun Loading.Ex.peer Services.Ex.height (base Chains.Ex.g0) Loading.Ex.chain (Services.Ex.after Services.Ex.begun).l ∧ (Services.Ex.after Services.Ex.begun).Clean Loading.Ex.peer Loading.Ex.chain ∧
    Course Peers.Ex.lib Chains.Ex.g0 Chains.Ex.l0 Loading.Ex.peer Services.Ex.height Loading.Ex.chain Services.Ex.begun (Services.Ex.after Services.Ex.begun) 1000 Services.Ex.loading (Services.Ex.after (Services.Ex.begun ++ Services.Ex.loading)) ∧
    (Services.Ex.after (Services.Ex.begun ++ Services.Ex.loading)).l.active = false ∧ Chains.Listed Loading.Ex.peer ∧ Loading.Ex.peer = Loading.Ex.peer.plain ∧
    Shares Loading.Ex.chain (Services.Ex.after Services.Ex.begun).l ∧
    (Forks Chains.Ex.env (Services.Ex.after (Services.Ex.begun ++ Services.Ex.loading)).l.link.db []).map (·.map (fun f => (f.headBlock, f.peers, f.headHeight.toNat, f.score))) =
      .ok [(Chains.Ex.bid 3, [Loading.Ex.peer], 4, Services.Ex.height)] := by
  have hsin : Sincere Services.Ex.truth (Services.Ex.begun ++ Services.Ex.loading) := by
    intro c p m hm
    simp only [Services.Ex.begun, Services.Ex.before, Services.Ex.joined, Services.Ex.loading, List.mem_append, List.mem_cons, List.not_mem_nil, or_false, Ev.message.injEq, reduceCtorEq, false_or] at hm
    rcases hm with ⟨_, _, rfl⟩ | ⟨_, _, rfl⟩ | ⟨_, _, rfl⟩ | ⟨_, _, rfl⟩ | ⟨_, _, rfl⟩ | ⟨_, _, rfl⟩ <;>
      first | trivial | (show _ = _; decide +kernel)
  have htold : Told Services.Ex.truth Chains.Ex.g0 Chains.Ex.l0 := ⟨_, [], Chains.Ex.fresh, by decide, fun o ho => (by cases ho), rfl⟩
  have hrun := Services.Ex.runs 1000 Services.Ex.before (by decide +kernel) (by decide +kernel)
  have hB := C97_begins (peer := Loading.Ex.peer) (s := Services.Ex.height) Services.Ex.chain_true hrun.alive
    (hrun.holds htold (fun c p m hm => hsin c p m (by simp only [Services.Ex.begun, List.mem_append]; exact Or.inl (Or.inl hm)))) (Loading.Ex.ctx 100)
    (Services.Ex.after_snoc Services.Ex.before _ (by decide +kernel)) (by decide +kernel) (by decide +kernel) (by decide +kernel) (by decide +kernel)
    ⟨_, rfl, by decide +kernel⟩ rfl
  refine ⟨Services.Ex.chain_true, htold, hsin, hB.1, ?_, Services.Ex.course 1000 (by decide), by decide +kernel, by decide +kernel, by decide +kernel, ?_, by rfl⟩
  · have hd : (Services.Ex.after Services.Ex.begun).dist = .ready := by decide +kernel
    exact ⟨fun ids h => (by rw [hd] at h; cases h), fun x h => (by rw [hd] at h; cases h)⟩
  · exact ⟨⟨100 * Peers.second, Peers.Ex.conn 65, .getBlockIds [Chains.Ex.bid 0]⟩, [Chains.Ex.bid 0], Chains.Ex.g0, by decide +kernel,
      ⟨rfl, by decide +kernel⟩, by decide +kernel, by decide +kernel⟩

end Verif.Props
