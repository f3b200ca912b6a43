import Verif.Services.SideTrue
import Verif.Services.SideEx
import Verif.Services.Shown
/-
Property C107: what an honest peer has is loaded and shown, while the goroutines of the program work side by side and reads fail.
-/

set_option autoImplicit false

namespace Verif.Services.Fine

open Verif
open Verif.Chains (Addr BlockID ProtoBlock MicroInv Linkage LeashOf Forks Fork Env)
open Verif.Chains.Spec (Stored Truth Told Holds)
open Verif.Peers (Lib Registry Config AddrPort)
open Verif.Loading (Ctx Serving History TrueHistory Begun Shares worth base Announced Faithful requests)
open Verif.Loading.Fine (World Shared Own Answer Between Later ends_sync received received_from steadyRd released_all)
open Verif.KV (Fate)

variable {lib : Lib} {g : ProtoBlock} {N : Nat} {D : Loading.Fine.Disk} {cfg : Config} {r : Registry} {fs : Nat → Fate}
  {seeds : List (Option AddrPort)} {lk : Linkage} {listener : Bool} {es0 es : List Ev} {tr : List Answer} {x0 x : Sys}
  {s s0 : Nat} {ch : List ProtoBlock} {peer : Addr} {T : Truth}

/-- During a synchronisation with an honest peer the loader never panics and never changes to another peer.  Between two events it waits
for ids or blocks of the peer; or it has released the peer, then all blocks of its history are stored and its position is the last of
them.  Before the synchronisation, any reads may have failed. -/
theorem C107_ends (H : History ch) (S : Serving g N lk) (R : Peers.Reachable lib r)
    (h0 : Path lib (Sys.start D cfg r.db fs seeds lk listener) es0 tr x0) (ht : x0.world.todo = none)
    (hb : Begun peer s s0 ch (x0.world.own.on x0.world.sh)) (h : Side lib peer s s0 ch x0 es x)
    (hN : Chains.Spec.inserts x.world.calls < N) :
    (∀ f, x.step lib (.go .good) ≠ some (.error f)) ∧ x.world.own.peerID = peer ∧ (x.world.todo ≠ none → x.world.own.active = true) ∧
    (x.world.todo = none →
      (x.world.own.active = true ∧ (x.world.own.obj.state = .waitingForIDs ∨ x.world.own.obj.state = .waitingForBlocks)) ∨
      (x.world.own.active = false ∧ (∀ y, y ∈ ch → Stored x.world.sh.link.db y.id) ∧
        ∃ b, ch.getLast? = some b ∧ LeashOf x.world.sh.link peer = .ok b.id)) := by
  have K := side_kept H S (start_reachable R D cfg fs seeds) h0.run ht hb.starts h (Nat.le_of_lt hN)
  obtain ⟨more, hout, P, L⟩ := K.phase
  refine ⟨?_, K.who, ?_, ?_⟩
  · intro f hf
    have hm : x.main ≠ .exited := by intro hm; simp [Sys.step, hm] at hf
    simp only [Sys.step, if_neg hm, Sys.go] at hf
    cases hw : x.world.todo with
    | none => rw [hw] at hf; cases hf
    | some p =>
      rw [hw] at hf
      obtain ⟨_, L⟩ := L p hw
      cases p with
      | ret a =>
        obtain ⟨o, _, rfl, _⟩ := L x.world.sh (Between.refl _) (K.good.mono (Nat.zero_le _))
        cases hf
      | call c k =>
        have hc : c.cost ≤ 1 := by
          unfold Loading.Fine.Call.cost Chains.Spec.inserts
          refine Nat.le_trans (List.length_filter_le _ _) ?_
          cases c.op <;> simp
        obtain ⟨_, L⟩ := L x.world.sh (Between.refl _) (K.good.mono (Nat.zero_le _))
        obtain ⟨h1, _, _, L⟩ := L (K.good.mono (by omega))
        simp only [Loading.Fine.Call.res_good] at hf
        cases hk : k (c.res lib x.world.sh) with
        | call c' k' => rw [hk] at hf; cases hf
        | ret a =>
          rw [hk] at L hf
          obtain ⟨o, _, rfl, _⟩ := L _ (Between.refl _) (h1 0 (K.good.mono (by omega)))
          cases hf
  · intro hn
    obtain ⟨p, hp⟩ := Option.ne_none_iff_exists'.mp hn
    exact (L p hp).1
  · intro hn
    cases P hn with
    | asking m req h => exact Or.inl ⟨h.active, Or.inl h.state⟩
    | loading k a arrived j h => exact Or.inl ⟨h.active, Or.inr h.state⟩
    | released ha hp hc =>
      replace hp := hp.full hb.diff
      have hpos : 0 < ch.length := by
        obtain ⟨_, _, _, hj, _⟩ := hp
        have := (List.getElem?_eq_some_iff.mp hj).1
        omega
      exact Or.inr ⟨ha, released_all hpos K.steady.sound.store K.faithful hp⟩

/-- Between two events of the synchronisation the loader has sent fewer requests for ids than the history has blocks, after the first one. -/
theorem C107_rounds (H : History ch) (S : Serving g N lk) (R : Peers.Reachable lib r)
    (h0 : Path lib (Sys.start D cfg r.db fs seeds lk listener) es0 tr x0) (ht : x0.world.todo = none)
    (hb : Begun peer s s0 ch (x0.world.own.on x0.world.sh)) (h : Side lib peer s s0 ch x0 es x)
    (hN : Chains.Spec.inserts x.world.calls ≤ N) (hn : x.world.todo = none) :
    ∃ more, x.world.own.out = x0.world.own.out ++ more ∧ (requests more = 0 ∨ requests more < ch.length) := by
  obtain ⟨more, hout, P, _⟩ := (side_kept H S (start_reachable R D cfg fs seeds) h0.run ht hb.starts h hN).phase
  have he : requests more = Loading.asking more := by unfold requests Loading.asking; rw [List.countP_eq_length_filter]
  exact ⟨more, hout, by rw [he]; exact (P hn).bound⟩

/-- If the first request names a block of the history, the end can be reached from every moment of the synchronisation, unless the program
was told to stop: the loader goes on, and the peer sends ids and blocks of its history.  What the distributor still holds from the
peer must be an honest answer to the last request, or a true block. -/
theorem C107_can_finish (H : History ch) (S : Serving g N lk) (R : Peers.Reachable lib r)
    (h0 : Path lib (Sys.start D cfg r.db fs seeds lk listener) es0 tr x0) (ht : x0.world.todo = none)
    (hb : Begun peer s s0 ch (x0.world.own.on x0.world.sh)) (hsh : Shares ch (x0.world.own.on x0.world.sh))
    (h : Side lib peer s s0 ch x0 es x) (hm : x.main ≠ .exited) (hl : x.loaderUp = true) (hd : x.dist ≠ .exited) (hc : x.Clean peer ch)
    (hN : Chains.Spec.inserts x.world.calls + 6 * ch.length ≤ N) (c : Ctx) (hf : ∀ j, c.fates j = .ok) (q : Sender) (hq : q.remote = some peer) :
    ∃ es' x', Side lib peer s s0 ch x0 (es ++ es') x' ∧ (∀ e, e ∈ es' → Helps ch c q e) ∧ x'.world.todo = none ∧ x'.world.own.active = false ∧
      Chains.Spec.inserts x'.world.calls ≤ Chains.Spec.inserts x.world.calls + 6 * ch.length := by
  obtain ⟨es', x', h1, h2, h3, h4, h5⟩ := can_finish_side H hb.score
    (fun es x h hN => ⟨_, side_kept H S (start_reachable R D cfg fs seeds) h0.run ht hb.starts h hN⟩) hf hq hsh h hm hl hd hc hN
  exact ⟨es', x', h1, h2, h3, h5, h4⟩

/-- Every synchronisation that the timer starts begins like this, whatever the other goroutines do while the loader handles the timer, when no
difference is remembered, the loader can read, and at the end of the handling the peer has announced the score of its history and the
store is faithful to the history. -/
theorem C107_begins (S : Serving g N lk) (R : Peers.Reachable lib r)
    (h0 : Path lib (Sys.start D cfg r.db fs seeds lk listener) es0 tr x0) (hn : x0.world.own.active = false)
    (hd : x0.world.own.prevDiff = none) (c : Ctx) {x1 : Sys} (h1 : x0.step lib (.timer c) = some (.ok x1)) (h : Busy lib x1 es x)
    (hN : Chains.Spec.inserts x.world.calls ≤ N) (ht : x.world.todo = none) (ha : x.world.own.active = true) (hp : x.world.own.peerID = peer)
    (han : Announced x.world.sh.reg peer s) (hs : s = worth s0 ch (ch.length - 1)) (F : Faithful s0 ch x.world.sh.link.db) :
    (∃ tr', Path lib (Sys.start D cfg r.db fs seeds lk listener) (es0 ++ .timer c :: es) tr' x) ∧
    Begun peer s s0 ch (x.world.own.on x.world.sh) := by
  obtain ⟨tr1, hpath⟩ := h.path
  have hp1 := h0.snoc _ h1
  refine ⟨⟨_, by have := hp1.append hpath; rw [List.append_assoc] at this; exact this⟩, ?_⟩
  obtain ⟨h2, h3⟩ := begins S R h0 hn c h1 h hN ht ha hp han hs F
  exact ⟨h2.active, h2.state, h2.who, h3.trans hd, h2.asked, h2.announced, h2.score, h2.faithful⟩

/-- If everybody tells the truth, from the start of the program on, then no more is needed than the honest answers of the peer. -/
theorem C107_truthful (H : TrueHistory T g ch) (hT : Told T g lk) (S : Serving g N lk) (R : Peers.Reachable lib r)
    (h0 : Path lib (Sys.start D cfg r.db fs seeds lk listener) es0 tr x0) (h : Along lib peer s ch x0 es x)
    (ht : Sincere T (es0 ++ es)) (hN : Chains.Spec.inserts x.world.calls ≤ N) : Side lib peer s (base g) ch x0 es x := by
  induction h with
  | start => exact .start
  | @step es x x' e h ha hr hs ih =>
    have hmon := Nat.le_trans (step_ins hs).2 hN
    rw [← List.append_assoc] at ht
    have ht1 : Sincere T (es0 ++ es) := fun D c q m hm => ht D c q m (List.mem_append_left _ hm)
    have ht2 : ∀ D c q m, e = .message D c q m → m.Truthful T := fun D c q m hm => ht D c q m (List.mem_append_right _ (by simp [hm]))
    obtain ⟨tr1, hpath⟩ := h.path
    have hall := h0.append hpath
    have hH := holds_path S R hall hmon hT ht1
    refine .step e (ih ht1 hmon) ha ⟨hr, ?_, ?_, ?_⟩ hs
    · rintro D c q b (rfl | rfl)
      · exact H.genuine (ht2 D c q _ rfl)
      · exact H.genuine (ht2 D c q _ rfl)
    · rintro D c q inv rfl
      exact H.micro hH (C105_store S R hall hmon).2.1 (ht2 D c q _ rfl)
    · rintro c b rfl hd
      exact H.genuine (says_truthful ht1 (held_said hall hd))

/-- The whole way, from the messages to the report.  The peers and the reads of the other goroutines did what they like, but nobody lied; the
peer answered honestly; the synchronisation has ended.  Then every report of the forks that includes the peer has it in the entry of
the last block of its history, with the height, score, time and generator of that block. -/
theorem C107_reported (H : TrueHistory T g ch) (hT : Told T g lk) (S : Serving g N lk) (R : Peers.Reachable lib r)
    (h0 : Path lib (Sys.start D cfg r.db fs seeds lk listener) es0 tr x0) (ht0 : x0.world.todo = none)
    (hb : Begun peer s (base g) ch (x0.world.own.on x0.world.sh)) (h : Along lib peer s ch x0 es x)
    (ht : Sincere T (es0 ++ es)) (hN : Chains.Spec.inserts x.world.calls < N) (hend : x.world.own.active = false) (h2 : 2 ≤ ch.length)
    (hli : Chains.Listed peer) (hpl : peer = peer.plain) (env : Env) (filter : List Addr) (hfi : filter = [] ∨ peer ∈ filter)
    {ks : List Fork} (hf : Forks env x.world.sh.link.db filter = .ok ks) :
    ∃ b f, ch.getLast? = some b ∧ f ∈ ks ∧ (∀ f', f' ∈ ks → (peer ∈ f'.peers ↔ f' = f)) ∧ f.headBlock = b.id ∧ f.headHeight.toNat = ch.length ∧
      f.score = s ∧ f.headTimestamp = b.timestamp ∧ some f.headGenerator = b.generator := by
  have hS := C107_truthful H hT S R h0 h ht (Nat.le_of_lt hN)
  obtain ⟨tr1, hpath⟩ := h.path
  have hall := h0.append hpath
  have hH := holds_path S R hall (Nat.le_of_lt hN) hT ht
  have hserv := (C105_store S R hall (Nat.le_of_lt hN)).2.1
  have hsc := hb.score
  obtain ⟨_, _, hact, hrest⟩ := C107_ends H.history S R h0 ht0 hb hS hN
  have hto : x.world.todo = none := by
    cases hw : x.world.todo with
    | none => rfl
    | some p => have := hact (by rw [hw]; simp); rw [hend] at this; cases this
  rcases hrest hto with ⟨ha, _⟩ | ⟨_, hst, b, hlast, hle⟩
  · rw [hend] at ha; cases ha
  obtain ⟨f, h1, h3, h4, h5, h6, h7⟩ := shown H hH hserv h2 hlast hle hli hpl env filter hfi hf
  exact ⟨b, f, hlast, h1, h3, h4, h5, h6.trans hsc.symm, h7⟩

/-! ### a concrete execution -/

open Chains.Ex in
/-- The execution of the examples meets all of this.  It begins when the timer fires, while a block of another peer fails to be read; the end
can be reached from its beginning; it ends; and the report shows block 3 with the peer. -/
example : ∃ tr,
    Path Peers.Ex.lib Ex.begin Ex.opening tr (Ex.at' Ex.opening) ∧ (Ex.at' Ex.opening).world.todo = none ∧
    Begun Loading.Ex.peer Services.Ex.height (base g0) Loading.Ex.chain ((Ex.at' Ex.opening).world.own.on (Ex.at' Ex.opening).world.sh) ∧
    Shares Loading.Ex.chain ((Ex.at' Ex.opening).world.own.on (Ex.at' Ex.opening).world.sh) ∧ (Ex.at' Ex.opening).Clean Loading.Ex.peer Loading.Ex.chain ∧
    (Ex.at' Ex.opening).main ≠ .exited ∧ (Ex.at' Ex.opening).loaderUp = true ∧ (Ex.at' Ex.opening).dist ≠ .exited ∧
    Along Peers.Ex.lib Loading.Ex.peer Services.Ex.height Loading.Ex.chain (Ex.at' Ex.opening) Ex.loading (Ex.at' (Ex.opening ++ Ex.loading)) ∧
    Side Peers.Ex.lib Loading.Ex.peer Services.Ex.height (base g0) Loading.Ex.chain (Ex.at' Ex.opening) Ex.loading (Ex.at' (Ex.opening ++ Ex.loading)) ∧
    (Ex.at' (Ex.opening ++ Ex.loading)).world.own.active = false ∧ Chains.Listed Loading.Ex.peer ∧ Loading.Ex.peer = Loading.Ex.peer.plain ∧
    (Forks env (Ex.at' (Ex.opening ++ Ex.loading)).world.sh.link.db []).map (·.map (fun f => (f.headBlock, f.peers, f.headHeight.toNat, f.score))) =
      .ok [(bid 3, [Loading.Ex.peer], 4, Services.Ex.height)] := by
  have S : Serving g0 1000 l0 := Loading.Ex.serving 1000 (by decide)
  have R : Peers.Reachable Peers.Ex.lib (Peers.Ex.run []) := Peers.Ex.reach _
  obtain ⟨tr0, hpath0⟩ := Ex.at_path (es := Ex.before) (by decide +kernel)
  obtain ⟨tr, hpath⟩ := Ex.at_path (es := Ex.opening) (by decide +kernel)
  have hH : Chains.Spec.Holds Services.Ex.truth g0 (Ex.at' Ex.opening).world.sh.link :=
    holds_path S R hpath (by decide +kernel) Ex.told (Ex.sincere_left Ex.sincere)
  have hserv := (C105_store S R hpath (by decide +kernel)).2.1
  have hB := (C107_begins (peer := Loading.Ex.peer) (s := Services.Ex.height) (s0 := base g0) (ch := Loading.Ex.chain) S R hpath0 (by decide +kernel)
    (by decide +kernel) (Loading.Ex.ctx 100) (Ex.at_snoc Ex.before _ (by decide +kernel)) Ex.busy (by decide +kernel) (by rfl) (by decide +kernel)
    (by decide +kernel) ⟨_, rfl, by decide +kernel⟩ rfl (Services.Ex.chain_true.faithful hH hserv)).2
  have hd : (Ex.at' Ex.opening).dist = .ready := by decide +kernel
  refine ⟨tr, hpath, rfl, hB, ?_, ⟨fun ids h => (by rw [hd] at h; cases h), fun x h => (by rw [hd] at h; cases h)⟩, by decide +kernel, by decide +kernel,
    by rw [hd]; simp, Ex.along, C107_truthful Services.Ex.chain_true Ex.told S R hpath Ex.along Ex.sincere (by decide +kernel), by decide +kernel,
    by decide +kernel, by decide +kernel, by rfl⟩
  exact ⟨⟨100 * Peers.second, Peers.Ex.conn 65, .getBlockIds [bid 0]⟩, [bid 0], g0, by decide +kernel, ⟨rfl, by decide +kernel⟩, by decide +kernel,
    by decide +kernel⟩

end Verif.Services.Fine
