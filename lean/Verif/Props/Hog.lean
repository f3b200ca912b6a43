import Verif.Loading.HogLemmas
import Verif.Props.Sync
/-
Property C115: whether every peer gets its turn.  It does not: one peer can keep the loader to itself for ever.  What holds is a bound on the number of
batches of a synchronisation in which the score of the position of the peer does not go down.
-/

set_option autoImplicit false

namespace Verif.Loading

open Verif
open Verif.Chains (Addr BlockID ProtoBlock LeashOf)
open Verif.Chains.Spec (ScoreOf)
open Verif.Peers (Lib second)

variable {lib : Lib} {g : ProtoBlock} {n k s : Nat} {peer : Addr} {a b : BlockID} {l0 l : Loader}

/-! ### what goes wrong -/

/-- Suppose that the loader waits for the ids of a peer, that two blocks with different scores are stored, and that the peer announced more than both.  If
the peer answers every request with one of the two ids, taking turns, then the loader stays with this peer, whatever the other peers do and however
often the timer fires: it never ends the synchronisation, every answer of the peer is followed by one more request, and all its messages
go to this peer. -/
theorem C115_kept {sa sb : Nat} (ha : l0.active = true) (hw : l0.obj.state = .waitingForIDs) (hp : l0.peerID = peer)
    (hd : l0.prevDiff = none) (hs : Announced l0.reg peer s) (hA : ScoreOf l0.link.db a sa) (hB : ScoreOf l0.link.db b sb)
    (hne : sa ≠ sb) (hsa : sa < s) (hsb : sb < s) (h : Teased lib g peer s a b l0 n l) :
    l.active = true ∧ l.peerID = peer ∧ l.obj.state = .waitingForIDs ∧
      (∃ more, l.out = l0.out ++ more ∧ ∀ m, m ∈ more → l0.obj.peer.conn = some m.to) ∧
      ∀ e ids, e.op = .ids peer ids → Teases peer s a b l e → ∃ l', step lib l e = .ok l' ∧ requests l'.out = requests l.out + 1 := by
  have T0 : Toy peer s a b sa sb l0 l0 :=
    ⟨ha, hw, rfl, hp, hs, hA, hB, fun _ => by rw [hd]; simp, fun _ => by rw [hd]; simp, [], by simp, by simp⟩
  have T : Toy peer s a b sa sb l0 l := by
    induction h with
    | start h => exact T0
    | step e h' ht hst ih => exact (toy_step h'.running ih hne hsa hsb ht).1 _ hst
  refine ⟨T.active, T.who, T.state, T.sent, fun e ids he ht => ?_⟩
  have hc : cost l e = 0 := by unfold cost; rw [he]
  have hr : Running lib g (n + cost l e) l := by rw [hc]; exact h.running
  obtain ⟨l', h1, h2⟩ := (toy_step hr T hne hsa hsb ht).2 ids he
  refine ⟨l', h1, ?_⟩
  unfold requests
  rw [← List.countP_eq_length_filter, ← List.countP_eq_length_filter]
  exact h2

/-- And there is such an execution without end.  The clock goes on, the ticker and the timer fire again and again, the peer answers again and again; the
loader is always busy with this peer, all its messages go to this peer, and every other peer that lagged in the beginning lags for ever. -/
theorem C115_starves {sa sb : Nat} (R : Running lib g n l0) (ha : l0.active = true) (hw : l0.obj.state = .waitingForIDs) (hp : l0.peerID = peer)
    (hd : l0.prevDiff = none) (hs : Announced l0.reg peer s) (hA : ScoreOf l0.link.db a sa) (hB : ScoreOf l0.link.db b sb)
    (hne : sa ≠ sb) (hsa : sa < s) (hsb : sb < s) (c : Ctx) (hf : ∀ j, c.fates j = .ok) :
    ∃ (run : Nat → Loader) (ev : Nat → Event), run 0 = l0 ∧ (∀ i, step lib (run i) (ev i) = .ok (run (i + 1))) ∧
      (∀ i, (ev i).ctx.now = l0.obj.timestamp + i * second) ∧
      (∀ i, (ev (3 * i)).op = .ids peer [a] ∨ (ev (3 * i)).op = .ids peer [b]) ∧ (∀ i, (ev (3 * i + 1)).op = .tick) ∧ (∀ i, (ev (3 * i + 2)).op = .timer) ∧
      ∀ i, (run i).active = true ∧ (run i).peerID = peer ∧ requests (run (3 * i)).out = requests l0.out + i ∧
        (∃ more, (run i).out = l0.out ++ more ∧ ∀ m, m ∈ more → l0.obj.peer.conn = some m.to) ∧
        ∀ q : Addr, q.plain ≠ peer.plain → Lags l0.reg l0.link q → Lags (run i).reg (run i).link q := by
  have T0 : Toy peer s a b sa sb l0 l0 :=
    ⟨ha, hw, rfl, hp, hs, hA, hB, fun _ => by rw [hd]; simp, fun _ => by rw [hd]; simp, [], by simp, by simp⟩
  let P : Loader → Prop := fun l => Running lib g n l ∧ Toy peer s a b sa sb l0 l ∧
    ∀ q : Addr, q.plain ≠ peer.plain → Lags l0.reg l0.link q → Lags l.reg l.link q
  let ctx : Nat → Ctx := fun i => { c with now := l0.obj.timestamp + (i : Int) * second }
  have turn : ∀ (x : {l // P l}) (i : Nat), ∃ y : BlockID × {l // P l}, (y.1 = a ∨ y.1 = b) ∧ step lib x.1 ⟨ctx i, .ids peer [y.1]⟩ = .ok y.2.1 ∧
      y.2.1.obj.timestamp = (ctx i).now ∧ asking y.2.1.out = asking x.1.out + 1 := by
    rintro ⟨l, h1, h2, h3⟩ i
    obtain ⟨x, l', t1, t2, t3, t4, t5, t6, t7⟩ := toy_turn h1 h2 hne hsa hsb (ctx i) hf
    exact ⟨⟨x, l', t3, t4, fun q hq hL => t7 q hq (h3 q hq hL)⟩, t1, t2, t5, t6⟩
  let base : Nat → {l // P l} := fun j => Nat.rec ⟨l0, R, T0, fun _ _ h => h⟩ (fun j x => (Classical.choose (turn x (3 * j))).2) j
  let said : Nat → BlockID := fun j => (Classical.choose (turn (base j) (3 * j))).1
  have hb : ∀ j, (said j = a ∨ said j = b) ∧ step lib (base j).1 ⟨ctx (3 * j), .ids peer [said j]⟩ = .ok (base (j + 1)).1 ∧
      (base (j + 1)).1.obj.timestamp = (ctx (3 * j)).now ∧ asking (base (j + 1)).1.out = asking (base j).1.out + 1 :=
    fun j => Classical.choose_spec (turn (base j) (3 * j))
  have hcount : ∀ j, asking (base j).1.out = asking l0.out + j := by
    intro j
    induction j with
    | zero => rfl
    | succ j ih => rw [(hb j).2.2.2, ih]; omega
  refine ⟨fun i => (base ((i + 2) / 3)).1,
    fun i => ⟨ctx i, if i % 3 = 0 then .ids peer [said (i / 3)] else if i % 3 = 1 then .tick else .timer⟩, rfl, ?_, fun i => rfl, ?_, ?_, ?_, ?_⟩
  · intro i
    have h3 : i % 3 = 0 ∨ i % 3 = 1 ∨ i % 3 = 2 := by omega
    rcases h3 with h | h | h
    · obtain ⟨j, rfl⟩ : ∃ j, i = 3 * j := ⟨i / 3, by omega⟩
      have e1 : (3 * j + 2) / 3 = j := by omega
      have e2 : (3 * j + 1 + 2) / 3 = j + 1 := by omega
      have e3 : 3 * j / 3 = j := by omega
      simp only [e1, e2, e3, h, if_true]
      exact (hb j).2.1
    · obtain ⟨j, rfl⟩ : ∃ j, i = 3 * j + 1 := ⟨i / 3, by omega⟩
      have e1 : (3 * j + 1 + 2) / 3 = j + 1 := by omega
      have e2 : (3 * j + 1 + 1 + 2) / 3 = j + 1 := by omega
      simp only [e1, e2, h, if_true]
      obtain ⟨h1, h2, _⟩ := (base (j + 1)).2
      have ht := (hb j).2.2.1
      generalize (base (j + 1)).1 = y at h1 h2 ht
      show step lib y ⟨ctx (3 * j + 1), .tick⟩ = .ok y
      have h1' : (ctx (3 * j + 1)).now = l0.obj.timestamp + ((3 * j + 1 : Nat) : Int) * second := rfl
      have h2' : (ctx (3 * j)).now = l0.obj.timestamp + ((3 * j : Nat) : Int) * second := rfl
      have hle : ¬ ((ctx (3 * j + 1)).now - y.obj.timestamp > timeoutDuration) := by
        rw [ht, h1', h2']
        unfold timeoutDuration
        simp only [show second = 1000000000 from rfl]
        omega
      simp only [step, tick, h2.active, if_true]
      rw [fire_tick _ y _ h1.reachable.inv.quiet (Or.inl h2.state)]
      rw [if_neg hle]
      rfl
    · obtain ⟨j, rfl⟩ : ∃ j, i = 3 * j + 2 := ⟨i / 3, by omega⟩
      have e1 : (3 * j + 2 + 2) / 3 = j + 1 := by omega
      have e2 : (3 * j + 2 + 1 + 2) / 3 = j + 1 := by omega
      simp only [e1, e2, h]
      obtain ⟨h1, h2, _⟩ := (base (j + 1)).2
      generalize (base (j + 1)).1 = y at h1 h2
      show step lib y ⟨ctx (3 * j + 2), .timer⟩ = .ok y
      simp only [step, sync, h2.active, if_true]
  · intro i
    have e3 : 3 * i / 3 = i := by omega
    have e4 : 3 * i % 3 = 0 := by omega
    simp only [e3, e4, if_true]
    rcases (hb i).1 with h | h
    · left; rw [h]
    · right; rw [h]
  · intro i
    have e4 : (3 * i + 1) % 3 = 1 := by omega
    simp [e4]
  · intro i
    have e4 : (3 * i + 2) % 3 = 2 := by omega
    simp [e4]
  · intro i
    obtain ⟨h1, h2, h3⟩ := (base ((i + 2) / 3)).2
    refine ⟨h2.active, h2.who, ?_, h2.sent, h3⟩
    have e1 : (3 * i + 2) / 3 = i := by omega
    simp only [e1]
    unfold requests
    rw [← List.countP_eq_length_filter, ← List.countP_eq_length_filter]
    exact hcount i

/-! ### what holds -/

/-- The number of requests for ids during a synchronisation in which the score of the position of the peer does not go down: one, one more for each
unit that the score has gone up by, and one more for each time that the peer announced a score.  Nothing else is assumed about the messages of the
peer, of the other peers, the failures of the writes or the clock.  What is missing for the property is the case of `C115_starves`: a peer that sends
ids of blocks behind its position. -/
theorem C115_batches_partial {sc0 sc : Nat} {x y : BlockID} (h : Climbs lib g peer l0 n k l) (hp : l0.peerID = peer)
    (h0 : OnLeash l0.link peer x sc0) (h1 : OnLeash l.link peer y sc) :
    sc0 ≤ sc ∧ requests l.out ≤ requests l0.out + 1 + (sc - sc0) + k := by
  obtain ⟨m, hm⟩ := h.origin
  have e0 := hm.serving.scoreOn h0
  have e1 := h.running.serving.scoreOn h1
  obtain ⟨_, i2, _, i3⟩ := h.count hp e0 e1
  refine ⟨i2, ?_⟩
  unfold requests
  rw [← List.countP_eq_length_filter, ← List.countP_eq_length_filter]
  show asking l.out ≤ asking l0.out + _ + _ + _
  cases i3 with
  | none h => omega
  | some s' sc' k' _ a1 a2 a3 _ a4 => omega

/-- In such a synchronisation with a peer that announces no score meanwhile there are at most as many more requests as its announced score is above the
score of its position in the beginning: the loader leaves the peer in the end, or times out. -/
theorem C115_bound_partial {sc0 : Nat} {x : BlockID} (h : Climbs lib g peer l0 n 0 l) (hp : l0.peerID = peer)
    (h0 : OnLeash l0.link peer x sc0) (hs : Announced l0.reg peer s) : requests l.out ≤ requests l0.out + (s - sc0) := by
  obtain ⟨m, hm⟩ := h.origin
  have e0 := hm.serving.scoreOn h0
  obtain ⟨sc, e1⟩ := h.running.serving.leashScore peer
  obtain ⟨_, i2, _, i3⟩ := h.count hp e0 e1
  unfold requests
  rw [← List.countP_eq_length_filter, ← List.countP_eq_length_filter]
  show asking l.out ≤ asking l0.out + _
  cases i3 with
  | none h => omega
  | some s' sc' k' _ a1 a2 a3 lt a4 _ first =>
    have := first s rfl hs
    omega

/-! ### concrete executions -/

/-- two connected peers, and a block after the genesis block is stored; then a synchronisation is started -/
def Ex.two : List Event := [Ex.at_ 50 (.putBlock (Chains.Ex.blk 1 0) (Chains.Ex.ip 9) .ok .ok), Ex.at_ 100 .timer]

open Chains.Ex in
/-- Two peers announced the same high score, and a block after the genesis block is stored.  The loader has asked the first peer for ids; the second one
lags too.  This meets the hypotheses of `C115_kept` and `C115_starves`; every answer of the peer is followed by a further request, and the
timer that fires in between changes nothing.  If the peer sends the same id twice, the synchronisation ends. -/
theorem C115_example : ∃ l : Loader,
    exec Peers.Ex.lib (NewLoader Ex.reg2 Chains.Ex.l0) Ex.two = .ok l ∧
    Running Peers.Ex.lib g0 1000 l ∧ l.active = true ∧ l.obj.state = .waitingForIDs ∧ l.peerID = Ex.peer ∧ l.prevDiff = none ∧
    Announced l.reg Ex.peer (10 ^ 30) ∧ ScoreOf l.link.db (bid 1) 368934881474191032 ∧ ScoreOf l.link.db (bid 0) 184467440737095516 ∧
    Lags l.reg l.link Ex.peer3 ∧ Ex.peer3.plain ≠ Ex.peer.plain ∧
    (exec Peers.Ex.lib l [Ex.at_ 101 (.ids Ex.peer [bid 1]), Ex.at_ 102 (.ids Ex.peer [bid 0]), Ex.at_ 103 .timer, Ex.at_ 104 (.ids Ex.peer [bid 1]),
      Ex.at_ 105 .tick, Ex.at_ 106 (.ids Ex.peer [bid 0])]).map
        (fun l' => (l'.active, l'.peerID, requests l'.out)) = .ok (true, Ex.peer, 5) ∧
    (exec Peers.Ex.lib l [Ex.at_ 101 (.ids Ex.peer [bid 1]), Ex.at_ 102 (.ids Ex.peer [bid 1])]).map
        (fun l' => (l'.active, requests l'.out)) = .ok (false, 2) := by
  have hok : ((exec Peers.Ex.lib (NewLoader Ex.reg2 Chains.Ex.l0) Ex.two).map (fun _ => true)).toOption = some true := by decide +kernel
  cases hl : exec Peers.Ex.lib (NewLoader Ex.reg2 Chains.Ex.l0) Ex.two with
  | error e => rw [hl] at hok; cases hok
  | ok l =>
  have obs : ∀ {α : Type} (f : Loader → α) (v : α),
      (exec Peers.Ex.lib (NewLoader Ex.reg2 Chains.Ex.l0) Ex.two).map f = .ok v → f l = v := by
    intro α f v h
    rw [hl] at h; exact Except.ok.inj h
  have more : ∀ {α : Type} (es : List Event) (f : Loader → α) (v : Go α),
      (exec Peers.Ex.lib (NewLoader Ex.reg2 Chains.Ex.l0) (Ex.two ++ es)).map f = v → (exec Peers.Ex.lib l es).map f = v := by
    intro α es f v h
    rw [exec_append, hl] at h; exact h
  have ann : ∀ q, (exec Peers.Ex.lib (NewLoader Ex.reg2 Chains.Ex.l0) Ex.two).map (fun x => (Peers.PeerOf x.reg q).map (·.score)) = .ok (.ok (some (10 ^ 30))) →
      Announced l.reg q (10 ^ 30) := by
    intro q h
    have := obs _ _ h
    unfold Announced
    cases hp : Peers.PeerOf l.reg q with
    | error e => rw [hp] at this; cases this
    | ok p => rw [hp] at this; exact ⟨p, rfl, Except.ok.inj this⟩
  have score : ∀ id sc, (exec Peers.Ex.lib (NewLoader Ex.reg2 Chains.Ex.l0) Ex.two).map (fun x => (Chains.getBlockByID x.link.db id).map (·.score)) = .ok (.ok sc) →
      ScoreOf l.link.db id sc := by
    intro id sc h
    have := obs _ _ h
    unfold ScoreOf
    cases hb : Chains.getBlockByID l.link.db id with
    | error e => rw [hb] at this; cases this
    | ok r => rw [hb] at this; exact ⟨r, rfl, Except.ok.inj this⟩
  refine ⟨l, rfl, ?_, obs (·.active) _ (by decide +kernel), obs (·.obj.state) _ (by decide +kernel), obs (·.peerID) _ (by decide +kernel),
    obs (·.prevDiff) _ (by decide +kernel), ann _ (by decide +kernel), score _ _ (by decide +kernel), score _ _ (by decide +kernel),
    ⟨10 ^ 30, bid 0, _, ann _ (by decide +kernel), ⟨obs (fun x => LeashOf x.link Ex.peer3) _ (by decide +kernel), score _ 184467440737095516 (by decide +kernel)⟩, by decide⟩,
    by decide, more _ _ _ (by decide +kernel), more _ _ _ (by decide +kernel)⟩
  exact Running.exec Ex.two (.start (Peers.Ex.reach _) (Ex.serving _ (by decide +kernel))) hl

open Chains.Ex in
/-- A synchronisation in which the position goes up: the peer lists a block and sends it, and the loader asks it for more once.  This
meets the hypotheses of `C115_batches_partial` and `C115_bound_partial`. -/
theorem C115_climbing :
    let l1 := Ex.after Ex.asked
    let l2 := Ex.after (Ex.asked ++ [Ex.at_ 101 (.ids Ex.peer [bid 1])])
    let l3 := Ex.after (Ex.asked ++ [Ex.at_ 101 (.ids Ex.peer [bid 1]), Ex.at_ 102 (.block Ex.peer (some (blk 1 0)))])
    Climbs Peers.Ex.lib g0 Ex.peer l1 1000 0 l3 ∧ l1.peerID = Ex.peer ∧ OnLeash l1.link Ex.peer (bid 0) 184467440737095516 ∧
      OnLeash l3.link Ex.peer (bid 1) 368934881474191032 ∧ Announced l1.reg Ex.peer (10 ^ 30) ∧ requests l1.out = 1 ∧ requests l3.out = 2 ∧
      l2.active = true ∧ l3.active = true := by
  have score : ∀ (l : Loader) q x sc, LeashOf l.link q = .ok x → (Chains.getBlockByID l.link.db x).map (·.score) = .ok sc → OnLeash l.link q x sc := by
    intro l q x sc h1 h2
    refine ⟨h1, ?_⟩
    unfold ScoreOf
    cases hb : Chains.getBlockByID l.link.db x with
    | error e => rw [hb] at h2; cases h2
    | ok r => rw [hb] at h2; exact ⟨r, rfl, Except.ok.inj h2⟩
  have next : ∀ es e, ((exec Peers.Ex.lib Ex.start (es ++ [e])).map (fun _ => true)).toOption = some true →
      step Peers.Ex.lib (Ex.after es) e = .ok (Ex.after (es ++ [e])) := by
    intro es e h
    unfold Ex.after
    rw [exec_append] at h ⊢
    cases h1 : exec Peers.Ex.lib Ex.start es with
    | error x => rw [h1] at h; cases h
    | ok l =>
      rw [h1] at h
      change ((exec Peers.Ex.lib l [e]).map (fun _ => true)).toOption = some true at h
      show step Peers.Ex.lib l e = .ok (match exec Peers.Ex.lib l [e] with | .ok l => l | .error _ => Ex.start)
      rw [Loading.exec] at h ⊢
      cases h2 : step Peers.Ex.lib l e with
      | error x => rw [h2] at h; cases h
      | ok l' => rfl
  have up : ∀ l l' x y sc sc', OnLeash l.link Ex.peer x sc → OnLeash l'.link Ex.peer y sc' → sc ≤ sc' → Upward Ex.peer l l' := by
    intro l l' x y sc sc' h1 h2 hle x' y' s s' h3 h4
    rw [(OnLeash.unique h3 h1).2, (OnLeash.unique h4 h2).2]; exact hle
  have o1 := score (Ex.after Ex.asked) Ex.peer (bid 0) 184467440737095516 (by decide +kernel) (by decide +kernel)
  have o2 := score (Ex.after (Ex.asked ++ [Ex.at_ 101 (.ids Ex.peer [bid 1])])) Ex.peer (bid 0) 184467440737095516 (by decide +kernel) (by decide +kernel)
  have o3 := score (Ex.after (Ex.asked ++ [Ex.at_ 101 (.ids Ex.peer [bid 1])] ++ [Ex.at_ 102 (.block Ex.peer (some (blk 1 0)))])) Ex.peer (bid 1) 368934881474191032
    (by decide +kernel) (by decide +kernel)
  refine ⟨?_, by decide +kernel, o1, o3, ⟨_, rfl, by decide +kernel⟩, by decide +kernel, by decide +kernel, by decide +kernel, by decide +kernel⟩
  refine Climbs.step (k := 0) _ (Climbs.step (k := 0) _ (.start (Ex.running _ _ ?_)) ?_ (next _ _ ?_) (up _ _ _ _ _ _ o1 o2 (by decide))) ?_ (next _ _ ?_) (up _ _ _ _ _ _ o2 o3 (by decide))
  all_goals decide +kernel

end Verif.Loading
