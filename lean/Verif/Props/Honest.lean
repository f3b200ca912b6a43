import Verif.Loading.HonestEx
import Verif.Props.Sync
/-
Property C89: the history of an honest peer is loaded completely.
-/

set_option autoImplicit false

namespace Verif.Loading

open Verif
open Verif.Chains (Addr BlockID ProtoBlock Linkage LeashOf)
open Verif.Chains.Spec (Stored ScoreOf)
open Verif.Peers (Lib)

variable {lib : Lib} {g : ProtoBlock} {n : Nat} {s s0 : Nat} {ch : List ProtoBlock} {peer : Addr}

/-- When the synchronisation with an honest peer ends, all blocks of its history are stored and its position is the last
of them.  Until then the loader keeps waiting for ids or blocks of this peer; it never gives up. -/
theorem C89_released (H : History ch) {l0 l : Loader} (h : Session lib g peer s s0 ch l0 n l) :
    (l.active = true ∧ l.peerID = peer ∧ (l.obj.state = .waitingForIDs ∨ l.obj.state = .waitingForBlocks)) ∨
    (l.active = false ∧ (∀ x, x ∈ ch → Stored l.link.db x.id) ∧ ∃ b, ch.getLast? = some b ∧ LeashOf l.link peer = .ok b.id) := by
  obtain ⟨_, B⟩ := h.base H
  obtain ⟨more, _, P⟩ := B.phase
  cases P with
  | asking ha hs => exact Or.inl ⟨ha, B.who, Or.inl hs⟩
  | loading j w =>
    obtain ⟨_, _, _, ha, hs, _⟩ := w
    exact Or.inl ⟨ha, B.who, Or.inr hs⟩
  | released ha b hb hl hst _ =>
    exact Or.inr ⟨ha, hst, b, by rw [List.getLast?_eq_getElem?]; exact hb, hl⟩

/-- During the synchronisation the loader sends fewer requests for ids than the history has blocks, after the first
one. -/
theorem C89_rounds (H : History ch) {l0 l : Loader} (h : Session lib g peer s s0 ch l0 n l) :
    ∃ more, l.out = l0.out ++ more ∧ (requests more = 0 ∨ requests more < ch.length) := by
  obtain ⟨_, B⟩ := h.base H
  obtain ⟨more, hout, P⟩ := B.phase
  have he : requests more = asking more := by unfold requests asking; rw [List.countP_eq_length_filter]
  refine ⟨more, hout, ?_⟩
  rw [he]
  cases P with
  | asking _ _ m req _ _ _ hd =>
    rcases hd with ⟨_, rfl⟩ | ⟨i, _, _, _, _, _, _⟩
    · exact Or.inl rfl
    · exact Or.inr (by omega)
  | loading j w =>
    obtain ⟨_, _, _, _, _, _, hj, _, _, _, _, _, hd⟩ := w
    rcases hd with ⟨_, h0⟩ | ⟨i, hi, hc, _⟩
    · exact Or.inl h0
    · exact Or.inr (by omega)
  | released _ _ _ _ _ hc => exact Or.inr hc

/-- If the first request names a block of the history, the end can be reached from every state of the synchronisation:
an honest peer has something to answer, and its answers lead there. -/
theorem C89_can_finish (H : History ch) {l0 l : Loader} {m : Nat} (hsh : Shares ch l0) (h : Session lib g peer s s0 ch l0 m l)
    (hm : n + 2 * (ch.length * ch.length) ≤ m) (c : Ctx) (hf : ∀ j, c.fates j = .ok) :
    ∃ m' l', n ≤ m' ∧ Session lib g peer s s0 ch l0 m' l' ∧ l'.active = false :=
  can_finish H hf hsh h hm

/-- Every synchronisation that the timer starts begins like this, when no difference is remembered, the peer announced
the score of its history, and the store is faithful to the history. -/
theorem C89_begins {l l' : Loader} (R : Running lib g n l) (hn : l.active = false) (hd : l.prevDiff = none) (c : Ctx)
    (h : step lib l ⟨c, .timer⟩ = .ok l') (ha : l'.active = true) (hp : l'.peerID = peer) (han : Announced l.reg peer s)
    (hs : s = worth s0 ch (ch.length - 1)) (F : Faithful s0 ch l.link.db) :
    Running lib g n l' ∧ Begun peer s s0 ch l' := by
  have S := R.serving
  refine ⟨.step (n := n) (l := l) ⟨c, .timer⟩ R h, ?_⟩
  obtain ⟨_, ps, p, _, _, _, _, hlk, hreg, hpd, _⟩ := started R.reachable hn h ha
  have key : ∃ id ids cn m, LastHundred l.link.db id ids ∧ AsksIDs cn ids m ∧ l'.out = l.out ++ [⟨c.now, cn, m⟩] ∧
      l'.obj.state = .waitingForIDs := by
    by_cases hk : count l.fc l'.peerID < 10
    · obtain ⟨id, ids, cn, m, _, h2, _, h4, h5, h6, _⟩ := C48_start R.reachable S hn c h ha hk
      exact ⟨id, ids, cn, m, h2, h4, h5, h6⟩
    · obtain ⟨id, ids, cn, m, _, h2, _, h4, h5, h6, _⟩ := C48_restart_partial R.reachable S hn c h ha (by omega)
      exact ⟨id, ids, cn, m, h2, h4, h5, h6⟩
  obtain ⟨id, ids, cn, m, h1, h2, h3, h4⟩ := key
  refine ⟨ha, h4, hp, hpd.trans hd, ⟨⟨c.now, cn, m⟩, ids, by rw [h3]; simp, h2, ?_⟩, by rw [hreg]; exact han, hs, by rw [hlk]; exact F⟩
  intro x hx
  rw [hlk]
  exact walk_stored S h1.1 x hx

/-- A store is faithful to a history that begins with its genesis block, if all calls made on it brought the blocks
of the history as they are. -/
theorem C89_faithful (H : History ch) {lk : Linkage} (hfr : Chains.Spec.Fresh g lk) (hg : ch[0]? = some g) (hs : ScoreOf lk.db g.id s0)
    (ops : List Chains.Spec.Op) (hb : Chains.Spec.inserts ops + 2 < 2 ^ 32) (hd : Chains.Spec.Disciplined lk ops)
    (hr : ∀ g' f, Chains.Spec.Op.reopen g' f ∈ ops → g'.id = g.id) (ho : GenuineOps s0 ch lk ops) :
    Faithful s0 ch (Chains.Spec.exec lk ops).db :=
  faithful_exec H ops ⟨lk, [], hfr, trivial, fun _ _ h => (by cases h), by simpa [Chains.Spec.inserts] using hb, rfl⟩
    (faithful_fresh H hfr hg hs) hd hr ho

/-! ### a concrete synchronisation -/

open Chains.Ex in
/-- the beginning of the synchronisation, and what the theorems say about it: it can be finished -/
example : ∃ m l', Session Peers.Ex.lib g0 Ex.peer (worth Ex.base Ex.chain 3) Ex.base Ex.chain (Ex.honest [Ex.at_ 100 .timer]) m l' ∧
    l'.active = false ∧ LeashOf l'.link Ex.peer = .ok (bid 3) := by
  have R : Running Peers.Ex.lib g0 1000 (Ex.honest []) := .start (Peers.Ex.reach _) (Ex.serving 1000 (by decide))
  have hst : step Peers.Ex.lib (Ex.honest []) (Ex.at_ 100 .timer) = .ok (Ex.honest [Ex.at_ 100 .timer]) := by rfl
  obtain ⟨R', B⟩ := C89_begins (peer := Ex.peer) (s := worth Ex.base Ex.chain 3) (s0 := Ex.base) (ch := Ex.chain) R (by decide +kernel) rfl
    (Ex.ctx 100) hst (by decide +kernel) (by decide +kernel) ⟨_, rfl, by decide +kernel⟩ rfl Ex.chain_faithful
  have h0 : Session Peers.Ex.lib g0 Ex.peer (worth Ex.base Ex.chain 3) Ex.base Ex.chain (Ex.honest [Ex.at_ 100 .timer]) 1000
      (Ex.honest [Ex.at_ 100 .timer]) := .start R' B
  have hsh : Shares Ex.chain (Ex.honest [Ex.at_ 100 .timer]) :=
    ⟨_, [bid 0], g0, rfl, ⟨rfl, by decide +kernel⟩, by decide +kernel, by decide +kernel⟩
  obtain ⟨m', l', _, h2, h3⟩ := C89_can_finish (n := 0) Ex.chain_history hsh h0 (by decide) (Ex.ctx 101) (fun _ => rfl)
  refine ⟨m', l', h2, h3, ?_⟩
  rcases C89_released Ex.chain_history h2 with ⟨h, _⟩ | ⟨_, _, b, hb, hl⟩
  · rw [h3] at h; cases h
  · cases hb; exact hl

open Chains.Ex in
/-- two rounds: the peer lists one block, then the other two, which arrive in the wrong order -/
example :
    let l := Ex.honest [Ex.at_ 100 .timer, Ex.at_ 101 (.ids Ex.peer [bid 0, bid 1]), Ex.at_ 102 (.block Ex.peer (some (blk 1 0))),
      Ex.at_ 103 (.ids Ex.peer [bid 2, bid 3]), Ex.at_ 104 (.block Ex.peer (some (blk 3 2))), Ex.at_ 105 (.block Ex.peer (some (blk 2 1)))]
    l.active = false ∧ LeashOf l.link Ex.peer = .ok (bid 3) ∧ requests l.out = 2 ∧
    Follows Ex.chain [bid 0] [bid 0, bid 1] ∧ Follows Ex.chain [bid 1, bid 0] [bid 2, bid 3] := by
  refine ⟨by decide +kernel, by decide +kernel, by decide +kernel, ?_, ?_⟩
  · exact ⟨[], g0, [], 0, 1, by decide +kernel, by simp, rfl, by decide, by decide, by decide, Or.inl (by decide +kernel)⟩
  · exact ⟨[], blk 1 0, [bid 0], 1, 3, by decide +kernel, by simp, rfl, by decide, by decide, by decide, Or.inr ⟨by decide, by decide +kernel⟩⟩

end Verif.Loading
