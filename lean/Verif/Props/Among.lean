import Verif.Loading.AmongEx
/-
Property C106: the history of an honest peer is loaded completely, while the other goroutines work between the calls of the loader.
-/

set_option autoImplicit false

namespace Verif.Loading

open Verif
open Verif.Chains (Addr BlockID ProtoBlock Linkage LeashOf)
open Verif.Chains.Spec (Stored)
open Verif.Peers (Lib Registry)
open Verif.Loading.Fine

variable {lib : Lib} {g : ProtoBlock} {N : Nat} {s s0 : Nat} {ch : List ProtoBlock} {peer : Addr} {reg : Registry} {lk : Linkage} {w0 w : World}

/-- A synchronisation with an honest peer never ends with a panic and never changes to another peer.  Between two events the loader waits for ids or
blocks of the peer; or it has released the peer, then all blocks of its history are stored and its position is the last of them. -/
theorem C106_released (H : History ch) (S : Serving g N lk) (R : Peers.Reachable lib reg) (h0 : Run lib (World.start reg lk) w0)
    (ht : w0.todo = none) (hb : Begun peer s s0 ch (w0.own.on w0.sh)) (h : Among lib peer s s0 ch w0 w)
    (hN : Chains.Spec.inserts w.calls ≤ N) :
    ¬ w.Crashed ∧ w.own.peerID = peer ∧ (w.todo ≠ none → w.own.active = true) ∧
    (w.todo = none →
      (w.own.active = true ∧ (w.own.obj.state = .waitingForIDs ∨ w.own.obj.state = .waitingForBlocks)) ∨
      (w.own.active = false ∧ (∀ x, x ∈ ch → Stored w.sh.link.db x.id) ∧
        ∃ b, ch.getLast? = some b ∧ LeashOf w.sh.link peer = .ok b.id)) := by
  have K := among_kept H S R h0 ht hb.starts h hN
  obtain ⟨more, hout, P, L⟩ := K.phase
  refine ⟨?_, K.who, ?_, ?_⟩
  · intro hc
    obtain ⟨_, L⟩ := L _ hc
    obtain ⟨o', _, h1, _⟩ := L w.sh (Between.refl _) (K.good.mono (Nat.zero_le _))
    cases h1
  · intro hn
    obtain ⟨p, hp⟩ := Option.ne_none_iff_exists'.mp hn
    exact (L p hp).1
  · intro hn
    cases P hn with
    | asking m req h => exact Or.inl ⟨h.active, Or.inl h.state⟩
    | loading k a arrived j h => exact Or.inl ⟨h.active, Or.inr h.state⟩
    | released ha hp hc =>
      replace hp := hp.full hb.diff
      have hpos : 0 < ch.length := by
        obtain ⟨_, _, _, hj, _⟩ := hp
        have := (List.getElem?_eq_some_iff.mp hj).1
        omega
      exact Or.inr ⟨ha, released_all hpos K.steady.sound.store K.faithful hp⟩

/-- During the synchronisation the loader sends fewer requests for ids than the history has blocks, after the first one. -/
theorem C106_rounds (H : History ch) (S : Serving g N lk) (R : Peers.Reachable lib reg) (h0 : Run lib (World.start reg lk) w0)
    (ht : w0.todo = none) (hb : Begun peer s s0 ch (w0.own.on w0.sh)) (h : Among lib peer s s0 ch w0 w)
    (hN : Chains.Spec.inserts w.calls ≤ N) :
    ∃ more, w.own.out = w0.own.out ++ more ∧ (requests more = 0 ∨ requests more < ch.length) := by
  obtain ⟨more, hout, hm⟩ := bounded (fun w h hN => ⟨_, among_kept H S R h0 ht hb.starts h hN⟩) h hN
  have he : requests more = asking more := by unfold requests asking; rw [List.countP_eq_length_filter]
  exact ⟨more, hout, by rw [he]; exact hm⟩

/-- If the first request names a block of the history, the end can be reached from every moment of the synchronisation, also from the middle
of an event and whatever the other goroutines have done so far: with three more insertions for each block of the history at most. -/
theorem C106_can_finish (H : History ch) (S : Serving g N lk) (R : Peers.Reachable lib reg) (h0 : Run lib (World.start reg lk) w0)
    (ht : w0.todo = none) (hb : Begun peer s s0 ch (w0.own.on w0.sh)) (hsh : Shares ch (w0.own.on w0.sh)) (h : Among lib peer s s0 ch w0 w)
    (hN : Chains.Spec.inserts w.calls + 3 * ch.length ≤ N) (c : Ctx) (hf : ∀ j, c.fates j = .ok) :
    ∃ w', Among lib peer s s0 ch w0 w' ∧ w'.todo = none ∧ w'.own.active = false ∧
      Chains.Spec.inserts w'.calls ≤ Chains.Spec.inserts w.calls + 3 * ch.length := by
  obtain ⟨w', h1, h2, h3, h4⟩ := can_finish_fine H hb.score (fun w h hN => ⟨_, among_kept H S R h0 ht hb.starts h hN⟩) hf hsh h hN
  exact ⟨w', h1, h2, h4, h3⟩

/-- Every synchronisation that the timer starts begins like this, whatever the other goroutines do while the handler of the timer runs, when no
difference is remembered, and at its end the peer has announced the score of its history and the store is faithful to the history. -/
theorem C106_begins (S : Serving g N lk) (R : Peers.Reachable lib reg) (h0 : Run lib (World.start reg lk) w) (ht : w.todo = none)
    (hn : w.own.active = false) (hd : w.own.prevDiff = none) (c : Ctx) {v : World}
    (h : Handling lib { w with todo := some (Fine.handle c w.own .timer), ins := w.ins ++ [(c, .timer)] } v)
    (hN : Chains.Spec.inserts v.calls ≤ N) {o : Own} (hv : v.todo = some (.ret (.ok o))) (ha : o.active = true) (hp : o.peerID = peer)
    (han : Announced v.sh.reg peer s) (hs : s = worth s0 ch (ch.length - 1)) (F : Faithful s0 ch v.sh.link.db) :
    Run lib (World.start reg lk) { v with own := o, todo := none } ∧ Begun peer s s0 ch (o.on v.sh) := by
  have h1 := h0.snoc (.receive w c .timer ht)
  refine ⟨(h.run h1).snoc (.finish v o hv), ?_⟩
  have hE := ends_along (lib := lib) (g := g) (N := N) (v := { w with todo := some (Fine.handle c w.own .timer), ins := w.ins ++ [(c, .timer)] }) rfl (ends_sync (lib := lib) (g := g) c (x := w.sh) hn) ?_ h hN
  · obtain ⟨q, hq, hE⟩ := hE
    rw [hv] at hq; cases hq
    obtain ⟨St, _⟩ := steady (src := received v) S R (h.run h1) (fun c i hm => received_from v c i hm) hN
    obtain ⟨e1, e2, m, req, e3, _, _, e4, e5⟩ := hE v.sh (Later.refl _) (St.sound.mono (Nat.zero_le _)) o rfl ha
    exact ⟨ha, e1, hp, e2.trans hd, ⟨m, req, by show o.out.getLast? = _; rw [e3]; simp, e4, e5⟩, han, hs, F⟩
  · intro u hu hNu
    refine ⟨(steady (src := received u) S R (hu.run h1) (fun c i hm => received_from u c i hm) hNu).1.sound, ?_⟩
    intro u' t hN'
    have St := (steady (src := received u') S R (hu.run h1) (fun c i hm => received_from u' c i (t.ins _ hm)) hNu).1
    exact (St.step t (fun c i hm => received_from u' c i hm) hN').2

/-- Which calls of others leave the position of the peer on the history: all calls on the registry, all calls on the store made for another
peer, and the calls that bring a block of the history for the peer which is not before its position. -/
theorem C106_others {n : Nat} (S : Serving g (n + 1) w.sh.link) (x : Other)
    (hx : ∀ b a f1 f2, x = .putBlock b a f1 f2 → peer.plain = a.plain → NotBehind peer ch w.sh b.id)
    (hm : ∀ inv a f1 f2, x = .putMicro inv a f1 f2 → peer.plain = a.plain → NotBehind peer ch w.sh inv.totalBlockID) :
    Onward peer ch w.sh (x.effect lib w.sh) := by
  intro i y hi hl
  cases x with
  | registry e => exact ⟨i, y, Nat.le_refl _, hi, hl⟩
  | putBlock b a f1 f2 =>
    rcases leash_step S (.putBlock b a f1 f2) rfl peer with h | ⟨h1, h2⟩
    · exact ⟨i, y, Nat.le_refl _, hi, h.trans hl⟩
    · obtain ⟨j, z, hj, hz, he⟩ := hx b a f1 f2 rfl h1 i y hi hl
      exact ⟨j, z, hj, hz, by rw [he]; exact h2⟩
  | putMicro inv a f1 f2 =>
    rcases leash_step S (.putMicro inv a f1 f2) rfl peer with h | ⟨h1, h2⟩
    · exact ⟨i, y, Nat.le_refl _, hi, h.trans hl⟩
    · obtain ⟨j, z, hj, hz, he⟩ := hm inv a f1 f2 rfl h1 i y hi hl
      exact ⟨j, z, hj, hz, by rw [he]; exact h2⟩

/-! ### a concrete synchronisation -/

open Chains.Ex in
/-- The distributor stores block 1 for the peer while the loader handles its list.  In the middle of what the loader does next
the end can still be reached. -/
example : ∃ w', Among Peers.Ex.lib Ex.peer (worth Ex.base Ex.chain 3) Ex.base Ex.chain (Fine.Ex.world Fine.Ex.opened) w' ∧ w'.todo = none ∧
    w'.own.active = false ∧ LeashOf w'.sh.link Ex.peer = .ok (bid 3) := by
  have S : Serving g0 1000 Chains.Ex.l0 := Ex.serving 1000 (by decide)
  have R : Peers.Reachable Peers.Ex.lib Ex.honestReg := Peers.Ex.reach _
  have hsh : Shares Ex.chain ((Fine.Ex.world Fine.Ex.opened).own.on (Fine.Ex.world Fine.Ex.opened).sh) :=
    ⟨_, [bid 0], g0, rfl, ⟨rfl, by decide +kernel⟩, by decide +kernel, by decide +kernel⟩
  obtain ⟨w', h1, h2, h3, h4⟩ := C106_can_finish Ex.chain_history S R (Fine.Ex.world_run _) rfl Fine.Ex.begun hsh Fine.Ex.among_pushed
    (by decide +kernel) (Ex.ctx 102) (fun _ => rfl)
  refine ⟨w', h1, h2, h3, ?_⟩
  have hN : Chains.Spec.inserts w'.calls ≤ 1000 := Nat.le_trans h4 (by decide +kernel)
  obtain ⟨_, _, _, hr⟩ := C106_released Ex.chain_history S R (Fine.Ex.world_run _) rfl Fine.Ex.begun h1 hN
  rcases hr h2 with ⟨h, _⟩ | ⟨_, _, b, hb, hl⟩
  · rw [h3] at h; cases h
  · cases hb; exact hl

/-- the handler of the timer, which is the beginning of this synchronisation -/
example :
    let w := Fine.Ex.begin
    let v := Fine.Ex.world (Fine.Ex.opened.take 5)
    w.todo = none ∧ w.own.active = false ∧ w.own.prevDiff = none ∧
    Handling Peers.Ex.lib { w with todo := some (Fine.handle (Ex.ctx 100) w.own .timer), ins := w.ins ++ [(Ex.ctx 100, .timer)] } v ∧
    ∃ o, v.todo = some (.ret (.ok o)) ∧ o.active = true ∧ o.peerID = Ex.peer ∧ Announced v.sh.reg Ex.peer (worth Ex.base Ex.chain 3) ∧
      Faithful Ex.base Ex.chain v.sh.link.db := by
  refine ⟨rfl, rfl, rfl, Fine.Ex.handling_goes 4 .start rfl, _, rfl, by decide +kernel, by decide +kernel, ⟨_, rfl, by decide +kernel⟩, Ex.chain_faithful⟩

open Chains.Ex in
/-- storing block 1 for the peer, whose position is the genesis block, is no disturbance -/
example : Serving g0 1 (Fine.Ex.world Fine.Ex.named).sh.link ∧ NotBehind Ex.peer Ex.chain (Fine.Ex.world Fine.Ex.named).sh (bid 1) :=
  ⟨Ex.serving 1 (by decide), Fine.Ex.not_behind⟩

end Verif.Loading
