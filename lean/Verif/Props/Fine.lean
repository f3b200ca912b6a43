import Verif.Loading.FineEx
import Verif.Loading.FineQuiet
import Verif.Props.Honest
/-
Property C92: the loader among the other goroutines.
-/

set_option autoImplicit false

namespace Verif.Loading

open Verif
open Verif.Loading.Fine
open Verif.Chains (Addr BlockID ProtoBlock Linkage LCB LeashOf getBlockByID)
open Verif.Chains.Spec (Stored IsWalk)
open Verif.Peers (Lib Registry)

variable {lib : Lib} {g : ProtoBlock} {N : Nat} {reg : Registry} {lk : Linkage} {w w' : World}

/-- If no other goroutine makes a call while the loader handles an event, the handler does what the model of
`Loading/Loader.lean` does in one step. -/
theorem C92_alone (c : Ctx) (o : Own) (i : Input) (s : Shared) :
    (∀ o' s', (handle c o i).alone lib s = (.ok o', s') → step lib (o.on s) ⟨c, i.event⟩ = .ok (o'.on s')) ∧
    (∀ e s', (handle c o i).alone lib s = (.error e, s') → step lib (o.on s) ⟨c, i.event⟩ = .error e) := by
  have A := agree_handle (lib := lib) c o s i
  constructor
  · intro o' s' h
    rw [h] at A
    cases hr : step lib (o.on s) ⟨c, i.event⟩ with
    | error e => have := A.result; rw [hr] at this; cases this
    | ok l =>
      have h1 := A.result
      have h2 := A.shared l hr
      rw [hr] at h1
      cases h1
      cases h2
      rfl
  · intro e s' h
    rw [h] at A
    have := A.result
    cases hr : step lib (o.on s) ⟨c, i.event⟩ with
    | error e' => rw [hr] at this; cases this; rfl
    | ok l => rw [hr] at this; cases this

/-- The histories of `Loading/Spec.lean` are among the runs: what the loader can get into when every event is handled in one step, it
can get into here, having received the same. -/
theorem C92_includes (es : List Event) {l : Loader} (h : exec lib (NewLoader reg lk) es = .ok l) :
    ∃ w, Run lib (World.start reg lk) w ∧ w.todo = none ∧ w.own.on w.sh = l ∧ w.ins = heard es := by
  obtain ⟨w, h1, h2, h3, h4⟩ := run_events es (w := World.start reg lk) .nil rfl h
  exact ⟨w, h1, h2, h3, by simpa [World.start] using h4⟩

/-- The other way round, a run in which the other goroutines make calls only while the loader waits for an event is one of these
histories, so every theorem about them holds for it. -/
theorem C92_quiet (h : Undisturbed lib (World.start reg lk) w) (ht : w.todo = none) :
    ∃ es, heard es = w.ins ∧ exec lib (NewLoader reg lk) es = .ok (w.own.on w.sh) := by
  cases quiet_along h with
  | between es _ he hi => exact ⟨es, hi, he⟩
  | during es c i s0 p hp => rw [ht] at hp; cases hp

/-- Other goroutines make any calls on the store and the registry at any moment, also between two calls that the loader makes for
the same event.  The store is at every moment what the calls made so far, one after the other, made of it; no block is lost
or changed, and the calls of the loader are disciplined: every theorem about the store applies to it. -/
theorem C92_store (S : Serving g N lk) (R : Peers.Reachable lib reg) (h : Run lib (World.start reg lk) w)
    (hN : Chains.Spec.inserts w.calls ≤ N) :
    w.sh.link = Chains.Spec.exec lk w.calls ∧ Serving g (N - Chains.Spec.inserts w.calls) w.sh.link ∧
    (∀ id r, getBlockByID lk.db id = .ok r → getBlockByID w.sh.link.db id = .ok r) ∧ Peers.Reachable lib w.sh.reg := by
  obtain ⟨H, hl⟩ := steady S R h (src := received w) (received_from w) hN
  exact ⟨store_exec h, H.sound.store, hl.record, H.sound.reg⟩

/-- The loader never waits for ever in the middle of an event, and if it crashes the program, the call that it has just made is
`LCB` with the panic of C14, or `PutBlock` with a base target of 2^63 or more (C27).  Nothing that other goroutines do between
two calls of the loader adds another reason. -/
theorem C92_crash (S : Serving g N lk) (R : Peers.Reachable lib reg) (h : Run lib (World.start reg lk) w) (t : Step lib w w')
    (hN : Chains.Spec.inserts w'.calls ≤ N) (hc : w'.Crashed) :
    w.Crashed ∨ (∃ env a k, w.todo = some (.call (.lcb env a) k) ∧ LCB env w.sh.link a = goPanic) ∨
      ∃ f1 f2 b a k, w.todo = some (.call (.putBlock f1 f2 b a) k) ∧ 2 ^ 63 ≤ b.baseTarget.toNat := by
  obtain ⟨H, _⟩ := steady S R h (src := received w) (received_from w) (Nat.le_trans t.inserts hN)
  have dead : ∀ p sh, p = .ret goPanic → Sound lib g 0 sh → ¬ Safe lib g (received w') Dies (Rest (received w')) p sh := by
    intro p sh hp hs hsafe
    subst hp
    obtain ⟨_, h, _⟩ := hsafe sh (Later.refl _) hs
    cases h
  cases t with
  | other x => exact Or.inl hc
  | finish o ht => cases hc
  | receive c i ht =>
    obtain ⟨F, hq⟩ := (steady S R h (src := received { w with todo := some (handle c w.own i), ins := w.ins ++ [(c, i)] })
      (fun c' i' hm => received_from { w with todo := some (handle c w.own i), ins := w.ins ++ [(c, i)] } c' i'
        (List.mem_append.mpr (Or.inl hm))) hN).1.rest ht
    have hs := safe_handle (lib := lib) (g := g) c i F hq
      (received_from { w with todo := some (handle c w.own i), ins := w.ins ++ [(c, i)] } c i
        (List.mem_append.mpr (Or.inr (List.mem_singleton.mpr rfl))))
    exact absurd hs (dead _ _ (Option.some.inj hc) (H.sound.mono (Nat.zero_le _)))
  | call c k ht =>
    rcases H.busy _ ht with hx | hx
    · cases hx
    · have hcalls : World.calls ⟨w.own, some (k (c.res lib w.sh)), c.effect w.sh, w.ins,
          w.log ++ (c.op.map (fun o => (true, o))).toList⟩ = w.calls ++ c.op.toList := calls_append w true c.op
      rw [hcalls, Chains.inserts_append] at hN
      have hcost : c.cost = Chains.Spec.inserts c.op.toList := rfl
      have hroom : Sound lib g (0 + c.cost) w.sh := H.sound.mono (by rw [hcost]; omega)
      obtain ⟨hal, hor⟩ := hx w.sh (Later.refl _) (by rw [Nat.zero_add] at hroom; exact hroom)
      rcases hor _ _ (Or.inl ⟨rfl, rfl⟩) with ⟨hca, _⟩ | hsafe
      · cases c with
        | lcb env a => exact Or.inr (Or.inl ⟨env, a, k, ht, hca⟩)
        | putBlock f1 f2 b a => exact Or.inr (Or.inr ⟨f1, f2, b, a, k, ht, hca⟩)
        | _ => exact hca.elim
      · exact absurd hsafe (dead _ _ (Option.some.inj hc) (Call.sound (n := 0) c hroom hal).1)

/-- Until it has crashed the loader can always go on: it makes its next call or ends the handling of the event. -/
theorem C92_goes_on (S : Serving g N lk) (R : Peers.Reachable lib reg) (h : Run lib (World.start reg lk) w)
    (hN : Chains.Spec.inserts w.calls ≤ N) (hc : ¬ w.Crashed) :
    w.todo = none ∨ (∃ c k, w.todo = some (.call c k)) ∨ ∃ o, w.todo = some (.ret (.ok o)) := by
  obtain ⟨H, _⟩ := steady S R h (src := received w) (received_from w) hN
  cases ht : w.todo with
  | none => exact Or.inl rfl
  | some p =>
    cases p with
    | call c k => exact Or.inr (Or.inl ⟨c, k, rfl⟩)
    | ret r =>
      rcases H.busy _ ht with hx | hx
      · exact absurd (by rw [World.Crashed, ht, hx]) hc
      · obtain ⟨o, ho, _⟩ := hx w.sh (Later.refl _) (H.sound.mono (Nat.zero_le _))
        subst ho
        exact Or.inr (Or.inr ⟨o, rfl⟩)

/-- Whatever the other goroutines do meanwhile, the loader stores blocks only that it received from the peer to which it attributes
them, and it moves the position of a peer only to a block that this peer listed. -/
theorem C92_origin (S : Serving g N lk) (R : Peers.Reachable lib reg) (h : Run lib (World.start reg lk) w)
    (hN : Chains.Spec.inserts w.calls ≤ N) :
    (∀ b a f1 f2, (true, Chains.Spec.Op.putBlock b a f1 f2) ∈ w.log → ∃ c, (c, Input.block a (some b)) ∈ w.ins) ∧
    (∀ id a f, (true, Chains.Spec.Op.moveLeash id a f) ∈ w.log → ∃ c l, (c, Input.ids a l) ∈ w.ins ∧ id ∈ l) ∧
    (∀ inv a f1 f2, (true, Chains.Spec.Op.putMicro inv a f1 f2) ∉ w.log) ∧ ∀ g' f, (true, Chains.Spec.Op.reopen g' f) ∉ w.log := by
  obtain ⟨H, _⟩ := steady S R h (src := received w) (received_from w) hN
  exact ⟨fun b a f1 f2 hm => H.log _ hm, fun id a f hm => H.log _ hm, fun inv a f1 f2 hm => H.log _ hm, fun g' f hm => H.log _ hm⟩

/-- Between two events, whatever happened during the earlier ones: every request for ids that the loader ever sent lists between one and
100 stored blocks, each of them the parent of the one before it; every block that it ever requested was listed by a
peer. -/
theorem C92_requests (S : Serving g N lk) (R : Peers.Reachable lib reg) (h : Run lib (World.start reg lk) w)
    (hN : Chains.Spec.inserts w.calls ≤ N) (hr : w.todo = none) :
    (∀ m, m ∈ w.own.out → ∀ req, AsksIDs m.to req m.msg → req ≠ [] ∧ req.length ≤ 100 ∧ IsWalk w.sh.link.db req) ∧
    ∀ m, m ∈ w.own.out → ∀ id, m.msg = .getBlock id → ∃ a c l, (c, Input.ids a l) ∈ w.ins ∧ id ∈ l := by
  obtain ⟨H, _⟩ := steady S R h (src := received w) (received_from w) hN
  exact ⟨(H.rest hr).1.asked, (H.rest hr).1.wanted⟩

/-- Between two events, while a synchronisation is going on: the ticker runs, so that a silent peer is given up; the last request was
sent to the current peer at the time that the timeout is counted from; the peer has a connection and has announced a
score. -/
theorem C92_watched (S : Serving g N lk) (R : Peers.Reachable lib reg) (h : Run lib (World.start reg lk) w)
    (hN : Chains.Spec.inserts w.calls ≤ N) (hr : w.todo = none) (ha : w.own.active = true) :
    w.own.ticking = true ∧ w.own.obj.peer.conn ≠ none ∧ (∃ p s, Peers.PeerOf w.sh.reg w.own.peerID = .ok p ∧ p.score = some s) ∧
    (w.own.obj.timestamp = zeroTime ∨
      ∃ m, w.own.out.getLast? = some m ∧ m.time = w.own.obj.timestamp ∧ w.own.obj.peer.conn = some m.to) := by
  obtain ⟨H, _⟩ := steady S R h (src := received w) (received_from w) hN
  obtain ⟨F, _⟩ := H.rest hr
  obtain ⟨s, p, h1, h2, _⟩ := (F.scored ha).announced H.sound.reg.inv
  exact ⟨F.ticking ha, F.conn ha, ⟨p, s, h1, h2⟩, F.stamp ha⟩

/-- What C89 says about an honest peer does not carry over to this level.  The peer announces the score of its four blocks, answers
every request with a part of its history, and sends the right blocks; all writes succeed; the only call of another
goroutine stores block 1, which the peer has sent a second time.  This call comes between the call by which the loader stores block
2 and the one by which it asks for the score of the position of the peer.  The loader concludes that it makes no progress, and
releases the peer: block 3 is not stored. -/
theorem C92_early_release :
    Run Peers.Ex.lib (World.start Ex.honestReg Chains.Ex.l0) (Fine.Ex.world Fine.Ex.race) ∧
    (Fine.Ex.world (Fine.Ex.twoBlocks.take 20)).own.active = true ∧
    (Fine.Ex.world Fine.Ex.race).todo = none ∧ (Fine.Ex.world Fine.Ex.race).own.active = false ∧
    Chains.HasBlock (Fine.Ex.world Fine.Ex.race).sh.link.db (Chains.Ex.bid 3) = .ok false ∧
    (Fine.Ex.world Fine.Ex.race).log.filter (fun x => !x.1) =
      [(false, Chains.Spec.Op.putBlock (Chains.Ex.blk 1 0) Ex.peer .ok .ok)] ∧
    History Ex.chain ∧ Follows Ex.chain [Chains.Ex.bid 0] [Chains.Ex.bid 0, Chains.Ex.bid 1] ∧
    Follows Ex.chain [Chains.Ex.bid 1, Chains.Ex.bid 0] [Chains.Ex.bid 1, Chains.Ex.bid 2] ∧
    Genuine Ex.chain (Chains.Ex.blk 1 0) ∧ Genuine Ex.chain (Chains.Ex.blk 2 1) := by
  refine ⟨Fine.Ex.world_run _, by decide +kernel, by rfl, by decide +kernel, by decide +kernel, by rfl, Ex.chain_history, ?_, ?_,
    by unfold Genuine; decide +kernel, by unfold Genuine; decide +kernel⟩
  · exact ⟨[], Chains.Ex.g0, [], 0, 1, by decide +kernel, by simp, rfl, by decide, by decide, by decide, Or.inl (by decide +kernel)⟩
  · exact ⟨[], Chains.Ex.blk 1 0, [Chains.Ex.bid 0], 1, 2, by decide +kernel, by simp, rfl, by decide, by decide, by decide,
      Or.inl (by decide +kernel)⟩

/-! ### concrete runs -/

open Chains.Ex in
/-- The same without the second copy: after the same number of calls the loader has asked for more.  The loader
made two calls that write: it stored two blocks. -/
example :
    let w := Fine.Ex.world (Fine.Ex.twoBlocks ++ Fine.Ex.goes 5)
    Run Peers.Ex.lib Fine.Ex.begin w ∧ Chains.Spec.inserts w.calls ≤ 1000 ∧ w.own.active = true ∧ w.own.obj.state = .waitingForIDs ∧
    LeashOf w.sh.link Ex.peer = .ok (bid 2) ∧ w.log.length = 2 ∧ w.ins.length = 5 := by
  refine ⟨Fine.Ex.world_run _, by decide +kernel, by decide +kernel, by decide +kernel, by decide +kernel, by decide +kernel, by decide +kernel⟩

/-- nobody disturbs the loader, and it waits for the next event -/
example :
    let w := Fine.Ex.world (Fine.Ex.twoBlocks ++ Fine.Ex.goes 5)
    Undisturbed Peers.Ex.lib Fine.Ex.begin w ∧ w.todo = none ∧ w.ins.length = 5 := by
  refine ⟨Fine.Ex.world_undisturbed _ ?_, rfl, by decide +kernel⟩
  simp [Fine.Ex.twoBlocks, Fine.Ex.goes]

/-- the loader in the middle of an event -/
example : (Fine.Ex.world Fine.Ex.twoBlocks).todo ≠ none ∧ Serving Chains.Ex.g0 1000 Chains.Ex.l0 ∧ Peers.Reachable Peers.Ex.lib Ex.honestReg :=
  ⟨(fun h => by cases h), Ex.serving 1000 (by decide), Peers.Ex.reach _⟩

end Verif.Loading
