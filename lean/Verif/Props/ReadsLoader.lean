import Verif.Loading.FineReadsEx
import Verif.Loading.FineReadsGood
import Verif.Loading.FineChoice
import Verif.Props.Honest
/-
C103: the history loader on a disk that fails to read.
-/

set_option autoImplicit false

namespace Verif.Loading

open Verif
open Verif.Loading.Fine
open Verif.Chains (Addr BlockID ProtoBlock Linkage getBlockByID)
open Verif.Chains.Spec (Stored IsWalk)
open Verif.Peers (Lib Registry)

variable {lib : Lib} {g : ProtoBlock} {N : Nat} {reg : Registry} {lk : Linkage} {w w' : World} {tr tr' : List Fine.Answer}

/-- The runs on a disk that reads well are among the runs considered here, and on such a disk every call of the loader and of
the others answers and does what it answers and does in C92. -/
theorem C103_good : (Run lib w w' → ∃ tr, RdRun lib w tr w') ∧
    (∀ (c : Call) (s : Shared), c.resRd Disk.good lib s = c.res lib s ∧ c.effectRd Disk.good s = c.effect s) ∧
    ∀ (x : Other) (s : Shared), x.effectRd Disk.good lib s = x.effect lib s :=
  ⟨Run.good, fun c s => ⟨c.res_good s, c.effect_good s⟩, fun x s => x.effect_good s⟩

/-- Any reads fail at any call.  The store is at every moment what some of the calls made so far, in the same order, made of it on a good
disk; no block is lost or changed, and the store and the registry are such that every theorem about them applies. -/
theorem C103_store (S : Serving g N lk) (R : Peers.Reachable lib reg) (h : RdRun lib (World.start reg lk) tr w)
    (hN : Chains.Spec.inserts w.calls ≤ N) :
    (∃ done : List Chains.Spec.Op, done.Sublist w.calls ∧ w.sh.link = Chains.Spec.exec lk done) ∧
    Serving g (N - Chains.Spec.inserts w.calls) w.sh.link ∧
    (∀ id r, getBlockByID lk.db id = .ok r → getBlockByID w.sh.link.db id = .ok r) ∧ Peers.Reachable lib w.sh.reg := by
  obtain ⟨H, hl⟩ := steadyRd S R h (src := received w) (received_from w) hN
  exact ⟨store_execRd h, H.sound.store, hl.record, H.sound.reg⟩

/-- What a call does on a failing disk, for every call but the two queries of scores and of the common block: what it does on a good disk, or it
returns an error and changes nothing. -/
theorem C103_call (D : Disk) (s : Shared) (c : Call) (h1 : ∀ a, c ≠ .leashScore a) (h2 : ∀ env a, c ≠ .lcb env a) :
    (c.resRd D lib s = c.res lib s ∧ c.effectRd D s = c.effect s) ∨
    ((⟨c, c.resRd D lib s⟩ : Fine.Answer).Failed ∧ c.effectRd D s = s) := by
  cases c with
  | leashScore a => exact absurd rfl (h1 a)
  | lcb env a => exact absurd rfl (h2 env a)
  | hasBlock id =>
    exact (Chains.Rd.safe_hasBlock D.chains s.link.db id).out.imp (fun h => ⟨h, rfl⟩) (fun h => ⟨⟨_, h⟩, rfl⟩)
  | leashOf a => exact (Chains.Rd.safe_LeashOf D.chains s.link a).out.imp (fun h => ⟨h, rfl⟩) (fun h => ⟨⟨_, h⟩, rfl⟩)
  | lastIDs id m => exact (Chains.Rd.safe_LastIDs D.chains s.link.db id m).out.imp (fun h => ⟨h, rfl⟩) (fun h => ⟨⟨_, h⟩, rfl⟩)
  | moveLeash f id a => exact Or.inl ⟨rfl, rfl⟩
  | putBlock f1 f2 b a =>
    rcases Chains.Rd.safe_step D.chains s.link (.putBlock b a f1 f2) with h | ⟨_, h⟩
    · exact Or.inl ⟨congrArg (fun p : Linkage × Go Unit => p.2) h, by simp only [Call.effectRd, Call.effect, Call.op, h]⟩
    · exact Or.inr ⟨⟨_, congrArg (fun p : Linkage × Go Unit => p.2) h⟩, by simp only [Call.effectRd, Call.op, h]⟩
  | connections env =>
    have key : Peers.Rd.Connections D.peers lib env s.reg = Peers.Connections lib env s.reg ∨
        Peers.Rd.Connections D.peers lib env s.reg = fail Chains.Rd.readFailed := by
      unfold Peers.Rd.Connections Peers.Connections
      rcases Peers.Rd.connectionsLoop_safe D.peers s.reg.db (env.mapOrder s.reg.connections) with h | ⟨e, h, hor⟩
      · left; rw [h]
      · rcases hor with rfl | h'
        · right; rw [h]; rfl
        · left; rw [h, h']
    exact key.imp (fun h => ⟨h, rfl⟩) (fun h => ⟨⟨_, h⟩, rfl⟩)
  | peerOf a => exact (Peers.Rd.peer_safe D.peers s.reg.db a).imp (fun h => ⟨h, rfl⟩) (fun h => ⟨⟨_, h.2⟩, rfl⟩)

/-- Which blocks the loader requests when it has received a list of ids, whatever its calls on the store are answered.  Either none of
them failed: the blocks at the beginning of the list of which the store said that it has them are passed over, the first one of
which it said that it has not and all that follow it are requested, in this order, from the peer.  Or one failed: the error comes back and
nothing is requested.  Or the loader panics (C103_crash says when), having requested nothing. -/
theorem C103_lookup (c : Ctx) (o : Own) (ids : List BlockID) :
    All (fun tr r =>
      ((∀ x, x ∈ tr → ¬ x.Failed) ∧ r.2 = .ok () ∧ ∃ pre req, ids = pre ++ req ∧
        (∀ id, id ∈ pre → (⟨.hasBlock id, (.ok true : Go Bool)⟩ : Fine.Answer) ∈ tr) ∧
        (∀ id, req.head? = some id → (⟨.hasBlock id, (.ok false : Go Bool)⟩ : Fine.Answer) ∈ tr) ∧
        ((req = [] ∧ r.1.out = o.out) ∨
          ∃ cn, o.obj.peer.conn = some cn ∧ r.1.out = o.out ++ req.map (fun id => ⟨c.now, cn, .getBlock id⟩))) ∨
      (r.1.out = o.out ∧ ∃ e, r.2 = fail e ∧ ∃ x, x ∈ tr ∧ x.Failed) ∨
      (r.1.out = o.out ∧ r.2 = goPanic)) [] (Fine.requestBlocks c o ids) := by
  refine (all_requested c o ids).mono ?_
  rintro tr r (⟨h1, h2, req, ⟨⟨pre, a1, a2⟩, a3⟩, h⟩ | ⟨h1, h | h⟩)
  · exact Or.inl ⟨h1, h2, pre, req, a1, a2, a3, h⟩
  · exact Or.inr (Or.inr ⟨h1, h⟩)
  · exact Or.inr (Or.inl ⟨h1, h⟩)

/-- A failed read does not crash the loader.  If a step crashes it, it is the panic of C14 in `LCB`, or `PutBlock` with a base target of
2^63 or more (C27). -/
theorem C103_crash (S : Serving g N lk) (R : Peers.Reachable lib reg) (h : RdRun lib (World.start reg lk) tr w)
    (t : RdStep lib w tr' w') (hN : Chains.Spec.inserts w'.calls ≤ N) (hc : w'.Crashed) :
    w.Crashed ∨ (∃ env a, tr' = [⟨.lcb env a, (goPanic : Go BlockID)⟩]) ∨
      ∃ f1 f2 b a r, tr' = [⟨.putBlock f1 f2 b a, r⟩] ∧ 2 ^ 63 ≤ b.baseTarget.toNat := by
  obtain ⟨H, _⟩ := steadyRd S R h (src := received w) (received_from w) (Nat.le_trans t.inserts hN)
  have dead : ∀ {src : Source} p sh, p = .ret goPanic → Sound lib g 0 sh → ¬ Safe lib g src Dies (Rest src) p sh := by
    intro src p sh hp hs hsafe
    subst hp
    obtain ⟨_, h, _⟩ := hsafe sh (Later.refl _) hs
    cases h
  cases t with
  | other D x => exact Or.inl hc
  | finish o ht => cases hc
  | receive c i ht =>
    obtain ⟨F, hq⟩ := (steadyRd S R h (src := received { w with todo := some (handle c w.own i), ins := w.ins ++ [(c, i)] })
      (fun c' i' hm => received_from { w with todo := some (handle c w.own i), ins := w.ins ++ [(c, i)] } c' i'
        (List.mem_append.mpr (Or.inl hm))) hN).1.rest ht
    have hs := safe_handle (lib := lib) (g := g) c i F hq
      (received_from { w with todo := some (handle c w.own i), ins := w.ins ++ [(c, i)] } c i
        (List.mem_append.mpr (Or.inr (List.mem_singleton.mpr rfl))))
    exact absurd hs (dead _ _ (Option.some.inj hc) (H.sound.mono (Nat.zero_le _)))
  | call D c k ht =>
    rcases H.busy _ ht with hx | hx
    · cases hx
    · have hcalls : World.calls ⟨w.own, some (k (c.resRd D lib w.sh)), c.effectRd D w.sh, w.ins,
          w.log ++ (c.op.map (fun o => (true, o))).toList⟩ = w.calls ++ c.op.toList := calls_append w true c.op
      rw [hcalls, Chains.inserts_append] at hN
      have hcost : c.cost = Chains.Spec.inserts c.op.toList := rfl
      have hroom : Sound lib g (0 + c.cost) w.sh := H.sound.mono (by rw [hcost]; omega)
      obtain ⟨hal, hor⟩ := hx w.sh (Later.refl _) (by rw [Nat.zero_add] at hroom; exact hroom)
      have hout := Call.outRd H.sound D c
      have hs' : Sound lib g 0 (c.effectRd D w.sh) := by
        rcases hout with ⟨_, e⟩ | ⟨_, e⟩
        · rw [e]; exact (Call.sound (n := 0) c hroom hal).1
        · rw [e]; exact H.sound.mono (Nat.zero_le _)
      rcases hor _ _ hout with ⟨hca, _⟩ | hsafe
      · generalize c.resRd D lib w.sh = r at hca
        cases c with
        | lcb env a => exact Or.inr (Or.inl ⟨env, a, by rw [show r = (goPanic : Go BlockID) from hca]⟩)
        | putBlock f1 f2 b a => exact Or.inr (Or.inr ⟨f1, f2, b, a, r, rfl, hca⟩)
        | _ => exact hca.elim
      · exact absurd hsafe (dead _ _ (Option.some.inj hc) hs')

/-- The loader stores blocks only that it received from the peer to which it attributes them, and it moves the position of a peer
only to a block that this peer listed, also when reads fail. -/
theorem C103_origin (S : Serving g N lk) (R : Peers.Reachable lib reg) (h : RdRun lib (World.start reg lk) tr w)
    (hN : Chains.Spec.inserts w.calls ≤ N) :
    (∀ b a f1 f2, (true, Chains.Spec.Op.putBlock b a f1 f2) ∈ w.log → ∃ c, (c, Input.block a (some b)) ∈ w.ins) ∧
    (∀ id a f, (true, Chains.Spec.Op.moveLeash id a f) ∈ w.log → ∃ c l, (c, Input.ids a l) ∈ w.ins ∧ id ∈ l) ∧
    (∀ inv a f1 f2, (true, Chains.Spec.Op.putMicro inv a f1 f2) ∉ w.log) ∧ ∀ g' f, (true, Chains.Spec.Op.reopen g' f) ∉ w.log := by
  obtain ⟨H, _⟩ := steadyRd S R h (src := received w) (received_from w) hN
  exact ⟨fun b a f1 f2 hm => H.log _ hm, fun id a f hm => H.log _ hm, fun inv a f1 f2 hm => H.log _ hm, fun g' f hm => H.log _ hm⟩

/-- Between two events: every request for ids that the loader ever sent lists between one and 100 stored blocks, each of them the parent of
the one before it; every block that it ever requested was listed by a peer. -/
theorem C103_requests (S : Serving g N lk) (R : Peers.Reachable lib reg) (h : RdRun lib (World.start reg lk) tr w)
    (hN : Chains.Spec.inserts w.calls ≤ N) (hr : w.todo = none) :
    (∀ m, m ∈ w.own.out → ∀ req, AsksIDs m.to req m.msg → req ≠ [] ∧ req.length ≤ 100 ∧ IsWalk w.sh.link.db req) ∧
    ∀ m, m ∈ w.own.out → ∀ id, m.msg = .getBlock id → ∃ a c l, (c, Input.ids a l) ∈ w.ins ∧ id ∈ l := by
  obtain ⟨H, _⟩ := steadyRd S R h (src := received w) (received_from w) hN
  exact ⟨(H.rest hr).1.asked, (H.rest hr).1.wanted⟩

/-- Between two events, while a synchronisation is going on: the ticker runs; the peer has a connection and has announced a score; the last
request was sent to it at the time that the timeout is counted from. -/
theorem C103_watched (S : Serving g N lk) (R : Peers.Reachable lib reg) (h : RdRun lib (World.start reg lk) tr w)
    (hN : Chains.Spec.inserts w.calls ≤ N) (hr : w.todo = none) (ha : w.own.active = true) :
    w.own.ticking = true ∧ w.own.obj.peer.conn ≠ none ∧ (∃ p s, Peers.PeerOf w.sh.reg w.own.peerID = .ok p ∧ p.score = some s) ∧
    (w.own.obj.timestamp = zeroTime ∨
      ∃ m, w.own.out.getLast? = some m ∧ m.time = w.own.obj.timestamp ∧ w.own.obj.peer.conn = some m.to) := by
  obtain ⟨H, _⟩ := steadyRd S R h (src := received w) (received_from w) hN
  obtain ⟨F, _⟩ := H.rest hr
  obtain ⟨s, p, h1, h2, _⟩ := (F.scored ha).announced H.sound.reg.inv
  exact ⟨F.ticking ha, F.conn ha, ⟨p, s, h1, h2⟩, F.stamp ha⟩

/-- Between two events, while a synchronisation is going on, the loader waits for ids or for blocks.  There are two exceptions: it is in the
state Idle, and a reading of the record of the peer or of the score of its position has failed; or it is in the state Done, and a
block could not be stored. -/
theorem C103_cause (h : RdRun lib (World.start reg lk) tr w) (hr : w.todo = none) (ha : w.own.active = true) :
    w.own.obj.state = .waitingForIDs ∨ w.own.obj.state = .waitingForBlocks ∨
    (w.own.obj.state = .idle ∧ ∃ x, x ∈ tr ∧ x.Failed ∧ ((∃ a, x.call = .peerOf a) ∨ ∃ a, x.call = .leashScore a)) ∨
    (w.own.obj.state = .done ∧ ∃ x, x ∈ tr ∧ x.Failed ∧ ∃ f1 f2 b a, x.call = .putBlock f1 f2 b a) := by
  have H := kept (tr0 := []) (w0 := World.start reg lk) ⟨fun _ => ⟨rfl, fun h => by cases h⟩, fun _ h => by cases h⟩ h
  rw [List.nil_append] at H
  rcases (H.rest hr).2 ha with (h | h) | h | h
  · exact Or.inl h
  · exact Or.inr (Or.inl h)
  · exact Or.inr (Or.inr (Or.inl h))
  · exact Or.inr (Or.inr (Or.inr h))

/-- A tick that comes more than thirty seconds after the last request ends the synchronisation, whatever else fails and whatever the others do
meanwhile; unless one of three kinds of calls has failed: the reading of the record of the peer, the reading of the score of
its position, or the storing of a block.  Missing for the full claim: the same without the exceptions, see `C103_wrong`. -/
theorem C103_release_partial (h : RdRun lib (World.start reg lk) tr w) (hr : w.todo = none) (c : Ctx)
    (hlate : c.now - w.own.obj.timestamp > timeoutDuration)
    (h' : RdRun lib { w with todo := some (handle c w.own .tick), ins := w.ins ++ [(c, .tick)] } tr' w')
    (hi : w'.ins = w.ins ++ [(c, .tick)]) (hr' : w'.todo = none) :
    w'.own.active = false ∨ ∃ x, x ∈ tr ++ tr' ∧ x.Failed ∧
      ((∃ a, x.call = .peerOf a) ∨ (∃ a, x.call = .leashScore a) ∨ ∃ f1 f2 b a, x.call = .putBlock f1 f2 b a) := by
  have H := kept (tr0 := []) (w0 := World.start reg lk) ⟨fun _ => ⟨rfl, fun h => by cases h⟩, fun _ h => by cases h⟩ h
  rw [List.nil_append] at H
  by_cases ha : w.own.active = true
  · have before : ∀ x, x ∈ tr → x ∈ tr ++ tr' := fun x hx => List.mem_append.mpr (Or.inl hx)
    rcases C103_cause h hr ha with hs | hs | ⟨_, x, hx, hf, hc⟩ | ⟨_, x, hx, hf, hc⟩
    · rcases all_run rfl (all_late c ha (Or.inl hs) (H.rest hr).1 hlate) h' hi with ⟨p, hp, _⟩ | ⟨_, hq⟩
      · rw [hr'] at hp; cases hp
      · rcases hq with hq | ⟨o, ho, hq⟩
        · cases hq
        · cases ho
          rcases hq with hq | ⟨x, hx, hf, hc⟩
          · exact Or.inl hq
          · exact Or.inr ⟨x, List.mem_append.mpr (Or.inr hx), hf, Or.inr (Or.inr hc)⟩
    · rcases all_run rfl (all_late c ha (Or.inr hs) (H.rest hr).1 hlate) h' hi with ⟨p, hp, _⟩ | ⟨_, hq⟩
      · rw [hr'] at hp; cases hp
      · rcases hq with hq | ⟨o, ho, hq⟩
        · cases hq
        · cases ho
          rcases hq with hq | ⟨x, hx, hf, hc⟩
          · exact Or.inl hq
          · exact Or.inr ⟨x, List.mem_append.mpr (Or.inr hx), hf, Or.inr (Or.inr hc)⟩
    · exact Or.inr ⟨x, before x hx, hf, hc.imp id Or.inl⟩
    · exact Or.inr ⟨x, before x hx, hf, Or.inr (Or.inr hc)⟩
  · have e : handle c w.own .tick = .ret (.ok w.own) := by
      show Fine.tick c w.own = _
      unfold Fine.tick
      rw [if_neg ha]
    rcases all_run (Q := fun _ r => r = .ok w.own) rfl (show All _ [] (handle c w.own .tick) from by rw [e]; rfl) h' hi with
      ⟨p, hp, _⟩ | ⟨_, hq⟩
    · rw [hr'] at hp; cases hp
    · rw [Except.ok.inj hq]
      exact Or.inl (by simpa using ha)

/-- With which peer a synchronisation begins.  The timer fires while none is going on.  Either one begins, with a peer from the answer of
`Connections` that announced a score, and the score of its position could be read and was smaller; or nothing changes, and that is because
`Connections` failed, or because for each of the peers with a score the score of its position could not be read or was not
smaller.  So an unreadable score neither makes a peer a candidate nor keeps the others from being chosen. -/
theorem C103_chosen (ha : w.own.active = false) (c : Ctx)
    (h' : RdRun lib { w with todo := some (handle c w.own .timer), ins := w.ins ++ [(c, .timer)] } tr' w')
    (hi : w'.ins = w.ins ++ [(c, .timer)]) (hr' : w'.todo = none) :
    (∃ env ps p s score, (⟨.connections env, (.ok ps : Go (List Peers.Peer))⟩ : Fine.Answer) ∈ tr' ∧ p ∈ ps ∧ p.score = some s ∧
      (⟨.leashScore p.addr, (.ok score : Go Nat)⟩ : Fine.Answer) ∈ tr' ∧ score < s ∧ w'.own.active = true ∧ w'.own.obj.peer = p) ∨
    (w'.own = w.own ∧ ∃ (env : Chains.Env) (l : Go (List Peers.Peer)), (⟨.connections env, l⟩ : Fine.Answer) ∈ tr' ∧
      ∀ ps, l = .ok ps → ∀ p, p ∈ ps → ∀ s, p.score = some s → ∃ x : Go Nat, (⟨.leashScore p.addr, x⟩ : Fine.Answer) ∈ tr' ∧
        ∀ score, x = .ok score → s ≤ score) := by
  rcases all_run (Q := Chosen w.own) rfl (all_chosen c ha) h' hi with ⟨p, hp, _⟩ | ⟨_, hq⟩
  · rw [hr'] at hp; cases hp
  · exact hq _ rfl

/-- In the state Idle or Done with a synchronisation under way the loader is stuck: whatever it receives, whether the disk reads well again or
not, it never changes again and never makes another call on the store or the registry. -/
theorem C103_stuck (h : RdRun lib (World.start reg lk) tr w) (hr : w.todo = none) (ha : w.own.active = true)
    (hs : w.own.obj.state = .idle ∨ w.own.obj.state = .done) (h' : RdRun lib w tr' w') :
    w'.own = w.own ∧ tr' = [] ∧ ∃ l, w'.log = w.log ++ l ∧ ∀ x, x ∈ l → x.1 = false := by
  have H := kept (tr0 := []) (w0 := World.start reg lk) ⟨fun _ => ⟨rfl, fun h => by cases h⟩, fun _ h => by cases h⟩ h
  obtain ⟨h1, _, h3, h4⟩ := frozen_run hr ha hs.symm (H.rest hr).1 h'
  exact ⟨h1, h3, h4⟩

/-- The full claim, that a failed read costs at most the current synchronisation, is false.  In each of the three runs one read
fails, and the others succeed: the reading of the record of the peer after a batch, the reading of the score after a batch, and a
reading inside `PutBlock` at a late tick.  After that the loader is stuck for ever. -/
theorem C103_wrong :
    ∀ ms, ms ∈ [Fine.Ex.unreadPeer, Fine.Ex.unreadScore, Fine.Ex.unreadStore] →
      RdRun Peers.Ex.lib (World.start Ex.honestReg Chains.Ex.l0) (Fine.Ex.rdWorld ms).1 (Fine.Ex.rdWorld ms).2 ∧
      (Fine.Ex.rdWorld ms).2.todo = none ∧
      (ms.filter (fun m => match m with | .go D => D.chains.bad [] || D.peers.bad [] | _ => false)).length = 1 ∧
      ∀ tr' w', RdRun Peers.Ex.lib (Fine.Ex.rdWorld ms).2 tr' w' → w'.own.active = true ∧ w'.own.out = (Fine.Ex.rdWorld ms).2.own.out ∧
        tr' = [] := by
  have key : ∀ ms, (Fine.Ex.rdWorld ms).2.todo = none → (Fine.Ex.rdWorld ms).2.own.active = true →
      ((Fine.Ex.rdWorld ms).2.own.obj.state = .idle ∨ (Fine.Ex.rdWorld ms).2.own.obj.state = .done) →
      ∀ tr' w', RdRun Peers.Ex.lib (Fine.Ex.rdWorld ms).2 tr' w' → w'.own.active = true ∧ w'.own.out = (Fine.Ex.rdWorld ms).2.own.out ∧
        tr' = [] := by
    intro ms hr ha hs tr' w' h'
    obtain ⟨h1, h2, _⟩ := C103_stuck (Fine.Ex.rdWorld_run ms) hr ha hs h'
    exact ⟨by rw [h1]; exact ha, by rw [h1], h2⟩
  intro ms hm
  simp only [List.mem_cons, List.not_mem_nil, or_false] at hm
  rcases hm with rfl | rfl | rfl
  · exact ⟨Fine.Ex.rdWorld_run _, rfl, rfl, key _ rfl rfl (Or.inl rfl)⟩
  · exact ⟨Fine.Ex.rdWorld_run _, rfl, rfl, key _ rfl rfl (Or.inl rfl)⟩
  · exact ⟨Fine.Ex.rdWorld_run _, rfl, rfl, key _ rfl rfl (Or.inr rfl)⟩

/-! ### concrete runs -/

/-- the hypotheses of `C103_store` and of the theorems after it, for a run with a failed read -/
example : Serving Chains.Ex.g0 1000 Chains.Ex.l0 ∧ Peers.Reachable Peers.Ex.lib Ex.honestReg ∧
    RdRun Peers.Ex.lib (World.start Ex.honestReg Chains.Ex.l0) (Fine.Ex.rdWorld Fine.Ex.unreadPeer).1 (Fine.Ex.rdWorld Fine.Ex.unreadPeer).2 ∧
    Chains.Spec.inserts (Fine.Ex.rdWorld Fine.Ex.unreadPeer).2.calls ≤ 1000 ∧ (Fine.Ex.rdWorld Fine.Ex.unreadPeer).2.calls.length = 1 :=
  ⟨Ex.serving 1000 (by decide), Peers.Ex.reach _, Fine.Ex.rdWorld_run _, by decide +kernel, by decide +kernel⟩

/-- A late tick on a good disk: block 1 is stored and the peer released.  The same when the record of the peer cannot be read. -/
example : ∀ D, D ∈ [Disk.good, Fine.Ex.noPeers] →
    let ms := Fine.Ex.half ++ .receive (Ex.ctx 133) .tick :: .go D :: Fine.Ex.rdGoes 1
    (Fine.Ex.rdWorld ms).2.todo = none ∧ (Fine.Ex.rdWorld ms).2.own.active = false ∧
    Chains.HasBlock (Fine.Ex.rdWorld ms).2.sh.link.db (Chains.Ex.bid 1) = .ok true := by
  intro D hD
  simp only [List.mem_cons, List.not_mem_nil, or_false] at hD
  rcases hD with rfl | rfl <;> exact ⟨rfl, rfl, rfl⟩

/-- the state before it -/
example : (Fine.Ex.rdWorld Fine.Ex.half).2.todo = none ∧ (Fine.Ex.rdWorld Fine.Ex.half).2.own.active = true ∧
    (Ex.ctx 133).now - (Fine.Ex.rdWorld Fine.Ex.half).2.own.obj.timestamp > timeoutDuration :=
  ⟨rfl, rfl, by decide +kernel⟩

/-- a failed read at another place: the ids are not looked up, the loader goes on waiting, and the tick releases the peer -/
example :
    let ms := Fine.Ex.oneBlock.take 6 ++ .receive (Ex.ctx 101) (.ids Ex.peer [Chains.Ex.bid 0, Chains.Ex.bid 1]) :: .go Fine.Ex.noBlocks ::
      Fine.Ex.rdGoes 1
    (Fine.Ex.rdWorld ms).2.todo = none ∧ (Fine.Ex.rdWorld ms).2.own.active = true ∧ (Fine.Ex.rdWorld ms).2.own.obj.state = .waitingForBlocks ∧
    (Fine.Ex.rdWorld (ms ++ .receive (Ex.ctx 133) .tick :: Fine.Ex.rdGoes 1)).2.own.active = false :=
  ⟨rfl, rfl, rfl, rfl⟩

/-- on a good disk the stored block 0 is passed over and block 1 is requested; when the lookup fails nothing is requested -/
example :
    let ms := fun D n => Fine.Ex.oneBlock.take 6 ++ .receive (Ex.ctx 101) (.ids Ex.peer [Chains.Ex.bid 0, Chains.Ex.bid 1]) ::
      .go D :: Fine.Ex.rdGoes n
    (Fine.Ex.rdWorld (ms Disk.good 3)).2.todo = none ∧ (Fine.Ex.rdWorld (ms Fine.Ex.noBlocks 1)).2.todo = none ∧
    (Fine.Ex.rdWorld (ms Disk.good 3)).2.own.out.length = 2 ∧ (Fine.Ex.rdWorld (ms Fine.Ex.noBlocks 1)).2.own.out.length = 1 :=
  ⟨rfl, rfl, rfl, rfl⟩

/-- the choice on a good disk, and when the score of the position of the only candidate cannot be read -/
example : Fine.Ex.begin.own.active = false ∧
    (Fine.Ex.rdWorld (.receive (Ex.ctx 100) .timer :: .go Disk.good :: Fine.Ex.rdGoes 4)).2.own.active = true ∧
    (Fine.Ex.rdWorld (.receive (Ex.ctx 100) .timer :: .go Disk.good :: .go Fine.Ex.noBlocks :: Fine.Ex.rdGoes 1)).2.todo = none ∧
    (Fine.Ex.rdWorld (.receive (Ex.ctx 100) .timer :: .go Disk.good :: .go Fine.Ex.noBlocks :: Fine.Ex.rdGoes 1)).2.ins.length = 1 ∧
    (Fine.Ex.rdWorld (.receive (Ex.ctx 100) .timer :: .go Disk.good :: .go Fine.Ex.noBlocks :: Fine.Ex.rdGoes 1)).2.own.active = false :=
  ⟨rfl, rfl, rfl, rfl, rfl⟩

end Verif.Loading
