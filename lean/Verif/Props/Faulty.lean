import Verif.Services.FaultyGood
import Verif.Services.FaultyCrash
import Verif.Services.FaultyEx
import Verif.Services.FaultyExact
/-
C105: the whole program, one call of the loader at a time, on disks that fail to read.
-/

set_option autoImplicit false

namespace Verif.Services.Fine

open Verif
open Verif.Chains (Addr BytesN BlockID ProtoBlock MicroInv Linkage getBlockByID)
open Verif.Peers (Conn Registry Lib AddrPort Config)
open Verif.Loading (Ctx Serving)
open Verif.Loading.Fine (World Shared Disk Other Input Answer Call RdStep RdRun Own Proc)
open Verif.KV (Fate)

variable {lib : Lib} {g : ProtoBlock} {N : Nat} {D : Disk} {cfg : Config} {r : Registry} {pdb : Peers.DB} {fs : Nat → Fate}
  {seeds : List (Option AddrPort)} {lk : Linkage} {listener : Bool} {es : List Ev} {tr : List Answer} {s : Sys}

/-! ### the executions considered -/

/-- Every execution of the program of `Services/Program.lean`, in which events are handled at once and every read succeeds, is one of the
executions considered here: on good disks, with the loader between two events at the end. -/
theorem C105_program {es : List Services.Ev} {q : Prog} (h : Services.Path lib (Prog.start cfg pdb fs seeds lk listener) es q) :
    ∃ es' tr s, Path lib (Sys.start .good cfg pdb fs seeds lk listener) es' tr s ∧ (∀ e, e ∈ es' → e.disk = .good) ∧ s.shell = q ∧
      s.world.todo = none := by
  obtain ⟨es', tr, s, h1, h2, h3, h4⟩ := sim h
  exact ⟨es', tr, s, h1, h2, h3, h4⟩

/-! ### what is stored -/

/-- Any reads fail in any events.  The store is at every moment what some of the calls made so far, in the same order, made of it on a good
disk; no block is lost or changed; the store and the registry are such that every theorem about them applies. -/
theorem C105_store (S : Serving g N lk) (R : Peers.Reachable lib r) (h : Path lib (Sys.start D cfg r.db fs seeds lk listener) es tr s)
    (hN : Chains.Spec.inserts s.world.calls ≤ N) :
    (∃ done : List Chains.Spec.Op, done.Sublist s.world.calls ∧ s.world.sh.link = Chains.Spec.exec lk done) ∧
    Serving g (N - Chains.Spec.inserts s.world.calls) s.world.sh.link ∧
    (∀ id b, getBlockByID lk.db id = .ok b → getBlockByID s.world.sh.link.db id = .ok b) ∧ Peers.Reachable lib s.world.sh.reg :=
  Loading.C103_store S (start_reachable R D cfg fs seeds) h.run hN

/-- What the loader does in the program is a run of C103, with the answers `tr` to its calls.  So what C103 says holds for the program. -/
theorem C105_loader (h : Path lib (Sys.start D cfg pdb fs seeds lk listener) es tr s) :
    RdRun lib (World.start (Peers.Rd.AppendAddresses D.peers fs (Peers.NewRegistry cfg pdb) seeds).1 lk) tr s.world :=
  h.run

/-- The packages reach the loader in the order in which the peers sent them; one at most is on its way; none is invented.  (Some are
missing: `C105_event` says which.) -/
theorem C105_channels (h : Path lib (Sys.start D cfg pdb fs seeds lk listener) es tr s) :
    s.sent = s.taken ++ s.dist.pending ∧ heard s.world.ins = s.taken ∧ s.sent.Sublist (says es) ∧ s.dist.pending.length ≤ 1 := by
  refine ⟨h.chan.fifo, h.chan.heard, h.chan.order, ?_⟩
  cases s.dist <;> simp [Dist.pending]

/-- what the loader has received, the peers have said -/
theorem received_said (h : Path lib (Sys.start D cfg pdb fs seeds lk listener) es tr s) {c : Ctx} {i : Input} {p : Pkg}
    (hi : (c, i) ∈ s.world.ins) (hp : heard [(c, i)] = [p]) : p ∈ says es := by
  have h1 : p ∈ heard s.world.ins := by
    obtain ⟨l1, l2, e⟩ := List.append_of_mem hi
    rw [e, show (c, i) :: l2 = [(c, i)] ++ l2 from rfl, heard_append, heard_append, hp]
    simp
  rw [h.chan.heard] at h1
  refine h.chan.order.subset ?_
  rw [h.chan.fifo]
  exact List.mem_append.mpr (Or.inl h1)

/-- Whoever makes the call, distributor or loader: a block is stored for a peer only if this peer sent this block, an announced micro block only if
the peer announced it; the position of a peer is moved only to a block that the peer listed. -/
theorem C105_origin (S : Serving g N lk) (R : Peers.Reachable lib r) (h : Path lib (Sys.start D cfg r.db fs seeds lk listener) es tr s)
    (hN : Chains.Spec.inserts s.world.calls ≤ N) :
    (∀ b a f1 f2, Chains.Spec.Op.putBlock b a f1 f2 ∈ s.world.calls → Pkg.block a b ∈ says es) ∧
    (∀ inv a f1 f2, Chains.Spec.Op.putMicro inv a f1 f2 ∈ s.world.calls → (a, inv) ∈ announces es) ∧
    (∀ id a f, Chains.Spec.Op.moveLeash id a f ∈ s.world.calls → ∃ ids, Pkg.ids a ids ∈ says es ∧ id ∈ ids) ∧
    ∀ g' f, Chains.Spec.Op.reopen g' f ∉ s.world.calls := by
  obtain ⟨h1, h2, h3, h4⟩ := Loading.C103_origin S (start_reachable R D cfg fs seeds) h.run hN
  have mem : ∀ o, o ∈ s.world.calls → (false, o) ∈ s.world.log ∨ (true, o) ∈ s.world.log := by
    intro o ho
    obtain ⟨⟨x, o'⟩, hm, rfl⟩ := List.mem_map.mp ho
    cases x
    · exact Or.inl hm
    · exact Or.inr hm
  refine ⟨fun b a f1 f2 ho => ?_, fun inv a f1 f2 ho => ?_, fun id a f ho => ?_, fun g' f ho => ?_⟩
  · rcases mem _ ho with ho | ho
    · exact h.chan.log _ ho
    · obtain ⟨c, hc⟩ := h1 b a f1 f2 ho
      exact received_said h hc rfl
  · rcases mem _ ho with ho | ho
    · exact h.chan.log _ ho
    · exact absurd ho (h3 inv a f1 f2)
  · rcases mem _ ho with ho | ho
    · exact (h.chan.log _ ho).elim
    · obtain ⟨c, l, hc, hm⟩ := h2 id a f ho
      exact ⟨l, received_said h hc rfl, hm⟩
  · rcases mem _ ho with ho | ho
    · exact (h.chan.log _ ho).elim
    · exact absurd ho (h4 g' f)

/-! ### single events -/

/-- the same event while everything can be read -/
def Ev.healed : Ev → Ev
  | .message _ c p m => .message .good c p m
  | .connected _ c p => .connected .good c p
  | .broken _ c p => .broken .good c p
  | .go _ => .go .good
  | .respawn _ now failed => .respawn .good now failed
  | .suggest _ f now a => .suggest .good f now a
  | .giveUp _ f now a => .giveUp .good f now a
  | e => e

/-- nothing changes but the record of the calls -/
def Unchanged (s s' : Sys) : Prop := s' = { s with world := { s.world with log := s'.world.log } }

/-- What a failed read makes of an event of a goroutine other than the loader: the state `s'` after it. -/
inductive Spoilt (lib : Lib) (s : Sys) : Ev → Sys → Prop where
  /-- a block, a score or an announcement is lost: it is not recorded, and the loader does not hear of the block -/
  | lost (D : Disk) (c : Ctx) (p : Sender) (m : Message) (s' : Sys)
      (hm : (∃ b, m = .block (some b)) ∨ (∃ b, m = .pbBlock (some b)) ∨ (∃ x, m = .score x) ∨ ∃ i, m = .microBlockInv (some i))
      (hs : Unchanged s s') : Spoilt lib s (.message D c p m) s'
  /-- of the addresses that a peer sends only some at the beginning are recorded -/
  | addresses (D : Disk) (c : Ctx) (p : Sender) (ps : List (Option AddrPort)) (k : Nat) (s' : Sys)
      (hs : s.step lib (.message .good c p (.peers (((ps.filterMap id).take k).map some))) = some (.ok s')) :
      Spoilt lib s (.message D c p (.peers ps)) s'
  /-- a peer that asks for addresses is not told those that were missed -/
  | asked (D : Disk) (c : Ctx) (p : Sender) (xs xs' : List (BytesN 4 × UInt16))
      (hg : s.step lib (.message .good c p .getPeers) = some (.ok { s with out := s.out ++ [.peersTo p.conn xs] }))
      (hx : ∀ b port, (b, port) ∈ xs' ↔ (b, port) ∈ xs ∧ D.peers.missed b.1 = false) :
      Spoilt lib s (.message D c p .getPeers) { s with out := s.out ++ [.peersTo p.conn xs'] }
  /-- a new connection is closed, and its address may be dialled again -/
  | connected (D : Disk) (c : Ctx) (p : Sender) (a : Addr) (ha : p.remote = some a) :
      Spoilt lib s (.connected D c p) { s with
        world := { s.world with sh := { s.world.sh with reg := { s.world.sh.reg with pending := Peers.delPending s.world.sh.reg.pending a } } }
        out := s.out ++ [.close p.conn] }
  /-- the connection that broke is closed, but the registry keeps it -/
  | broken (D : Disk) (c : Ctx) (p : Sender) (a : Addr) (ha : p.remote = some a) :
      Spoilt lib s (.broken D c p) { s with out := s.out ++ [.close p.conn] }
  /-- of the addresses `l` that would be dialled, those that were missed are not -/
  | respawn (D : Disk) (now : Int) (l : List AddrPort) (n : List Addr)
      (hg : s.step lib (.respawn .good now false) = some (.ok { s with
        world := { s.world with sh := { s.world.sh with reg := { s.world.sh.reg with pending := n ++ s.world.sh.reg.pending } } }
        dialled := s.dialled ++ l, armed := true })) :
      Spoilt lib s (.respawn D now false) { s with
        world := { s.world with sh := { s.world.sh with reg := { s.world.sh.reg with
          pending := n.filter (fun a => !Peers.Rd.lost D.peers a) ++ s.world.sh.reg.pending } } }
        dialled := s.dialled ++ l.filter (fun ap => !Peers.Rd.lost D.peers ap.addr), armed := true }
  /-- no version is suggested, and no connection is made -/
  | suggest (D : Disk) (f : Fate) (now : Int) (a : Addr) : Spoilt lib s (.suggest D f now a) s
  /-- the address that could not be reached stays in the list of those being dialled -/
  | giveUp (D : Disk) (f : Fate) (now : Int) (a : Addr) : Spoilt lib s (.giveUp D f now a) s

theorem called_log (w : World) (x : Other) : w.called w.sh (some x) = { w with log := (w.called w.sh (some x)).log } := rfl

theorem called_registry (w : World) (sh : Shared) (ev : Peers.Event) : w.called sh (some (.registry ev)) = { w with sh := sh } := by
  unfold World.called
  simp [Other.op]

/-- An event of a goroutine other than the loader is what it is on a good disk, or what `Spoilt` says. -/
theorem C105_event (S : Serving g N lk) (R : Peers.Reachable lib r) (h : Path lib (Sys.start D cfg r.db fs seeds lk listener) es tr s)
    (hN : Chains.Spec.inserts s.world.calls ≤ N) (e : Ev) (hgo : ∀ D', e ≠ .go D') :
    s.step lib e = s.step lib e.healed ∨ ∃ s', s.step lib e = some (.ok s') ∧ Spoilt lib s e s' := by
  have hreg := (C105_store S R h hN).2.2.2
  by_cases hm : s.main = .exited
  · left; simp [Sys.step, hm]
  have gd : ∀ {b : Bool} {x : Except Fault Sys}, b = true → guarded b x = some x := fun hb => by rw [hb]; rfl
  cases e with
  | go D' => exact absurd rfl (hgo D')
  | message D c p m =>
    rcases (Decidable.em (s.dist = .ready)).symm with hd | hd
    · left
      rw [step_message hm, show Ev.healed (.message D c p m) = .message .good c p m from rfl, step_message hm]
      simp [guarded, hd]
    have e1 : ∀ (D : Disk) (m : Message), s.step lib (.message D c p m) = some (s.handled (handleMessage D lib c s.world.sh p m)) :=
      fun D m => by rw [step_message hm, gd (by simp [hd])]
    have lost : ∀ {x : Other}, s.step lib (.message D c p m) = some (s.handled (.ok { sh := s.world.sh, call := some x })) →
        ((∃ b, m = .block (some b)) ∨ (∃ b, m = .pbBlock (some b)) ∨ (∃ x, m = .score x) ∨ ∃ i, m = .microBlockInv (some i)) →
        ∃ s', s.step lib (.message D c p m) = some (.ok s') ∧ Spoilt lib s (.message D c p m) s' := by
      intro x hx hm
      refine ⟨_, hx, .lost D c p m _ hm ?_⟩
      unfold Unchanged
      simp only [Option.toList_none, List.append_nil, World.called]
      rw [← hd]
    rw [show (Ev.message D c p m).healed = .message .good c p m from rfl]
    cases m with
    | block b =>
      rcases block_safe D c s.world.sh p b with e | ⟨a, b', _, rfl, e⟩
      · left; rw [e1, e1]; simp only [handleMessage, e]
      · right; refine lost (x := .putBlock b' a (c.fates 0) (c.fates 1)) ?_ (Or.inl ⟨_, rfl⟩); rw [e1]; simp only [handleMessage, e]
    | pbBlock b =>
      rcases block_safe D c s.world.sh p b with e | ⟨a, b', _, rfl, e⟩
      · left; rw [e1, e1]; simp only [handleMessage, e]
      · right; refine lost (x := .putBlock b' a (c.fates 0) (c.fates 1)) ?_ (Or.inr (Or.inl ⟨_, rfl⟩)); rw [e1]; simp only [handleMessage, e]
    | score sc =>
      rcases score_safe D c s.world.sh p sc with e | ⟨a, _, e⟩
      · left; rw [e1, e1]; simp only [handleMessage, e]
      · right
        refine lost (x := .registry ⟨c.now, .updateScore (c.fates 0) a (setBytes sc)⟩) ?_ (Or.inr (Or.inr (Or.inl ⟨_, rfl⟩)))
        rw [e1]; simp only [handleMessage, e]
    | microBlockInv inv =>
      rcases micro_safe D c s.world.sh p inv with e | ⟨a, i, _, rfl, e⟩
      · left; rw [e1, e1]; simp only [handleMessage, e]
      · right
        refine lost (x := .putMicro i a (c.fates 0) (c.fates 1)) ?_ (Or.inr (Or.inr (Or.inr ⟨_, rfl⟩)))
        rw [e1]; simp only [handleMessage, e]
    | peers ps =>
      right
      obtain ⟨k, _, hk⟩ := peers_safe D c s.world.sh ps
      obtain ⟨x, hx⟩ : ∃ x, handlePeers .good c s.world.sh (((ps.filterMap id).take k).map some) = .ok x := by
        unfold handlePeers
        exact ⟨_, noPanic_ok (by rw [show Disk.good.peers = .none from rfl, Peers.Rd.append_good]; exact append_not_panic hreg.inv.good _)⟩
      have hc : ∃ ev, x.call = some (.registry ev) := by
        unfold handlePeers at hx
        obtain ⟨rfl, _⟩ := noPanic_eq hx
        exact ⟨_, rfl⟩
      obtain ⟨ev, hc⟩ := hc
      have e2 := e1 D (.peers ps)
      have e3 := e1 .good (.peers (((ps.filterMap id).take k).map some))
      simp only [handleMessage, hk x hx] at e2
      simp only [handleMessage, hx] at e3
      refine ⟨_, e2, .addresses D c p ps k _ ?_⟩
      rw [e3]
      simp only [Sys.handled, hc, called_registry]
    | getPeers =>
      right
      obtain ⟨xs, xs', h1, h2, h3⟩ := getPeers_safe hreg D c p
      have hs : ∀ ys, s.handled (.ok { sh := s.world.sh, out := [.peersTo p.conn ys] }) = .ok { s with out := s.out ++ [.peersTo p.conn ys] } := by
        intro ys
        simp only [Sys.handled, called_none, Option.toList_none, List.append_nil]
        rw [← hd]
      refine ⟨_, ?_, .asked D c p xs xs' ?_ h3⟩
      · rw [e1]; simp only [handleMessage, h2, hs]
      · rw [e1]; simp only [handleMessage, h1, hs]
    | _ => left; rw [e1, e1]; rfl
  | connected D c p =>
    rcases connected_safe (lib := lib) D c s.world.sh p with e | ⟨a, ha, e⟩
    · left
      rw [step_connected hm, show Ev.healed (.connected D c p) = .connected .good c p from rfl, step_connected hm, e]
    · by_cases hb : (decide (s.dist = .ready) && decide (∀ a, a ∈ p.remote → a ∈ s.joined)) = true
      · right
        refine ⟨_, ?_, .connected D c p a ha⟩
        rw [step_connected hm, gd hb, e]
        have hd : s.dist = .ready := by simp only [Bool.and_eq_true, decide_eq_true_eq] at hb; exact hb.1
        simp only [Sys.handled, called_registry, Option.toList_none, List.append_nil]
        rw [← hd]
      · left
        rw [step_connected hm, show Ev.healed (.connected D c p) = .connected .good c p from rfl, step_connected hm]
        simp only [guarded, hb]; rfl
  | broken D c p =>
    rcases broken_safe D c s.world.sh p with e | ⟨a, ha, e⟩
    · left
      rw [step_broken hm, show Ev.healed (.broken D c p) = .broken .good c p from rfl, step_broken hm, e]
    · by_cases hd : s.dist = .ready
      · right
        refine ⟨_, ?_, .broken D c p a ha⟩
        rw [step_broken hm, gd (by simp [hd]), e]
        simp only [Sys.handled, called_registry, Option.toList_none, List.append_nil]
        rw [← hd]
      · left
        rw [step_broken hm, show Ev.healed (.broken D c p) = .broken .good c p from rfl, step_broken hm]
        simp [guarded, hd]
  | respawn D now failed =>
    cases failed with
    | true => exact Or.inl rfl
    | false =>
      by_cases hb : (s.respawnUp && s.armed) = true
      · right
        obtain ⟨l, n, h1, h2, _, _⟩ := Peers.Rd.take_safe D.peers hreg.inv now
        refine ⟨_, ?_, .respawn D now l n ?_⟩
        · rw [step_respawn hm, gd hb]
          simp only [Sys.respawn, Bool.false_eq_true, if_false, h2, called_registry]
        · rw [step_respawn hm, gd hb]
          simp only [Sys.respawn, Bool.false_eq_true, if_false, show Disk.good.peers = Chains.Rd.Faults.none from rfl, Peers.Rd.take_good, h1,
            called_registry]
      · left
        rw [step_respawn hm, show Ev.healed (.respawn D now false) = .respawn .good now false from rfl, step_respawn hm]
        simp only [guarded, hb]; rfl
  | suggest D f now a =>
    rcases Peers.Rd.suggest_safe D.peers f now s.world.sh.reg a with e | e
    · left
      rw [step_suggest hm, show Ev.healed (.suggest D f now a) = .suggest .good f now a from rfl, step_suggest hm]
      simp only [show Disk.good.peers = Chains.Rd.Faults.none from rfl, Peers.Rd.suggest_good, e]
    · right
      refine ⟨s, ?_, .suggest D f now a⟩
      rw [step_suggest hm]; simp only [e, fail, called_registry]
  | giveUp D f now a =>
    rcases Peers.Rd.unregister_safe D.peers f now s.world.sh.reg a with e | e
    · left
      rw [step_giveUp hm, show Ev.healed (.giveUp D f now a) = .giveUp .good f now a from rfl, step_giveUp hm]
      simp only [show Disk.good.peers = Chains.Rd.Faults.none from rfl, Peers.Rd.unregister_good, e]
    · by_cases hb : decide (a ∈ s.dialled.map (·.addr)) = true
      · right
        refine ⟨s, ?_, .giveUp D f now a⟩
        rw [step_giveUp hm, gd hb]; simp only [e, fail, called_registry]
      · left
        rw [step_giveUp hm, show Ev.healed (.giveUp D f now a) = .giveUp .good f now a from rfl, step_giveUp hm]
        simp only [guarded, hb]; rfl
  | _ => exact Or.inl rfl

open Verif.Chains.Ex (bid blk l0 g0) in
open Verif.Loading.Ex (ctx peer) in
open Verif.Services.Ex (p2) in
/-- A block that the loader has asked for may be lost: the peer answers while the store cannot be read, the distributor
drops the block, and the loader waits for it until it gives the peer up.  On a good disk the block would be stored and passed on. -/
theorem C105_dropped :
    (∃ s tr, Path Peers.Ex.lib Ex.begin (Ex.asking ++ [.message Ex.noBlocks (ctx 102) p2 (.block (some (blk 1 0)))]) tr s ∧
      s.world.own.active = true ∧ (⟨101 * Peers.second, p2.conn, .getBlock (bid 1)⟩ : Loading.Sent) ∈ s.world.own.out ∧
      s.sent = [.ids peer [bid 0, bid 1]] ∧ Chains.HasBlock s.world.sh.link.db (bid 1) = .ok false) ∧
    (∃ s tr, Path Peers.Ex.lib Ex.begin (Ex.asking ++ .message Ex.noBlocks (ctx 102) p2 (.block (some (blk 1 0))) :: .tick (ctx 133) :: Ex.go 1) tr s ∧
      s.world.todo.isNone = true ∧ s.world.own.active = false ∧ Chains.HasBlock s.world.sh.link.db (bid 1) = .ok false) ∧
    ∃ s tr, Path Peers.Ex.lib Ex.begin (Ex.asking ++ [.message .good (ctx 102) p2 (.block (some (blk 1 0)))]) tr s ∧
      s.sent = [.ids peer [bid 0, bid 1], .block peer (blk 1 0)] ∧ Chains.HasBlock s.world.sh.link.db (bid 1) = .ok true := by
  have ex : ∀ {es : List Ev} {P : Sys → Prop}, (∃ h : (Ex.after es).isSome = true, P ((Ex.after es).get h)) →
      ∃ s tr, Path Peers.Ex.lib Ex.begin es tr s ∧ P s := by
    rintro es P ⟨h, hp⟩
    obtain ⟨tr, ht⟩ := Ex.after_path (Option.some_get h).symm
    exact ⟨_, tr, ht, hp⟩
  exact ⟨ex ⟨by decide +kernel, by decide +kernel⟩, ex ⟨by decide +kernel, by decide +kernel⟩, ex ⟨by decide +kernel, by decide +kernel⟩⟩

open Verif.Loading.Ex (ctx peer) in
open Verif.Services.Ex (p2) in
/-- spoilt events: the connection that broke stays in the registry; the peer that connects is turned away; the peer that is known is not dialled -/
example : (Ex.after (Ex.joined ++ [.broken Ex.noPeers (ctx 200) p2])).map (fun s => (s.world.sh.reg.connections.map (·.1), s.out)) =
      some ([peer], [.close p2.conn]) ∧
    (Ex.after [.suggest .good .ok Peers.second peer, .connected Ex.noPeers (ctx 2) p2]).map (fun s => (s.world.sh.reg.connections.map (·.1), s.out)) =
      some ([], [.close p2.conn]) ∧
    (Ex.after [.respawn .good Peers.second false]).map (fun s => s.dialled) = some [⟨peer, 6868⟩] ∧
    (Ex.after [.respawn ⟨.none, ⟨fun _ => false, fun _ => true⟩⟩ Peers.second false]).map (fun s => s.dialled) = some [] := by
  decide +kernel

/-- The record of an IPv4 address, or the id of a block, cannot be read: then the events that need it are spoilt.  A score is dropped; a new connection is closed; a
broken one is closed but kept in the registry; no version is suggested; the address whose dialling failed stays marked; a block and a micro block are
dropped and the loader does not hear of them. -/
theorem C105_unreadable (hm : s.main ≠ .exited) (D' : Disk) (c : Ctx) (p : Sender) (b4 : BytesN 4) (hp : p.remote = some (.v4 b4)) :
    (D'.peers.bad b4.1 = true →
      (s.dist = .ready →
        (∀ x, s.step lib (.message D' c p (.score x)) = some (.ok s)) ∧
        s.step lib (.broken D' c p) = some (.ok { s with out := s.out ++ [.close p.conn] }) ∧
        (.v4 b4 ∈ s.joined → .v4 b4 ≠ s.world.sh.reg.declared → ∃ reg, reg.db = s.world.sh.reg.db ∧ reg.connections = s.world.sh.reg.connections ∧
          s.step lib (.connected D' c p) = some (.ok { s with
            world := { s.world with sh := { s.world.sh with reg := reg } }, out := s.out ++ [.close p.conn] }))) ∧
      (∀ f now, s.step lib (.suggest D' f now (.v4 b4)) = some (.ok s)) ∧
      ∀ f now, .v4 b4 ∈ s.dialled.map (·.addr) → s.step lib (.giveUp D' f now (.v4 b4)) = some (.ok s)) ∧
    (s.dist = .ready →
      (∀ b, D'.chains.bad (Chains.idKey Chains.blockPrefix b.id) = true →
        (∃ s', s.step lib (.message D' c p (.block (some b))) = some (.ok s') ∧ Unchanged s s') ∧
        ∃ s', s.step lib (.message D' c p (.pbBlock (some b))) = some (.ok s') ∧ Unchanged s s') ∧
      ∀ i, D'.chains.bad (Chains.idKey Chains.blockPrefix i.totalBlockID) = true →
        ∃ s', s.step lib (.message D' c p (.microBlockInv (some i))) = some (.ok s') ∧ Unchanged s s') := by
  have hw : ∀ ev, s.world.called s.world.sh (some (.registry ev)) = s.world := fun ev => called_registry _ _ _
  have gd : ∀ {b : Bool} {x : Except Fault Sys}, b = true → guarded b x = some x := fun hb => by rw [hb]; rfl
  have msg : s.dist = .ready → ∀ m,
      s.step lib (.message D' c p m) = some (s.handled (handleMessage D' lib c s.world.sh p m)) := by
    intro hd m
    rw [step_message hm, gd (by simp [hd])]
  have hset : s.dist = .ready → { s with out := s.out ++ [], sent := s.sent ++ [], dist := .ready } = s := by
    intro hd; rw [List.append_nil, List.append_nil, ← hd]
  have lost : s.dist = .ready → ∀ {m call}, handleMessage D' lib c s.world.sh p m = .ok { sh := s.world.sh, call := call } →
      ∃ s', s.step lib (.message D' c p m) = some (.ok s') ∧ Unchanged s s' := by
    intro hd m call e
    rw [msg hd m, e]
    refine ⟨_, rfl, ?_⟩
    simp only [Unchanged, Option.toList_none, List.append_nil, ← hd]
    rfl
  refine ⟨fun hb => ?_, fun hd => ⟨fun b hb => ⟨?_, ?_⟩, fun i hb => ?_⟩⟩
  · have hr : Peers.Rd.peer D'.peers s.world.sh.reg.db (.v4 b4) = fail Chains.Rd.readFailed := unreadable hb
    refine ⟨fun hd => ⟨fun x => ?_, ?_, fun hj hne => ?_⟩, fun f now => ?_, fun f now hdl => ?_⟩
    · rw [msg hd _]
      simp only [handleMessage, score_unread hr hp, Sys.handled, hw, Option.toList_none]
      exact congrArg _ (congrArg _ (hset hd))
    · simp only [Sys.step, if_neg hm]
      rw [gd (by simp [hd]), broken_unread hr hp]
      simp only [Sys.handled, hw, Option.toList_none, List.append_nil, ← hd]
    · refine ⟨{ s.world.sh.reg with pending := Peers.delPending s.world.sh.reg.pending (.v4 b4) }, rfl, rfl, ?_⟩
      simp only [Sys.step, if_neg hm]
      rw [gd (by simp [hd, hp, hj]), connected_unread hr hp hne]
      simp only [Sys.handled, called_registry, Option.toList_none, List.append_nil, ← hd]
    · have e : Peers.Rd.SuggestVersion D'.peers f now s.world.sh.reg (.v4 b4) = (s.world.sh.reg, fail Chains.Rd.readFailed) := by
        unfold Peers.Rd.SuggestVersion; rw [hr]; rfl
      simp only [Sys.step, if_neg hm, e, hw]
      rfl
    · have e : Peers.Rd.UnregisterPeer D'.peers f now s.world.sh.reg (.v4 b4) = (s.world.sh.reg, fail Chains.Rd.readFailed) := by
        unfold Peers.Rd.UnregisterPeer; rw [hr]; rfl
      simp only [Sys.step, if_neg hm, e, hw]
      exact gd (by simpa using hdl)
  · exact lost hd (show handleMessage D' lib c s.world.sh p (.block (some b)) = _ from block_unread hb hp)
  · exact lost hd (show handleMessage D' lib c s.world.sh p (.pbBlock (some b)) = _ from block_unread hb hp)
  · exact lost hd (show handleMessage D' lib c s.world.sh p (.microBlockInv (some i)) = _ from micro_unread hb hp)

/-- The services run until the signal, and the main goroutine waits for it.  The ticker of the loader ticks only while it is on, and the loader takes
nothing while it handles an event. -/
theorem C105_signal (h : Path lib (Sys.start D cfg pdb fs seeds lk listener) es tr s) :
    (s.cancelled = true ↔ Ev.signal ∈ es) ∧
    (Ev.signal ∉ es → s.dist ≠ .exited ∧ s.loaderUp = true ∧ s.respawnUp = true ∧ s.apiUp = true ∧ s.lsn ≠ .exited ∧ s.main = .waiting) ∧
    ∀ c x, (s.step lib (.tick c) = some x → s.world.own.ticking = true ∧ s.world.todo = none) ∧
      (s.step lib (.timer c) = some x → s.world.todo = none) ∧ (s.step lib (.take c) = some x → s.world.todo = none) := by
  have hb := before_path h ⟨rfl, by simp [Sys.start], rfl, rfl, rfl, by simp only [Sys.start]; split <;> simp, rfl⟩
  have wt : s.waits = true → s.world.todo = none := fun h => by
    simp only [Sys.waits, Bool.and_eq_true, Option.isNone_iff_eq_none] at h; exact h.2
  have gd : ∀ {b : Bool} {x : Except Fault Sys} {y}, guarded b x = some y → b = true := by
    intro b x y h
    cases b with
    | true => rfl
    | false => cases h
  refine ⟨⟨fun hc => ?_, fun hs => ?_⟩, fun hs => ?_, fun c x => ⟨fun hx => ?_, fun hx => ?_, fun hx => ?_⟩⟩
  · rcases hb with ⟨h1, _⟩ | ⟨_, B⟩
    · exact h1
    · rw [B.cancelled] at hc; cases hc
  · rcases hb with ⟨_, h2⟩ | ⟨h1, _⟩
    · exact h2
    · exact absurd hs h1
  · rcases hb with ⟨h1, _⟩ | ⟨_, B⟩
    · exact absurd h1 hs
    · exact ⟨B.dist, B.loader, B.respawn, B.api, B.lsn, B.main⟩
  all_goals
    unfold Sys.step at hx
    split at hx
    · cases hx
  · have := gd hx
    rw [Bool.and_eq_true] at this
    exact ⟨this.2, wt this.1⟩
  · exact wt (gd hx)
  · simp only at hx
    split at hx
    · exact wt (gd hx)
    · cases hx

open Verif.Loading.Ex (ctx peer) in
open Verif.Services.Ex (p2) in
/-- `C105_unreadable`: nothing of the peers or of the chains can be read and all of its cases occur; `C105_signal`: the ticker is off before the download,
on during it, and after the signal the loader stops -/
example : p2.remote = some peer ∧ (∃ b4, peer = .v4 b4 ∧ Ex.noPeers.peers.bad b4.1 = true) ∧
    Ex.noBlocks.chains.bad (Chains.idKey Chains.blockPrefix (Chains.Ex.bid 1)) = true ∧
    (Ex.after Ex.joined).map (fun s => (s.dist, s.main, s.joined, s.world.own.ticking, s.cancelled)) = some (.ready, .waiting, [peer], false, false) ∧
    (Ex.after (Ex.joined ++ [.tick (ctx 100)])).isNone = true ∧
    (Ex.after (Ex.asking ++ [.tick (ctx 102)])).isSome = true ∧
    (Ex.after (Ex.asking ++ [.loaderExit])).isNone = true ∧
    (Ex.after (Ex.asking ++ [.signal, .loaderExit])).map (fun s => (s.loaderUp, s.cancelled)) = some (false, true) ∧
    (Ex.after [.respawn .good Peers.second false, .giveUp Ex.noPeers .ok (2 * Peers.second) peer]).isSome = true := by
  refine ⟨rfl, ⟨_, rfl, by decide +kernel⟩, ?_⟩
  decide +kernel

/-! ### panics -/

/-- the panics that happen also when everything can be read -/
inductive Known (s : Sys) : Ev → Prop where
  /-- a peer without an address -/
  | message (D : Disk) (c : Ctx) (p : Sender) (m : Message) (h : p.remote = some .zero) : Known s (.message D c p m)
  | broken (D : Disk) (c : Ctx) (p : Sender) (h : p.remote = some .zero) : Known s (.broken D c p)
  /-- or a new one that does not name its application -/
  | connected (D : Disk) (c : Ctx) (p : Sender) (h : p.remote = some .zero ∨ p.conn.handshake.appName = []) : Known s (.connected D c p)
  /-- no versions are configured -/
  | suggest (D : Disk) (f : Fate) (now : Int) (a : Addr) (h : a = .zero ∨ s.world.sh.reg.versions = []) : Known s (.suggest D f now a)
  | giveUp (D : Disk) (f : Fate) (now : Int) (h : Addr.zero ∈ s.dialled.map (·.addr)) : Known s (.giveUp D f now .zero)
  /-- the loader asks for a last common block, and a block has a date that cannot be written down or the branches are such that their comparison
  panics (C14) -/
  | lcb (D : Disk) (env : Chains.Env) (a : Addr) (k : Go BlockID → Proc (Go Own)) (ht : s.world.todo = some (.call (.lcb env a) k))
      (h : (∃ id, Chains.BlockOf s.world.sh.link.db id = goPanic) ∨
        ∃ b head, Chains.LeashOf s.world.sh.link a = .ok head ∧ Chains.lca s.world.sh.link.db b head = goPanic) : Known s (.go D)
  /-- the program is to end before the listener has begun to listen -/
  | main (hm : s.main = .api) (h : s.lsn = .starting ∨ s.lsn = .failed) : Known s .main

/-- No failed read makes the program panic.  If an event panics, it is one of the panics that happen on a good disk too; the blocks
sent by peers have base targets below 2^63 (C27). -/
theorem C105_crash (S : Serving g N lk) (R : Peers.Reachable lib r) (h : Path lib (Sys.start D cfg r.db fs seeds lk listener) es tr s)
    (hN : Chains.Spec.inserts s.world.calls < N) {e : Ev} (hb : ∀ a b, Pkg.block a b ∈ says (es ++ [e]) → b.baseTarget.toNat < 2 ^ 63)
    {x : Fault} (he : s.step lib e = some (.error x)) : Known s e := by
  have hN' : Chains.Spec.inserts s.world.calls ≤ N := Nat.le_of_lt hN
  have hst := C105_store S R h hN'
  have hreg := hst.2.2.2
  have hlink := hst.2.1.reachable
  have hm : s.main ≠ .exited := by intro hm; simp [Sys.step, hm] at he
  have st : ∀ {e' : Ev} {y : Option (Except Fault Sys)}, s.step lib e' = some (.error x) →
      (s.step lib e' = if s.main = .exited then none else y) → y = some (.error x) :=
    fun h hx => by rw [hx, if_neg hm] at h; exact h
  have hand : ∀ {r : Go Handled}, s.handled r = .error x → r = .error x := by
    intro r hr
    cases r with
    | error e => cases hr; rfl
    | ok y => cases hr
  have blocked : ∀ (D : Disk) (c : Ctx) (p : Sender) (m : Message) (b : ProtoBlock), e = .message D c p m →
      (m = .block (some b) ∨ m = .pbBlock (some b)) → p.remote ≠ none → b.baseTarget.toNat < 2 ^ 63 := by
    intro D c p m b rfl hm hr
    cases hp : p.remote with
    | none => exact absurd hp hr
    | some a =>
      refine hb a b ?_
      rw [says_append]
      refine List.mem_append.mpr (Or.inr ?_)
      rcases hm with rfl | rfl <;> simp [says, Ev.says, hp]
  cases e with
  | message D c p m =>
    obtain ⟨_, h2⟩ := guarded_eq (st he rfl)
    have h3 := hand h2
    by_cases hz : p.remote = some .zero
    · exact .message D c p m hz
    · exfalso
      by_cases hr : p.remote = none ∧ ∃ b, m = .block (some b) ∨ m = .pbBlock (some b)
      · obtain ⟨hr, b, rfl | rfl⟩ := hr
        all_goals
          rw [receive_eq] at h3
          simp [handleMessage, handleBlock, hr] at h3
      · obtain ⟨y, hy⟩ := (survives hlink hreg D c p hz).1 m (fun b hm => blocked D c p m b rfl hm (fun hn => hr ⟨hn, b, hm⟩))
        rw [hy] at h3; cases h3
  | connected D c p =>
    obtain ⟨_, h2⟩ := guarded_eq (st he rfl)
    have h3 := hand h2
    by_cases hz : p.remote = some .zero
    · exact .connected D c p (Or.inl hz)
    · by_cases hn : p.conn.handshake.appName = []
      · exact .connected D c p (Or.inr hn)
      · obtain ⟨y, hy⟩ := (survives hlink hreg D c p hz).2.1 hn
        rw [hy] at h3; cases h3
  | broken D c p =>
    obtain ⟨_, h2⟩ := guarded_eq (st he rfl)
    have h3 := hand h2
    by_cases hz : p.remote = some .zero
    · exact .broken D c p hz
    · obtain ⟨y, hy⟩ := (survives hlink hreg D c p hz).2.2
      rw [hy] at h3; cases h3
  | suggest D f now a =>
    have h2 := st he rfl
    simp only at h2
    by_cases hz : a = .zero
    · exact .suggest D f now a (Or.inl hz)
    · by_cases hv : s.world.sh.reg.versions = []
      · exact .suggest D f now a (Or.inr hv)
      · exfalso
        split at h2
        · rename_i hp
          rcases Peers.Rd.suggest_safe D.peers f now s.world.sh.reg a with e | e
          · rw [e] at hp; exact suggest_not_panic hv hz hp
          · rw [e] at hp; cases hp
        · cases h2
        · cases h2
  | giveUp D f now a =>
    obtain ⟨h1, h2⟩ := guarded_eq (st he rfl)
    simp only at h2
    split at h2
    · rename_i hp
      by_cases hz : a = .zero
      · subst hz; exact .giveUp D f now (by simpa using h1)
      · exfalso
        rcases Peers.Rd.unregister_safe D.peers f now s.world.sh.reg a with e | e
        · rw [e] at hp; exact unregister_not_panic hz hp
        · rw [e] at hp; cases hp
    · cases h2
  | go D =>
    have h2 : s.go lib D = some (.error x) := st he rfl
    unfold Sys.go at h2
    have hS := Loading.Fine.steadyRd S (start_reachable R _ cfg fs seeds) h.run (src := Loading.Fine.received s.world)
      (Loading.Fine.received_from s.world) hN'
    split at h2
    · cases h2
    · rename_i e ht
      exfalso
      rcases hS.1.busy _ ht with hx | hx
      · exact not_crashed S R h hN' (by unfold World.Crashed; rw [ht, hx])
      · obtain ⟨_, hx, _⟩ := hx s.world.sh (Loading.Fine.Later.refl _) (hS.1.sound.mono (Nat.zero_le _))
        cases hx
    · cases h2
    · rename_i c k ht
      have t : RdStep lib s.world _ _ := .call s.world D c k ht
      split at h2
      · rename_i e hk
        have hN2 : Chains.Spec.inserts (s.world.calls ++ c.op.toList) ≤ N := by
          rw [Chains.inserts_append]; have := call_cost c; omega
        rw [← Loading.Fine.calls_append s.world true c.op] at hN2
        have run2 := h.run.snoc t
        have hS2 := (Loading.Fine.steadyRd S (start_reachable R _ cfg fs seeds) run2 (src := Loading.Fine.received s.world)
          (Loading.Fine.received_from s.world) hN2).1
        have hcr : World.Crashed ⟨s.world.own, some (k (c.resRd D lib s.world.sh)), c.effectRd D s.world.sh, s.world.ins,
            s.world.log ++ (c.op.map (fun o => (true, o))).toList⟩ := by
          rcases hS2.busy _ rfl with hx | hx
          · exact congrArg some hx
          · rw [hk] at hx
            obtain ⟨_, hx, _⟩ := hx _ (Loading.Fine.Later.refl _) (hS2.sound.mono (Nat.zero_le _))
            cases hx
        rcases Loading.C103_crash S (start_reachable R _ cfg fs seeds) h.run t hN2 hcr with hx | ⟨env, a, hx⟩ | ⟨f1, f2, b, a, y, hx, hbt⟩
        · exact absurd hx (not_crashed S R h hN')
        · injection hx with hx _
          injection hx with hc hr
          subst hc
          exact .lcb D env a k ht (lcb_panic hlink D.chains env a (eq_of_heq hr))
        · exfalso
          injection hx with hx _
          injection hx with hc hr
          subst hc
          obtain ⟨c', hc'⟩ := (Loading.C103_origin S (start_reachable R _ cfg fs seeds) run2 hN2).1 b a f1 f2
            (List.mem_append.mpr (Or.inr (List.mem_singleton.mpr rfl)))
          have := hb a b (by rw [says_append]; exact List.mem_append.mpr (Or.inl (received_said h hc' rfl)))
          omega
      · cases h2
  | main =>
    have h2 : (match s.shell.mainStep with
      | none => (none : Option (Except Fault Sys))
      | some (.error e) => some (.error e)
      | some (.ok q) => some (.ok { s with main := q.main })) = some (.error x) := st he rfl
    cases hy : s.shell.mainStep with
    | none => rw [hy] at h2; cases h2
    | some y =>
      cases y with
      | ok q => rw [hy] at h2; cases h2
      | error z =>
        unfold Prog.mainStep at hy
        repeat' split at hy
        all_goals first
          | (cases hy; done)
          | exact .main (by assumption) (by first | exact Or.inl (by assumption) | exact Or.inr (by assumption))
  | take c =>
    have h2 : (match s.dist with
      | .sending p => guarded s.waits (.ok { s with world := s.world.receive c (Pkg.input p), dist := .ready, taken := s.taken ++ [p] })
      | _ => (none : Option (Except Fault Sys))) = some (.error x) := st he rfl
    split at h2
    · obtain ⟨_, h2⟩ := guarded_eq h2; cases h2
    · cases h2
  | signal => have h2 := st he rfl; cases h2
  | ping c => obtain ⟨_, h2⟩ := guarded_eq (st he rfl); cases h2
  | _ => obtain ⟨_, h2⟩ := guarded_eq (st he rfl); cases h2

/-! ### shutdown -/

/-- The disk is in any condition `D'` from now on.  After the signal the program can end its work: the main goroutine ends, or the loader panics as in
`C105_crash`.  The exceptions are those of a good disk: a listener that did not start, and a loader that has gone while the distributor has a
package for it. -/
theorem C105_exit (h : Path lib (Sys.start D cfg pdb fs seeds lk listener) es tr s) (hc : s.cancelled = true) (hl : s.lsn ≠ .starting)
    (hf : s.lsn ≠ .failed) (hd : ∀ p, s.dist = .sending p → s.loaderUp = true) (D' : Disk) (c : Ctx) :
    ∃ es' tr' s', Path lib s es' tr' s' ∧ (∀ e D'', e ∈ es' → e = .go D'' → D'' = D') ∧
      (s'.main = .exited ∨ ∃ x, s'.step lib (.go D') = some (.error x)) := by
  have goesOnly : ∀ n e D'', e ∈ goes (fun _ => D') n → e = .go D'' → D'' = D' := by
    intro n e D'' he hx
    unfold goes at he
    obtain ⟨i, _, rfl⟩ := List.mem_map.mp he
    cases hx; rfl
  have join : ∀ {es1 es2 : List Ev}, (∀ e D'', e ∈ es1 → e = .go D'' → D'' = D') → (∀ e D'', e ∈ es2 → e = .go D'' → D'' = D') →
      ∀ e D'', e ∈ es1 ++ es2 → e = .go D'' → D'' = D' := by
    intro es1 es2 h1 h2 e D'' he
    rcases List.mem_append.mp he with he | he
    · exact h1 e D'' he
    · exact h2 e D'' he
  by_cases hm : s.main = .exited
  · exact ⟨[], [], s, .nil, (fun _ _ he => by cases he), Or.inl hm⟩
  -- the end, when the loader waits and the distributor has nothing to pass on
  have last : ∀ {es1 : List Ev} {tr1 : List Answer} {s1 : Sys}, Path lib s es1 tr1 s1 → (∀ e D'', e ∈ es1 → e = .go D'' → D'' = D') →
      s1.world.todo = none → s1.cancelled = true → s1.lsn ≠ .starting → s1.lsn ≠ .failed → (∀ p, s1.dist ≠ .sending p) →
      ∃ es' tr' s', Path lib s es' tr' s' ∧ (∀ e D'', e ∈ es' → e = .go D'' → D'' = D') ∧
        (s'.main = .exited ∨ ∃ x, s'.step lib (.go D') = some (.error x)) := by
    intro es1 tr1 s1 h1 hes1 ht1 hc1 hl1 hf1 hd1
    obtain ⟨es', tr', s', h2, h3, h4⟩ := can_exit (lib := lib) (h.append h1).life ht1 hc1 hl1 hf1 hd1
    exact ⟨_, _, s', h1.append h2, join hes1 (fun e D'' he hx => by subst hx; exact absurd rfl (h4 _ he)), Or.inl h3⟩
  rcases finish (lib := lib) hm (fun _ => D') with ⟨n, tr1, s1, h1, ht1, e1⟩ | ⟨n, tr1, s1, x, h1, hx⟩
  · have hc1 : s1.cancelled = true := by rw [e1]; exact hc
    have hl1 : s1.lsn ≠ .starting := by rw [e1]; exact hl
    have hf1 : s1.lsn ≠ .failed := by rw [e1]; exact hf
    have hm1 : s1.main ≠ .exited := by rw [e1]; exact hm
    have hd1 : s1.dist = s.dist := by rw [e1]
    have hu1 : s1.loaderUp = s.loaderUp := by rw [e1]
    cases hs : s1.dist with
    | ready => exact last h1 (goesOnly n) ht1 hc1 hl1 hf1 (fun p hp => by rw [hs] at hp; cases hp)
    | exited => exact last h1 (goesOnly n) ht1 hc1 hl1 hf1 (fun p hp => by rw [hs] at hp; cases hp)
    | sending p =>
      have hw : s1.waits = true := by simp [Sys.waits, ht1, hu1, hd p (hd1.symm.trans hs)]
      have htake : s1.step lib (.take c) = some (.ok { s1 with world := s1.world.receive c p.input, dist := .ready, taken := s1.taken ++ [p] }) := by
        simp [Sys.step, hm1, hs, guarded, hw]
      have h2 := h1.append (Path.one htake)
      have g2 : ∀ e D'', e ∈ goes (fun _ => D') n ++ [Ev.take c] → e = .go D'' → D'' = D' :=
        join (goesOnly n) (fun e D'' he hx => by rw [List.mem_singleton] at he; rw [he] at hx; cases hx)
      rcases finish (lib := lib) (s := { s1 with world := s1.world.receive c p.input, dist := .ready, taken := s1.taken ++ [p] }) hm1
        (fun _ => D') with ⟨n3, tr3, s3, h3, ht3, e3⟩ | ⟨n3, tr3, s3, x, h3, hx⟩
      · refine last (h2.append h3) (join g2 (goesOnly n3)) ht3 ?_ ?_ ?_ (fun p hp => ?_)
        · rw [e3]; exact hc1
        · rw [e3]; exact hl1
        · rw [e3]; exact hf1
        · rw [e3] at hp; cases hp
      · exact ⟨_, _, s3, h2.append h3, join g2 (goesOnly n3), Or.inr ⟨x, hx⟩⟩
  · exact ⟨_, _, s1, h1, goesOnly n, Or.inr ⟨x, hx⟩⟩

open Verif.Chains.Ex (bid blk l0 g0) in
open Verif.Loading.Ex (ctx) in
open Verif.Services.Ex (p2) in
/-- The program of the examples, when a block was lost and the signal has come while the loader handles the tick: what the theorems ask for is
met, and it ends on a disk that reads nothing. -/
example : Serving g0 5 l0 ∧ Peers.Reachable Peers.Ex.lib (Peers.Ex.run []) ∧
    ∃ s tr, Path Peers.Ex.lib Ex.begin (Ex.asking ++ [.message Ex.noBlocks (ctx 102) p2 (.block (some (blk 1 0))), .tick (ctx 133), .signal]) tr s ∧
      Chains.Spec.inserts s.world.calls < 5 ∧ s.world.todo.isNone = false ∧
      ∃ es' tr' s', Path Peers.Ex.lib s es' tr' s' ∧ (s'.main = .exited ∨ ∃ x, s'.step Peers.Ex.lib (.go Ex.noBlocks) = some (.error x)) := by
  refine ⟨Loading.Ex.serving 5 (by decide), Peers.Ex.reach [], ?_⟩
  have key : (Ex.after (Ex.asking ++ [.message Ex.noBlocks (ctx 102) p2 (.block (some (blk 1 0))), .tick (ctx 133), .signal])).any
      (fun s => decide (Chains.Spec.inserts s.world.calls < 5 ∧ s.world.todo.isNone = false ∧ s.cancelled = true ∧ s.lsn ≠ .starting ∧
        s.lsn ≠ .failed ∧ s.loaderUp = true)) = true := by
    decide +kernel
  obtain ⟨s, hs, hk⟩ : ∃ s, Ex.after (Ex.asking ++ [.message Ex.noBlocks (ctx 102) p2 (.block (some (blk 1 0))), .tick (ctx 133), .signal]) = some s ∧
      decide (Chains.Spec.inserts s.world.calls < 5 ∧ s.world.todo.isNone = false ∧ s.cancelled = true ∧ s.lsn ≠ .starting ∧
        s.lsn ≠ .failed ∧ s.loaderUp = true) = true := by
    obtain ⟨h1, h2⟩ := (Option.any_eq_true_iff_get _ _).mp key
    exact ⟨_, (Option.some_get h1).symm, h2⟩
  obtain ⟨k1, k2, k3, k4, k5, k6⟩ := of_decide_eq_true hk
  obtain ⟨tr, ht⟩ := Ex.after_path hs
  refine ⟨s, tr, ht, k1, k2, ?_⟩
  obtain ⟨es', tr', s', h1, _, h2⟩ := C105_exit ht k3 k4 k5 (fun _ _ => k6) Ex.noBlocks (ctx 134)
  exact ⟨es', tr', s', h1, h2⟩

end Verif.Services.Fine
