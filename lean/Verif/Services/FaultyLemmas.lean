import Verif.Services.Faulty
import Verif.Services.ProgramInv
import Verif.Loading.FineReadsInv
/-
The steps of `Services/Faulty.lean`, and the program as seen by the loader.
-/

set_option autoImplicit false

namespace Verif.Services.Fine

open Verif
open Verif.Chains (Addr BytesN BlockID ProtoBlock MicroInv Linkage)
open Verif.Peers (Conn Registry Lib AddrPort Config)
open Verif.Loading (Ctx)
open Verif.Loading.Fine (World Shared Disk Other Input Answer Call RdStep RdRun Own Proc)
open Verif.KV (Fate)

variable {lib : Lib}

theorem guarded_eq {b : Bool} {r x : Except Fault Sys} (h : guarded b r = some x) : b = true ∧ r = x := by
  unfold guarded at h
  cases b with
  | false => cases h
  | true => exact ⟨rfl, Option.some.inj h⟩

theorem noPanic_eq {α : Type} {r : Go α} {h h' : Handled} (e : noPanic r h = .ok h') : h' = h ∧ r ≠ goPanic := by
  unfold noPanic at e
  rcases r with (e' | u) | u
  · cases e; exact ⟨rfl, by simp [goPanic]⟩
  · cases e
  · cases e; exact ⟨rfl, by simp [goPanic]⟩

theorem noPanic_ok {α : Type} {r : Go α} {h : Handled} (hr : r ≠ goPanic) : noPanic r h = .ok h := by
  unfold noPanic
  rcases r with (e' | u) | u
  · rfl
  · exact absurd rfl hr
  · rfl

theorem handled_eq {s s' : Sys} {r : Go Handled} (h : s.handled r = .ok s') :
    ∃ x, r = .ok x ∧ s' = { s with
      world := s.world.called x.sh x.call, out := s.out ++ x.out, sent := s.sent ++ x.pkg.toList
      dist := match x.pkg with
        | none => .ready
        | some p => .sending p } := by
  unfold Sys.handled at h
  cases r with
  | error e => cases h
  | ok x => exact ⟨x, rfl, (Except.ok.inj h).symm⟩

/-- the handlers of the distributor, as one case -/
inductive Handling (lib : Lib) (s : Sys) : Ev → Go Handled → Prop where
  | message (D : Disk) (c : Ctx) (p : Sender) (m : Message) : Handling lib s (.message D c p m) (receive D lib c s.world.sh p m)
  | connected (D : Disk) (c : Ctx) (p : Sender) (hj : ∀ a, a ∈ p.remote → a ∈ s.joined) :
      Handling lib s (.connected D c p) (handleConnected D lib c s.world.sh p)
  | broken (D : Disk) (c : Ctx) (p : Sender) : Handling lib s (.broken D c p) (handleInternalError D c s.world.sh p)
  | ping (c : Ctx) : Handling lib s (.ping c) (.ok (pingConnections c s.world.sh))

/-- How an event goes, if it does not end the program.  -/
inductive Case (lib : Lib) (s : Sys) : Ev → Sys → Prop where
  | handled {e : Ev} {r : Go Handled} {x : Handled} (hd : s.dist = .ready) (hr : Handling lib s e r) (hx : r = .ok x) :
      Case lib s e { s with
        world := s.world.called x.sh x.call, out := s.out ++ x.out, sent := s.sent ++ x.pkg.toList
        dist := match x.pkg with
          | none => .ready
          | some p => .sending p }
  | take (c : Ctx) (p : Pkg) (hd : s.dist = .sending p) (hw : s.waits = true) :
      Case lib s (.take c) { s with world := s.world.receive c (Pkg.input p), dist := .ready, taken := s.taken ++ [p] }
  | distExit (hc : s.cancelled = true) (hd : s.dist = .ready) : Case lib s .distExit { s with dist := .exited }
  | tick (c : Ctx) (hw : s.waits = true) (ht : s.world.own.ticking = true) :
      Case lib s (.tick c) { s with world := s.world.receive c .tick }
  | timer (c : Ctx) (hw : s.waits = true) : Case lib s (.timer c) { s with world := s.world.receive c .timer }
  | call (D : Disk) (c : Call) (k : c.Res → Proc (Go Own)) (ht : s.world.todo = some (.call c k))
      (hk : ∀ e, k (c.resRd D lib s.world.sh) ≠ .ret (.error e)) :
      Case lib s (.go D) { s with world :=
        ⟨s.world.own, some (k (c.resRd D lib s.world.sh)), c.effectRd D s.world.sh, s.world.ins,
          s.world.log ++ (c.op.map (fun o => (true, o))).toList⟩ }
  | finish (D : Disk) (o : Own) (ht : s.world.todo = some (.ret (.ok o))) :
      Case lib s (.go D) { s with world := { s.world with own := o, todo := none } }
  | loaderExit (hc : s.cancelled = true) (hw : s.waits = true) : Case lib s .loaderExit { s with loaderUp := false }
  | respawn (D : Disk) (now : Int) (failed : Bool) (hu : s.respawnUp = true) (ha : s.armed = true) :
      Case lib s (.respawn D now failed) (s.respawn D now failed)
  | respawnExit (hc : s.cancelled = true) (hu : s.respawnUp = true) : Case lib s .respawnExit { s with respawnUp := false }
  | refused (D : Disk) (f : Fate) (now : Int) (a : Addr) (e : Err)
      (hw : (Peers.Rd.SuggestVersion D.peers f now s.world.sh.reg a).2 = fail e) :
      Case lib s (.suggest D f now a) { s with world := s.world.called { s.world.sh with reg := (Peers.Rd.SuggestVersion D.peers f now s.world.sh.reg a).1 } (some (.registry ⟨now, .suggest f a⟩)) }
  | suggested (D : Disk) (f : Fate) (now : Int) (a : Addr) (v : Peers.Version)
      (hw : (Peers.Rd.SuggestVersion D.peers f now s.world.sh.reg a).2 = .ok v) :
      Case lib s (.suggest D f now a) { s with world := s.world.called { s.world.sh with reg := (Peers.Rd.SuggestVersion D.peers f now s.world.sh.reg a).1 } (some (.registry ⟨now, .suggest f a⟩)), joined := a :: s.joined }
  | giveUp (D : Disk) (f : Fate) (now : Int) (a : Addr) (hd : a ∈ s.dialled.map (·.addr)) :
      Case lib s (.giveUp D f now a) { s with world := s.world.called { s.world.sh with reg := (Peers.Rd.UnregisterPeer D.peers f now s.world.sh.reg a).1 } (some (.registry ⟨now, .unregister f a⟩)) }
  | listen (ok : Bool) (hl : s.lsn = .starting) : Case lib s (.listen ok) { s with lsn := if ok then .listening else .failed }
  | listenerExit (conn : Bool) (hl : s.lsn = .listening) (hc : s.cancelled = true) (hm : s.main.closed = true ∨ conn = true) :
      Case lib s (.listenerExit conn) { s with lsn := .exited }
  | apiExit (hu : s.apiUp = true) (hm : s.main ≠ .waiting) : Case lib s .apiExit { s with apiUp := false }
  | signal : Case lib s .signal { s with cancelled := true }
  | main (q : Prog) (hq : s.shell.mainStep = some (.ok q)) : Case lib s .main { s with main := q.main }

theorem step_case {s s' : Sys} {e : Ev} (h : s.step lib e = some (.ok s')) : s.main ≠ .exited ∧ Case lib s e s' := by
  unfold Sys.step at h
  split at h
  · cases h
  rename_i hm
  refine ⟨hm, ?_⟩
  have hand : ∀ {b : Bool} {r : Go Handled}, guarded b (s.handled r) = some (.ok s') → (b = true → s.dist = .ready) →
      (b = true → Handling lib s e r) → Case lib s e s' := by
    intro b r hg hb hr
    obtain ⟨hb', hg⟩ := guarded_eq hg
    obtain ⟨x, hx, rfl⟩ := handled_eq hg
    exact .handled (hb hb') (hr hb') hx
  cases e with
  | message D c p m => exact hand h (fun hb => by simpa using hb) (fun _ => .message D c p m)
  | connected D c p =>
    refine hand h (fun hb => ?_) (fun hb => .connected D c p ?_)
    · simp only [Bool.and_eq_true, decide_eq_true_eq] at hb; exact hb.1
    · simp only [Bool.and_eq_true, decide_eq_true_eq] at hb; exact hb.2
  | broken D c p => exact hand h (fun hb => by simpa using hb) (fun _ => .broken D c p)
  | ping c => exact hand h (fun hb => by simpa using hb) (fun _ => .ping c)
  | take c =>
    simp only at h
    cases hd : s.dist with
    | ready => rw [hd] at h; cases h
    | exited => rw [hd] at h; cases h
    | sending pk =>
      rw [hd] at h
      obtain ⟨hw, h⟩ := guarded_eq h
      cases h; exact .take c pk hd hw
  | distExit =>
    obtain ⟨hb, h⟩ := guarded_eq h
    simp only [Bool.and_eq_true, decide_eq_true_eq] at hb
    cases h; exact .distExit hb.1 hb.2
  | tick c =>
    obtain ⟨hb, h⟩ := guarded_eq h
    simp only [Bool.and_eq_true] at hb
    cases h; exact .tick c hb.1 hb.2
  | timer c =>
    obtain ⟨hb, h⟩ := guarded_eq h
    cases h; exact .timer c hb
  | go D =>
    simp only [Sys.go] at h
    cases ht : s.world.todo with
    | none => rw [ht] at h; cases h
    | some p =>
      rw [ht] at h
      cases p with
      | ret r =>
        cases r with
        | error e => cases h
        | ok o => cases h; exact .finish D o ht
      | call c k =>
        simp only at h
        split at h
        · cases h
        · rename_i hk
          cases h; exact .call D c k ht hk
  | loaderExit =>
    obtain ⟨hb, h⟩ := guarded_eq h
    simp only [Bool.and_eq_true] at hb
    cases h; exact .loaderExit hb.1 hb.2
  | respawn D now rf =>
    obtain ⟨hb, h⟩ := guarded_eq h
    simp only [Bool.and_eq_true] at hb
    cases h; exact .respawn D now rf hb.1 hb.2
  | respawnExit =>
    obtain ⟨hb, h⟩ := guarded_eq h
    simp only [Bool.and_eq_true] at hb
    cases h; exact .respawnExit hb.1 hb.2
  | suggest D f now a =>
    simp only at h
    split at h
    · cases h
    · rename_i e he; cases h; exact .refused D f now a e he
    · rename_i v hv; cases h; exact .suggested D f now a v hv
  | giveUp D f now a =>
    obtain ⟨hb, h⟩ := guarded_eq h
    simp only at h
    split at h
    · cases h
    · cases h; exact .giveUp D f now a (by simpa using hb)
  | listen ok =>
    obtain ⟨hb, h⟩ := guarded_eq h
    cases h; exact .listen ok (by simpa using hb)
  | listenerExit conn =>
    obtain ⟨hb, h⟩ := guarded_eq h
    simp only [Bool.and_eq_true, Bool.or_eq_true, decide_eq_true_eq] at hb
    cases h; exact .listenerExit conn hb.1.1 hb.1.2 hb.2
  | apiExit =>
    obtain ⟨hb, h⟩ := guarded_eq h
    simp only [Bool.and_eq_true, decide_eq_true_eq] at hb
    cases h; exact .apiExit hb.1 hb.2
  | signal => cases h; exact .signal
  | main =>
    simp only at h
    split at h
    · cases h
    · cases h
    · rename_i q hq; cases h; exact .main q hq

/-- skipping changes nothing: the skipped messages are not handled -/
theorem receive_eq (D : Disk) (lib : Lib) (c : Ctx) (s : Shared) (p : Sender) (m : Message) :
    receive D lib c s p m = handleMessage D lib c s p m := by
  unfold receive
  cases m <;> first | rfl | (split <;> rfl)

/-! ### what the handlers do to the store and to the registry -/

/-- the call that the handler of a message makes, if it may write -/
def messageCall (c : Ctx) (p : Sender) : Message → Option Other
  | .peers ps => some (.registry ⟨c.now, .append c.fates ((ps.filterMap id).map some)⟩)
  | .block (some b) => p.remote.map (fun a => .putBlock b a (c.fates 0) (c.fates 1))
  | .pbBlock (some b) => p.remote.map (fun a => .putBlock b a (c.fates 0) (c.fates 1))
  | .score s => p.remote.map (fun a => .registry ⟨c.now, .updateScore (c.fates 0) a (setBytes s)⟩)
  | .microBlockInv (some inv) => p.remote.map (fun a => .putMicro inv a (c.fates 0) (c.fates 1))
  | _ => none

/-- what a call makes of the store and the registry -/
def done (D : Disk) (lib : Lib) (s : Shared) : Option Other → Shared
  | none => s
  | some x => x.effectRd D lib s

theorem handleBlock_call {D : Disk} {c : Ctx} {s : Shared} {p : Sender} {b : ProtoBlock} {x : Handled}
    (h : handleBlock D c s p (some b) = .ok x) :
    x.call = p.remote.map (fun a => .putBlock b a (c.fates 0) (c.fates 1)) ∧ x.sh = done D lib s x.call ∧
    (∀ q, x.pkg = some q → ∃ a, p.remote = some a ∧ q = .block a b) := by
  unfold handleBlock at h
  cases hr : p.remote with
  | none => rw [hr] at h; cases h; exact ⟨rfl, rfl, fun q hq => by cases hq⟩
  | some a =>
    rw [hr] at h
    simp only at h
    rcases hw : Chains.Rd.PutBlock D.chains (c.fates 0) (c.fates 1) s.link.db b a with ⟨db, (e | u) | u⟩
    · rw [hw] at h
      cases e <;> (cases h; refine ⟨rfl, ?_, fun q hq => ?_⟩ <;>
        first
        | (simp only [done, Other.effectRd, Chains.Rd.step, hw])
        | (cases hq <;> exact ⟨a, rfl, rfl⟩))
    · rw [hw] at h; cases h
    · rw [hw] at h; cases h
      refine ⟨rfl, ?_, fun q hq => ?_⟩
      · simp only [done, Other.effectRd, Chains.Rd.step, hw]
      · cases hq; exact ⟨a, rfl, rfl⟩

/-- what the handler of a message does -/
theorem handleMessage_call {D : Disk} {c : Ctx} {s : Shared} {p : Sender} {m : Message} {x : Handled}
    (h : handleMessage D lib c s p m = .ok x) : x.call = messageCall c p m ∧ x.sh = done D lib s x.call := by
  cases m with
  | getPeers =>
    simp only [handleMessage, handleGetPeers] at h
    rcases hf : Peers.Rd.FriendlyPeers D.peers lib c.env s.reg with (e | u) | fs
    · rw [hf] at h; cases h; exact ⟨rfl, rfl⟩
    · rw [hf] at h; cases h
    · rw [hf] at h
      simp only at h
      cases ht : Peers.tcpAddrs fs with
      | error e => rw [ht] at h; cases h
      | ok infos => rw [ht] at h; cases h; exact ⟨rfl, rfl⟩
  | peers ps =>
    simp only [handleMessage, handlePeers] at h
    obtain ⟨rfl, _⟩ := noPanic_eq h
    exact ⟨rfl, rfl⟩
  | signatures sigs =>
    simp only [handleMessage, handleSignatures] at h
    split at h <;> (cases h; exact ⟨rfl, rfl⟩)
  | block b =>
    cases b with
    | none => cases h; exact ⟨rfl, rfl⟩
    | some b => obtain ⟨h1, h2, _⟩ := handleBlock_call (lib := lib) h; exact ⟨h1, h2⟩
  | pbBlock b =>
    cases b with
    | none => cases h; exact ⟨rfl, rfl⟩
    | some b => obtain ⟨h1, h2, _⟩ := handleBlock_call (lib := lib) h; exact ⟨h1, h2⟩
  | score sc =>
    simp only [handleMessage, handleScore] at h
    cases hr : p.remote with
    | none => rw [hr] at h; cases h; exact ⟨by simp only [messageCall, hr]; rfl, rfl⟩
    | some a =>
      rw [hr] at h
      obtain ⟨rfl, _⟩ := noPanic_eq h
      exact ⟨by simp only [messageCall, hr]; rfl, rfl⟩
  | microBlockInv inv =>
    simp only [handleMessage, handleMicroBlockInv] at h
    cases inv with
    | none => cases hr : p.remote <;> (rw [hr] at h; cases h; exact ⟨rfl, rfl⟩)
    | some inv =>
      cases hr : p.remote with
      | none => rw [hr] at h; cases h; exact ⟨by simp only [messageCall, hr]; rfl, rfl⟩
      | some a =>
        rw [hr] at h
        simp only at h
        obtain ⟨rfl, _⟩ := noPanic_eq h
        exact ⟨by simp only [messageCall, hr]; rfl, rfl⟩
  | blockIds ids =>
    simp only [handleMessage, handleBlockIDs] at h
    split at h
    · cases h; exact ⟨rfl, rfl⟩
    · split at h <;> (cases h; exact ⟨rfl, rfl⟩)
  | _ => cases h; exact ⟨rfl, rfl⟩

/-- the call that a handler makes -/
def handlerCall : Ev → Option Other
  | .message _ c p m => messageCall c p m
  | .connected _ c p => p.remote.map (fun a => .registry ⟨c.now, .register (c.fates 0) a p.conn p.conn.handshake⟩)
  | .broken _ c p => p.remote.map (fun a => .registry ⟨c.now, .unregister (c.fates 0) a⟩)
  | _ => none

/-- the condition of the disk in an event -/
def Ev.disk : Ev → Disk
  | .message D _ _ _ => D
  | .connected D _ _ => D
  | .broken D _ _ => D
  | .go D => D
  | .respawn D _ _ => D
  | .suggest D _ _ _ => D
  | .giveUp D _ _ _ => D
  | _ => .good

theorem Handling.effect {s : Sys} {e : Ev} {r : Go Handled} {x : Handled} (h : Handling lib s e r) (hx : r = .ok x) :
    x.call = handlerCall e ∧ x.sh = done e.disk lib s.world.sh x.call := by
  cases h with
  | message D c p m => rw [receive_eq] at hx; exact handleMessage_call hx
  | connected D c p hj =>
    unfold handleConnected at hx
    cases hr : p.remote with
    | none => rw [hr] at hx; cases hx; exact ⟨by simp only [handlerCall, hr]; rfl, rfl⟩
    | some a =>
      rw [hr] at hx
      obtain ⟨rfl, _⟩ := noPanic_eq hx
      exact ⟨by simp only [handlerCall, hr]; rfl, rfl⟩
  | broken D c p =>
    unfold handleInternalError at hx
    cases hr : p.remote with
    | none => rw [hr] at hx; cases hx; exact ⟨by simp only [handlerCall, hr]; rfl, rfl⟩
    | some a =>
      rw [hr] at hx
      obtain ⟨rfl, _⟩ := noPanic_eq hx
      exact ⟨by simp only [handlerCall, hr]; rfl, rfl⟩
  | ping c => cases hx; exact ⟨rfl, rfl⟩

/-! ### the program as seen by the loader -/

theorem called_none (w : World) : w.called w.sh none = w := by
  unfold World.called
  simp

theorem called_step (w : World) (D : Disk) (x : Option Other) :
    w.called (done D lib w.sh x) x = w ∨ RdStep lib w [] (w.called (done D lib w.sh x) x) := by
  cases x with
  | none => exact Or.inl (called_none w)
  | some x => exact Or.inr (.other w D x)

theorem waits_iff {s : Sys} (h : s.waits = true) : s.loaderUp = true ∧ s.world.todo = none := by
  unfold Sys.waits at h
  simp only [Bool.and_eq_true, Option.isNone_iff_eq_none] at h
  exact h

/-- one event of the program is at most one step of the loader and its surroundings -/
theorem step_world {s s' : Sys} {e : Ev} (h : s.step lib e = some (.ok s')) :
    (s'.world = s.world ∧ s.answer lib e = []) ∨ RdStep lib s.world (s.answer lib e) s'.world := by
  obtain ⟨_, hc⟩ := step_case h
  cases hc with
  | @handled _ r x hd hr hx =>
    obtain ⟨h1, h2⟩ := hr.effect hx
    have hans : s.answer lib e = [] := by cases hr <;> rfl
    rw [hans]
    have := called_step (lib := lib) s.world e.disk x.call
    rw [← h2] at this
    exact this.imp (fun h => ⟨h, rfl⟩) id
  | take c p hd hw => exact Or.inr (.receive s.world c _ (waits_iff hw).2)
  | tick c hw ht => exact Or.inr (.receive s.world c _ (waits_iff hw).2)
  | timer c hw => exact Or.inr (.receive s.world c _ (waits_iff hw).2)
  | call D c k ht hk =>
    simp only [Sys.answer, ht]
    exact Or.inr (.call s.world D c k ht)
  | finish D o ht =>
    simp only [Sys.answer, ht]
    exact Or.inr (.finish s.world o ht)
  | respawn D now failed hu ha =>
    unfold Sys.respawn
    split
    · exact Or.inl ⟨rfl, rfl⟩
    · right
      dsimp only
      split <;> exact .other s.world D (.registry ⟨now, .take⟩)
  | refused D f now a e hw => exact Or.inr (.other s.world D (.registry ⟨now, .suggest f a⟩))
  | suggested D f now a v hw => exact Or.inr (.other s.world D (.registry ⟨now, .suggest f a⟩))
  | giveUp D f now a hd => exact Or.inr (.other s.world D (.registry ⟨now, .unregister f a⟩))
  | _ => exact Or.inl ⟨rfl, rfl⟩

theorem Path.run {s s' : Sys} {es : List Ev} {tr : List Answer} (h : Path lib s es tr s') : RdRun lib s.world tr s'.world := by
  induction h with
  | nil => exact .nil
  | snoc _ e he ih =>
    rcases step_world he with ⟨h1, h2⟩ | h1
    · rw [h1, h2, List.append_nil]; exact ih
    · exact ih.snoc h1

theorem start_reachable {r : Registry} (R : Peers.Reachable lib r) (D : Disk) (cfg : Config) (fs : Nat → Fate)
    (seeds : List (Option AddrPort)) :
    Peers.Reachable lib (Peers.Rd.AppendAddresses D.peers fs (Peers.NewRegistry cfg r.db) seeds).1 :=
  Peers.Rd.exec_reachable [(D.peers, ⟨0, .reopen cfg⟩), (D.peers, ⟨0, .append fs seeds⟩)] R

end Verif.Services.Fine
