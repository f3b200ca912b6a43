import Verif.Services.Program
import Verif.Loading.Outcomes
import Verif.Peers.Live
import Verif.Loading.Examples
/-
The program as seen by the loader, and invariants of the program.
-/

set_option autoImplicit false

namespace Verif.Services

open Verif
open Verif.Chains (Addr BytesN BlockID ProtoBlock MicroInv Linkage)
open Verif.Peers (Conn Registry Lib AddrPort Config Covered view)
open Verif.Loading (Ctx Loader)
open Verif.KV (Fate)

variable {lib : Lib}

/-- the call on store or registry that the handler of a message makes -/
def messageEv (c : Ctx) (p : Sender) : Message → Option Loading.Op
  | .peers ps => some (.registry ⟨c.now, .append c.fates ((ps.filterMap id).map some)⟩)
  | .block (some b) => p.remote.map (fun a => .putBlock b a (c.fates 0) (c.fates 1))
  | .pbBlock (some b) => p.remote.map (fun a => .putBlock b a (c.fates 0) (c.fates 1))
  | .score s => p.remote.map (fun a => .registry ⟨c.now, .updateScore (c.fates 0) a (setBytes s)⟩)
  | .microBlockInv (some inv) => p.remote.map (fun a => .putMicro inv a (c.fates 0) (c.fates 1))
  | _ => none

/-- the event of the loader model that an event of the program is -/
def Prog.loaderEv (s : Prog) (ctx0 : Ctx) : Ev → Option Loading.Event
  | .message c p m => (messageEv c p m).map (fun o => ⟨c, o⟩)
  | .connected c p => p.remote.map (fun a => ⟨c, .registry ⟨c.now, .register (c.fates 0) a p.conn p.conn.handshake⟩⟩)
  | .broken c p => p.remote.map (fun a => ⟨c, .registry ⟨c.now, .unregister (c.fates 0) a⟩⟩)
  | .ping _ => none
  | .take c =>
    match s.dist with
    | .sending (.ids a ids) => some ⟨c, .ids a ids⟩
    | .sending (.block a b) => some ⟨c, .block a (some b)⟩
    | _ => none
  | .distExit => none
  | .tick c => some ⟨c, .tick⟩
  | .timer c => some ⟨c, .timer⟩
  | .loaderExit => none
  | .respawn now readFails => if readFails then none else some ⟨ctx0, .registry ⟨now, .take⟩⟩
  | .respawnExit => none
  | .suggest f now a => some ⟨ctx0, .registry ⟨now, .suggest f a⟩⟩
  | .giveUp f now a => some ⟨ctx0, .registry ⟨now, .unregister f a⟩⟩
  | .listen _ => none
  | .listenerExit _ => none
  | .apiExit => none
  | .signal => none
  | .main => none

/-- what happens to the loader -/
def Follows (lib : Lib) (l l' : Loader) : Option Loading.Event → Prop
  | none => l' = l
  | some e => Loading.step lib l e = .ok l'

theorem guarded_eq {b : Bool} {r : Go Prog} {x : Go Prog} (h : guarded b r = some x) : b = true ∧ r = x := by
  unfold guarded at h
  cases b with
  | false => cases h
  | true => exact ⟨rfl, Option.some.inj h⟩

theorem noPanic_eq {α : Type} {r : Go α} {h h' : Handled} (e : noPanic r h = .ok h') : h' = h ∧ r ≠ goPanic := by
  unfold noPanic at e
  rcases r with (e' | u) | u
  · cases e; exact ⟨rfl, by simp [goPanic]⟩
  · cases e
  · cases e; exact ⟨rfl, by simp [goPanic]⟩

theorem handled_eq {s s' : Prog} {r : Go Handled} (h : s.handled r = .ok s') :
    ∃ x, r = .ok x ∧ s' = { s with
      l := x.l, out := s.out ++ x.out, sent := s.sent ++ x.pkg.toList
      dist := match x.pkg with
        | none => .ready
        | some p => .sending p } := by
  unfold Prog.handled at h
  cases r with
  | error e => cases h
  | ok x => exact ⟨x, rfl, (Except.ok.inj h).symm⟩

theorem handleMessage_loader {c : Ctx} {l : Loader} {p : Sender} {m : Message} {x : Handled}
    (h : handleMessage lib c l p m = .ok x) : Follows lib l x.l ((messageEv c p m).map (fun o => ⟨c, o⟩)) := by
  have put : ∀ b, handleBlock c l p (some b) = .ok x →
      Follows lib l x.l ((p.remote.map (fun a => Loading.Op.putBlock b a (c.fates 0) (c.fates 1))).map (fun o => ⟨c, o⟩)) := by
    intro b h
    unfold handleBlock at h
    cases hr : p.remote with
    | none => rw [hr] at h; cases h; rfl
    | some a =>
      rw [hr] at h
      simp only at h
      simp only [Option.map_some, Follows, Loading.step, Loading.others, Chains.Spec.step]
      rcases hw : Chains.PutBlock (c.fates 0) (c.fates 1) l.link.db b a with ⟨db, (e | u) | u⟩
      · rw [hw] at h
        cases e <;> first | (cases h; rfl)
      · rw [hw] at h; cases h
      · rw [hw] at h; cases h; rfl
  cases m with
  | getPeers =>
    simp only [handleMessage, handleGetPeers] at h
    show x.l = l
    rcases hf : Peers.FriendlyPeers lib c.env l.reg with (e | u) | fs
    · rw [hf] at h; cases h; rfl
    · rw [hf] at h; cases h
    · rw [hf] at h
      simp only at h
      cases ht : Peers.tcpAddrs fs with
      | error e => rw [ht] at h; cases h
      | ok infos => rw [ht] at h; cases h; rfl
  | peers ps =>
    simp only [handleMessage, handlePeers] at h
    obtain ⟨rfl, _⟩ := noPanic_eq h
    rfl
  | signatures sigs =>
    simp only [handleMessage, handleSignatures] at h
    show x.l = l
    split at h <;> (cases h; rfl)
  | block b =>
    cases b with
    | none => cases h; rfl
    | some b => exact put b h
  | score sc =>
    simp only [handleMessage, handleScore] at h
    cases hr : p.remote with
    | none => rw [hr] at h; cases h; simp only [messageEv, hr]; rfl
    | some a =>
      rw [hr] at h
      obtain ⟨rfl, _⟩ := noPanic_eq h
      simp only [messageEv, hr]; rfl
  | microBlockInv inv =>
    simp only [handleMessage, handleMicroBlockInv] at h
    cases inv with
    | none =>
      show x.l = l
      cases hr : p.remote <;> (rw [hr] at h; cases h; rfl)
    | some inv =>
      cases hr : p.remote with
      | none => rw [hr] at h; cases h; simp only [messageEv, hr]; rfl
      | some a =>
        rw [hr] at h
        simp only at h
        simp only [messageEv, hr, Option.map_some, Follows, Loading.step, Loading.others, Chains.Spec.step]
        rcases hw : Chains.PutMicroBlock (c.fates 0) (c.fates 1) l.link.db inv a with ⟨db, (e | u) | u⟩
        · rw [hw] at h; cases h; rfl
        · rw [hw] at h; cases h
        · rw [hw] at h; cases h; rfl
  | pbBlock b =>
    cases b with
    | none => cases h; rfl
    | some b => exact put b h
  | blockIds ids =>
    simp only [handleMessage, handleBlockIDs] at h
    show x.l = l
    split at h
    · cases h; rfl
    · split at h <;> (cases h; rfl)
  | _ => cases h; rfl

/-- skipping changes nothing: the skipped messages are not handled -/
theorem receive_eq (lib : Lib) (c : Ctx) (l : Loader) (p : Sender) (m : Message) : receive lib c l p m = handleMessage lib c l p m := by
  unfold receive
  cases m <;> first | rfl | (split <;> rfl)

/-- one event of the program is at most one event of the loader model -/
theorem step_loader {s s' : Prog} {e : Ev} (ctx0 : Ctx) (h : s.step lib e = some (.ok s')) :
    Follows lib s.l s'.l (s.loaderEv ctx0 e) := by
  unfold Prog.step at h
  split at h
  · cases h
  cases e with
  | message c p m =>
    obtain ⟨_, h⟩ := guarded_eq h
    obtain ⟨x, hx, rfl⟩ := handled_eq h
    rw [receive_eq] at hx
    exact handleMessage_loader hx
  | connected c p =>
    obtain ⟨_, h⟩ := guarded_eq h
    obtain ⟨x, hx, rfl⟩ := handled_eq h
    unfold handleConnected at hx
    cases hr : p.remote with
    | none => rw [hr] at hx; cases hx; simp only [Prog.loaderEv, hr]; rfl
    | some a =>
      rw [hr] at hx
      obtain ⟨rfl, _⟩ := noPanic_eq hx
      simp only [Prog.loaderEv, hr]; rfl
  | broken c p =>
    obtain ⟨_, h⟩ := guarded_eq h
    obtain ⟨x, hx, rfl⟩ := handled_eq h
    unfold handleInternalError at hx
    cases hr : p.remote with
    | none => rw [hr] at hx; cases hx; simp only [Prog.loaderEv, hr]; rfl
    | some a =>
      rw [hr] at hx
      obtain ⟨rfl, _⟩ := noPanic_eq hx
      simp only [Prog.loaderEv, hr]; rfl
  | ping c =>
    obtain ⟨_, h⟩ := guarded_eq h
    obtain ⟨x, hx, rfl⟩ := handled_eq h
    cases hx; rfl
  | take c =>
    simp only at h
    cases hd : s.dist with
    | ready => rw [hd] at h; cases h
    | exited => rw [hd] at h; cases h
    | sending pk =>
      rw [hd] at h
      obtain ⟨_, h⟩ := guarded_eq h
      simp only [Prog.loaderEv, hd]
      cases hl : takePkg c s.l pk with
      | error e => rw [hl] at h; cases h
      | ok l' =>
        rw [hl] at h; cases h
        cases pk with
        | ids a ids => exact hl
        | block a b => exact hl
  | distExit => obtain ⟨_, h⟩ := guarded_eq h; cases h; rfl
  | tick c =>
    obtain ⟨_, h⟩ := guarded_eq h
    cases hl : Loading.tick c s.l with
    | error e => rw [hl] at h; cases h
    | ok l' => rw [hl] at h; cases h; exact hl
  | timer c =>
    obtain ⟨_, h⟩ := guarded_eq h
    cases hl : Loading.sync lib c s.l with
    | error e => rw [hl] at h; cases h
    | ok l' => rw [hl] at h; cases h; exact hl
  | loaderExit => obtain ⟨_, h⟩ := guarded_eq h; cases h; rfl
  | respawn now rf =>
    obtain ⟨_, h⟩ := guarded_eq h
    cases h
    cases rf with
    | true => rfl
    | false =>
      simp only [Prog.loaderEv, Prog.respawn, Bool.false_eq_true, if_false, Follows, Loading.step, Peers.step]
      split <;> rfl
  | respawnExit => obtain ⟨_, h⟩ := guarded_eq h; cases h; rfl
  | suggest f now a =>
    simp only at h
    simp only [Prog.loaderEv, Follows, Loading.step, Peers.step]
    split at h
    · cases h
    · cases h; rfl
    · cases h; rfl
  | giveUp f now a =>
    obtain ⟨_, h⟩ := guarded_eq h
    simp only at h
    simp only [Prog.loaderEv, Follows, Loading.step, Peers.step]
    split at h
    · cases h
    · cases h; rfl
  | listen ok => obtain ⟨_, h⟩ := guarded_eq h; cases h; rfl
  | listenerExit conn => obtain ⟨_, h⟩ := guarded_eq h; cases h; rfl
  | apiExit => obtain ⟨_, h⟩ := guarded_eq h; cases h; rfl
  | signal => cases h; rfl
  | main =>
    show s'.l = s.l
    simp only [Prog.mainStep] at h
    repeat' split at h
    all_goals first | (cases h; rfl) | cases h

/-- only registry calls of other goroutines change the registry -/
theorem reg_step {l l' : Loader} {e : Loading.Event} (I : Loading.Inv lib l) (h : Loading.step lib l e = .ok l') :
    l'.reg = l.reg ∨ ∃ c ev, e = ⟨c, .registry ev⟩ ∧ l'.reg = Peers.step lib l.reg ev := by
  obtain ⟨c, op⟩ := e
  cases op with
  | ids peer ids =>
    left
    simp only [Loading.step, Loading.handleIDs] at h
    split at h
    · cases h; rfl
    · rename_i ha
      split at h
      · cases h; rfl
      · split at h
        · cases h; rfl
        · obtain ⟨rfl, _⟩ := Loading.logged_ok h
          exact (Loading.frame_fire_ids c l ids I.quiet (by simpa using ha)).reg
  | block peer b =>
    left
    simp only [Loading.step, Loading.handleBlock] at h
    split at h
    · cases h; rfl
    · rename_i ha
      split at h
      · cases h; rfl
      · obtain ⟨rfl, _⟩ := Loading.logged_ok h
        exact (Loading.frame_fire_block c l b I.quiet (by simpa using ha)).reg
  | tick =>
    left
    simp only [Loading.step, Loading.tick] at h
    split at h
    · rename_i ha
      obtain ⟨rfl, _⟩ := Loading.logged_ok h
      exact (Loading.frame_fire_tick c l c.now I.quiet ha).reg
    · cases h; rfl
  | timer =>
    left
    simp only [Loading.step] at h
    have ho := Loading.sync_outcome lib c l
    rw [h] at ho
    generalize hr : (Except.ok l' : Go Loader) = r at ho
    cases ho with
    | busy _ => cases hr; rfl
    | unlisted _ _ _ => cases hr; rfl
    | panic _ _ => cases hr
    | nobody _ _ _ _ => cases hr; rfl
    | start _ ps hc p hp hl hn =>
      obtain ⟨rfl, _⟩ := Loading.logged_ok hr.symm
      exact (Loading.frame_startNow c (Loading.chosen l p)).reg
    | restart _ ps hc p hp hl hn =>
      obtain ⟨rfl, _⟩ := Loading.logged_ok hr.symm
      exact (Loading.frame_requestIDsFromLCA c _).reg
  | putBlock b a f1 f2 => left; rw [(I.others h).2]
  | putMicro inv a f1 f2 => left; rw [(I.others h).2]
  | registry ev =>
    right
    cases h
    exact ⟨c, ev, rfl, rfl⟩

/-! ### parts of the program that an event does not touch -/

/-- the handlers of the distributor, as one case -/
inductive Handling (lib : Lib) (s : Prog) : Ev → Go Handled → Prop where
  | message (c : Ctx) (p : Sender) (m : Message) : Handling lib s (.message c p m) (receive lib c s.l p m)
  | connected (c : Ctx) (p : Sender) (hj : ∀ a, a ∈ p.remote → a ∈ s.joined) : Handling lib s (.connected c p) (handleConnected lib c s.l p)
  | broken (c : Ctx) (p : Sender) : Handling lib s (.broken c p) (handleInternalError c s.l p)
  | ping (c : Ctx) : Handling lib s (.ping c) (.ok (pingConnections c s.l))

/-- How an event goes; `step_case` is the only place where `Prog.step` is taken apart. -/
inductive Case (lib : Lib) (s : Prog) : Ev → Prog → Prop where
  | handled {e : Ev} {r : Go Handled} {x : Handled} (hd : s.dist = .ready) (hr : Handling lib s e r) (hx : r = .ok x) :
      Case lib s e { s with
        l := x.l, out := s.out ++ x.out, sent := s.sent ++ x.pkg.toList
        dist := match x.pkg with
          | none => .ready
          | some p => .sending p }
  | take (c : Ctx) (p : Pkg) (l' : Loader) (hd : s.dist = .sending p) (hu : s.loaderUp = true) (hl : takePkg c s.l p = .ok l') :
      Case lib s (.take c) { s with l := l', dist := .ready, taken := s.taken ++ [p] }
  | distExit (hc : s.cancelled = true) (hd : s.dist = .ready) : Case lib s .distExit { s with dist := .exited }
  | tick (c : Ctx) (l' : Loader) (hu : s.loaderUp = true) (ht : s.l.ticking = true) (hl : Loading.tick c s.l = .ok l') :
      Case lib s (.tick c) { s with l := l' }
  | timer (c : Ctx) (l' : Loader) (hu : s.loaderUp = true) (hl : Loading.sync lib c s.l = .ok l') :
      Case lib s (.timer c) { s with l := l' }
  | loaderExit (hc : s.cancelled = true) (hu : s.loaderUp = true) : Case lib s .loaderExit { s with loaderUp := false }
  | respawn (now : Int) (rf : Bool) (hu : s.respawnUp = true) (ha : s.armed = true) : Case lib s (.respawn now rf) (s.respawn now rf)
  | respawnExit (hc : s.cancelled = true) (hu : s.respawnUp = true) : Case lib s .respawnExit { s with respawnUp := false }
  | refused (f : Fate) (now : Int) (a : Addr) (e : Err) (hw : (Peers.SuggestVersion f now s.l.reg a).2 = fail e) :
      Case lib s (.suggest f now a) { s with l := { s.l with reg := (Peers.SuggestVersion f now s.l.reg a).1 } }
  | suggested (f : Fate) (now : Int) (a : Addr) (v : Peers.Version) (hw : (Peers.SuggestVersion f now s.l.reg a).2 = .ok v) :
      Case lib s (.suggest f now a)
        { s with l := { s.l with reg := (Peers.SuggestVersion f now s.l.reg a).1 }, joined := a :: s.joined }
  | giveUp (f : Fate) (now : Int) (a : Addr) (hd : a ∈ s.dialled.map (·.addr)) :
      Case lib s (.giveUp f now a) { s with l := { s.l with reg := (Peers.UnregisterPeer f now s.l.reg a).1 } }
  | listen (ok : Bool) (hl : s.lsn = .starting) : Case lib s (.listen ok) { s with lsn := if ok then .listening else .failed }
  | listenerExit (conn : Bool) (hl : s.lsn = .listening) (hc : s.cancelled = true) (hm : s.main.closed = true ∨ conn = true) :
      Case lib s (.listenerExit conn) { s with lsn := .exited }
  | apiExit (hu : s.apiUp = true) (hm : s.main ≠ .waiting) : Case lib s .apiExit { s with apiUp := false }
  | signal : Case lib s .signal { s with cancelled := true }
  | mainWaiting (hm : s.main = .waiting) (hc : s.cancelled = true) : Case lib s .main { s with main := .api }
  | mainApi (hm : s.main = .api) (hu : s.apiUp = false) (hl : s.lsn = .listening ∨ s.lsn = .exited) :
      Case lib s .main { s with main := .listener }
  | mainOff (hm : s.main = .api) (hu : s.apiUp = false) (hl : s.lsn = .off) : Case lib s .main { s with main := .respawn }
  | mainListener (hm : s.main = .listener) (hl : s.lsn = .exited) : Case lib s .main { s with main := .respawn }
  | mainRespawn (hm : s.main = .respawn) (hu : s.respawnUp = false) : Case lib s .main { s with main := .loader }
  | mainLoader (hm : s.main = .loader) (hu : s.loaderUp = false) : Case lib s .main { s with main := .distributor }
  | mainDistributor (hm : s.main = .distributor) (hd : s.dist = .exited) : Case lib s .main { s with main := .exited }

theorem step_case {s s' : Prog} {e : Ev} (h : s.step lib e = some (.ok s')) : s.main ≠ .exited ∧ Case lib s e s' := by
  unfold Prog.step at h
  split at h
  · cases h
  rename_i hm
  refine ⟨hm, ?_⟩
  have hand : ∀ {b : Bool} {r : Go Handled}, guarded b (s.handled r) = some (.ok s') → (b = true → s.dist = .ready) →
      (b = true → Handling lib s e r) → Case lib s e s' := by
    intro b r hg hb hr
    obtain ⟨hb', hg⟩ := guarded_eq hg
    obtain ⟨x, hx, rfl⟩ := handled_eq hg
    exact .handled (hb hb') (hr hb') hx
  cases e with
  | message c p m => exact hand h (fun hb => by simpa using hb) (fun _ => .message c p m)
  | connected c p =>
    refine hand h (fun hb => ?_) (fun hb => .connected c p ?_)
    · simp only [Bool.and_eq_true, decide_eq_true_eq] at hb; exact hb.1
    · simp only [Bool.and_eq_true, decide_eq_true_eq] at hb; exact hb.2
  | broken c p => exact hand h (fun hb => by simpa using hb) (fun _ => .broken c p)
  | ping c => exact hand h (fun hb => by simpa using hb) (fun _ => .ping c)
  | take c =>
    simp only at h
    cases hd : s.dist with
    | ready => rw [hd] at h; cases h
    | exited => rw [hd] at h; cases h
    | sending pk =>
      rw [hd] at h
      obtain ⟨hu, h⟩ := guarded_eq h
      cases hl : takePkg c s.l pk with
      | error e => rw [hl] at h; cases h
      | ok l' => rw [hl] at h; cases h; exact .take c pk l' hd hu hl
  | distExit =>
    obtain ⟨hb, h⟩ := guarded_eq h
    simp only [Bool.and_eq_true, decide_eq_true_eq] at hb
    cases h; exact .distExit hb.1 hb.2
  | tick c =>
    obtain ⟨hb, h⟩ := guarded_eq h
    simp only [Bool.and_eq_true] at hb
    cases hl : Loading.tick c s.l with
    | error e => rw [hl] at h; cases h
    | ok l' => rw [hl] at h; cases h; exact .tick c l' hb.1 hb.2 hl
  | timer c =>
    obtain ⟨hb, h⟩ := guarded_eq h
    cases hl : Loading.sync lib c s.l with
    | error e => rw [hl] at h; cases h
    | ok l' => rw [hl] at h; cases h; exact .timer c l' hb hl
  | loaderExit =>
    obtain ⟨hb, h⟩ := guarded_eq h
    simp only [Bool.and_eq_true] at hb
    cases h; exact .loaderExit hb.1 hb.2
  | respawn now rf =>
    obtain ⟨hb, h⟩ := guarded_eq h
    simp only [Bool.and_eq_true] at hb
    cases h; exact .respawn now rf hb.1 hb.2
  | respawnExit =>
    obtain ⟨hb, h⟩ := guarded_eq h
    simp only [Bool.and_eq_true] at hb
    cases h; exact .respawnExit hb.1 hb.2
  | suggest f now a =>
    simp only at h
    split at h
    · cases h
    · rename_i e he; cases h; exact .refused f now a e he
    · rename_i v hv; cases h; exact .suggested f now a v hv
  | giveUp f now a =>
    obtain ⟨hb, h⟩ := guarded_eq h
    simp only at h
    split at h
    · cases h
    · cases h; exact .giveUp f now a (by simpa using hb)
  | listen ok =>
    obtain ⟨hb, h⟩ := guarded_eq h
    cases h; exact .listen ok (by simpa using hb)
  | listenerExit conn =>
    obtain ⟨hb, h⟩ := guarded_eq h
    simp only [Bool.and_eq_true, Bool.or_eq_true, decide_eq_true_eq] at hb
    cases h; exact .listenerExit conn hb.1.1 hb.1.2 hb.2
  | apiExit =>
    obtain ⟨hb, h⟩ := guarded_eq h
    simp only [Bool.and_eq_true, decide_eq_true_eq] at hb
    cases h; exact .apiExit hb.1 hb.2
  | signal => cases h; exact .signal
  | main =>
    simp only [Prog.mainStep] at h
    cases hm' : s.main with
    | waiting =>
      rw [hm'] at h
      simp only at h
      split at h
      · rename_i hc; cases h; exact .mainWaiting hm' hc
      · cases h
    | api =>
      rw [hm'] at h
      simp only at h
      split at h
      · cases h
      · rename_i hu
        have hu : s.apiUp = false := by simpa using hu
        cases hl : s.lsn with
        | off => rw [hl] at h; cases h; have t := Case.mainOff (lib := lib) hm' hu hl; rw [hl] at t; exact t
        | starting => rw [hl] at h; cases h
        | failed => rw [hl] at h; cases h
        | listening => rw [hl] at h; cases h; have t := Case.mainApi (lib := lib) hm' hu (Or.inl hl); rw [hl] at t; exact t
        | exited => rw [hl] at h; cases h; have t := Case.mainApi (lib := lib) hm' hu (Or.inr hl); rw [hl] at t; exact t
    | listener =>
      rw [hm'] at h
      simp only at h
      split at h
      · rename_i hl; cases h; exact .mainListener hm' hl
      · cases h
    | respawn =>
      rw [hm'] at h
      simp only at h
      split at h
      · cases h
      · rename_i hu; cases h; exact .mainRespawn hm' (by simpa using hu)
    | loader =>
      rw [hm'] at h
      simp only at h
      split at h
      · cases h
      · rename_i hu; cases h; exact .mainLoader hm' (by simpa using hu)
    | distributor =>
      rw [hm'] at h
      simp only at h
      split at h
      · rename_i hd; cases h; exact .mainDistributor hm' hd
      · cases h
    | exited => rw [hm'] at h; cases h

end Verif.Services
