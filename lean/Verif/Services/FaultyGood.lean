import Verif.Services.FaultyEvents
import Verif.Loading.FineAlone
/-
On good disks, and when nothing happens while the loader handles an event, the program of `Services/Faulty.lean` is that of
`Services/Program.lean`.
-/

set_option autoImplicit false

namespace Verif.Services.Fine

open Verif
open Verif.Chains (Addr BytesN BlockID ProtoBlock MicroInv Linkage)
open Verif.Peers (Conn Registry Lib AddrPort Config)
open Verif.Loading (Ctx)
open Verif.Loading.Fine (World Shared Disk Other Input Answer Call RdStep RdRun Own Proc)
open Verif.KV (Fate)

variable {lib : Lib}

/-- the result of a handler, in the form of `Services/Distributor.lean` -/
def Handled.plain (o : Own) (x : Handled) : Services.Handled := { l := o.on x.sh, pkg := x.pkg, out := x.out }

theorem noPanic_plain {α : Type} (o : Own) (r : Go α) (x : Handled) (y : Services.Handled) (h : x.plain o = y) :
    Services.noPanic r y = (noPanic r x).map (Handled.plain o) := by
  unfold Services.noPanic noPanic
  rcases r with (e | u) | u
  · exact congrArg Except.ok h.symm
  · rfl
  · exact congrArg Except.ok h.symm

theorem handleBlock_good (o : Own) (c : Ctx) (s : Shared) (p : Sender) (b : Option ProtoBlock) :
    Services.handleBlock c (o.on s) p b = (handleBlock .good c s p b).map (Handled.plain o) := by
  unfold Services.handleBlock handleBlock
  cases b with
  | none => rfl
  | some b =>
    cases p.remote with
    | none => rfl
    | some a =>
      simp only
      rw [show Disk.good.chains = .none from rfl, putBlock_good]
      show (match (Chains.PutBlock (c.fates 0) (c.fates 1) s.link.db b a).2 with
        | .error .panic => goPanic
        | .error (.err .parentNotFound) => _
        | .error (.err _) => _
        | .ok () => _) = _
      rcases (Chains.PutBlock (c.fates 0) (c.fates 1) s.link.db b a).2 with (e | u) | u
      · cases e <;> rfl
      · rfl
      · rfl

theorem receive_good (o : Own) (c : Ctx) (s : Shared) (p : Sender) (m : Message) :
    Services.receive lib c (o.on s) p m = (receive .good lib c s p m).map (Handled.plain o) := by
  rw [receive_eq, Services.receive_eq]
  cases m with
  | getPeers =>
    simp only [Services.handleMessage, handleMessage, Services.handleGetPeers, handleGetPeers]
    rw [show Disk.good.peers = .none from rfl, Peers.Rd.friendly_good]
    show (match Peers.FriendlyPeers lib c.env s.reg with
      | .error .panic => goPanic
      | .error (.err _) => _
      | .ok fs => _) = _
    rcases Peers.FriendlyPeers lib c.env s.reg with (e | u) | fs
    · rfl
    · rfl
    · simp only
      cases Peers.tcpAddrs fs <;> rfl
  | peers ps =>
    simp only [Services.handleMessage, handleMessage, Services.handlePeers, handlePeers]
    rw [show Disk.good.peers = .none from rfl, Peers.Rd.append_good]
    exact noPanic_plain o _ _ _ rfl
  | signatures sigs =>
    simp only [Services.handleMessage, handleMessage, Services.handleSignatures, handleSignatures]
    cases p.remote <;> rfl
  | block b => exact handleBlock_good o c s p b
  | pbBlock b => exact handleBlock_good o c s p b
  | score sc =>
    simp only [Services.handleMessage, handleMessage, Services.handleScore, handleScore]
    cases p.remote with
    | none => rfl
    | some a =>
      simp only
      rw [show Disk.good.peers = .none from rfl, Peers.Rd.updateScore_good]
      exact noPanic_plain o _ _ _ rfl
  | microBlockInv inv =>
    simp only [Services.handleMessage, handleMessage, Services.handleMicroBlockInv, handleMicroBlockInv]
    cases p.remote with
    | none => rfl
    | some a =>
      cases inv with
      | none => rfl
      | some inv =>
        simp only
        rw [show Disk.good.chains = .none from rfl, putMicro_good]
        exact noPanic_plain o _ _ _ rfl
  | blockIds ids =>
    simp only [Services.handleMessage, handleMessage, Services.handleBlockIDs, handleBlockIDs]
    cases p.remote with
    | none => rfl
    | some a => simp only; split <;> rfl
  | _ => rfl

theorem connected_good (o : Own) (c : Ctx) (s : Shared) (p : Sender) :
    Services.handleConnected lib c (o.on s) p = (handleConnected .good lib c s p).map (Handled.plain o) := by
  unfold Services.handleConnected handleConnected
  cases p.remote with
  | none => rfl
  | some a =>
    simp only
    rw [show Disk.good.peers = .none from rfl, Peers.Rd.register_good]
    exact noPanic_plain o _ _ _ rfl

theorem broken_good (o : Own) (c : Ctx) (s : Shared) (p : Sender) :
    Services.handleInternalError c (o.on s) p = (handleInternalError .good c s p).map (Handled.plain o) := by
  unfold Services.handleInternalError handleInternalError
  cases p.remote with
  | none => rfl
  | some a =>
    simp only
    rw [show Disk.good.peers = .none from rfl, Peers.Rd.unregister_good]
    exact noPanic_plain o _ _ _ rfl

/-- the loader handles its event to the end, on good disks -/
theorem finish_alone {s : Sys} (hm : s.main ≠ .exited) {p : Proc (Go Own)} (hp : s.world.todo = some p) {o : Own} {sh : Shared}
    (h : p.alone lib s.world.sh = (.ok o, sh)) :
    ∃ n tr log, Path lib s (goes (fun _ => .good) n) tr { s with world := ⟨o, none, sh, s.world.ins, log⟩ } := by
  induction p generalizing s with
  | ret r =>
    cases h
    refine ⟨1, _, s.world.log, .one ?_⟩
    simp [Sys.step, hm, Sys.go, hp]
  | call c k ih =>
    have hs : s.step lib (.go .good) = s.go lib .good := by simp [Sys.step, hm]
    simp only [Proc.alone] at h
    have hok : ∀ e, k (c.res lib s.world.sh) ≠ .ret (.error e) := by
      intro e he
      rw [he] at h
      cases h
    have he : s.step lib (.go .good) = some (.ok { s with world :=
        ⟨s.world.own, some (k (c.res lib s.world.sh)), c.effect s.world.sh, s.world.ins, s.world.log ++ (c.op.map (fun o => (true, o))).toList⟩ }) := by
      rw [hs]
      simp only [Sys.go, hp, Loading.Fine.Call.res_good, Loading.Fine.Call.effect_good]
    obtain ⟨n, tr, log, h'⟩ := ih (c.res lib s.world.sh) (s := { s with world :=
        ⟨s.world.own, some (k (c.res lib s.world.sh)), c.effect s.world.sh, s.world.ins, s.world.log ++ (c.op.map (fun o => (true, o))).toList⟩ })
        hm rfl h
    exact ⟨n + 1, _, log, by rw [goes_succ]; exact h'.cons he⟩

/-- the events of a path on good disks -/
def Good (es : List Ev) : Prop := ∀ e, e ∈ es → e.disk = .good

theorem good_goes (n : Nat) : Good (goes (fun _ => .good) n) := by
  intro e he
  unfold goes at he
  obtain ⟨i, _, rfl⟩ := List.mem_map.mp he
  rfl

theorem good_one {e : Ev} (h : e.disk = .good) : Good [e] := by
  intro e' he
  rw [List.mem_singleton] at he
  rw [he]; exact h

theorem Good.append {es es' : List Ev} (h : Good es) (h' : Good es') : Good (es ++ es') := by
  intro e he
  rcases List.mem_append.mp he with he | he
  · exact h e he
  · exact h' e he

/-- the loader gets an event and handles it, on good disks, undisturbed -/
theorem received_good {s : Sys} (hm : s.main ≠ .exited) {i : Input} {c : Ctx} {l' : Loading.Loader}
    (ht : s.world.todo = some (Loading.Fine.handle c s.world.own i))
    (h : Loading.step lib (s.world.own.on s.world.sh) ⟨c, i.event⟩ = .ok l') :
    ∃ n tr s', Path lib s (goes (fun _ => .good) n) tr s' ∧ s'.world.todo = none ∧ s'.shell = { s.shell with l := l' } := by
  have A := Loading.Fine.agree_handle (lib := lib) c s.world.own s.world.sh i
  rw [h] at A
  have hr : (Loading.Fine.handle c s.world.own i).alone lib s.world.sh = (.ok (Loading.Fine.own l'), Loading.Fine.shared l') :=
    Prod.ext A.result (A.shared l' rfl)
  obtain ⟨n, tr, log, h'⟩ := finish_alone hm ht hr
  exact ⟨n, tr, _, h', rfl, rfl⟩

/-- an event of `Services/Program.lean` -/
theorem sim_step {s : Sys} {e : Services.Ev} {q : Prog} (ht : s.world.todo = none) (h : s.shell.step lib e = some (.ok q)) :
    ∃ es tr s', Path lib s es tr s' ∧ Good es ∧ s'.shell = q ∧ s'.world.todo = none := by
  obtain ⟨hm, hc⟩ := Services.step_case h
  have hm : s.main ≠ .exited := hm
  have st : ∀ {e : Ev} {x : Option (Except Fault Sys)}, (s.step lib e = if s.main = .exited then none else x) → s.step lib e = x :=
    fun hx => by rw [hx, if_neg hm]
  have gd : ∀ {b : Bool} {x : Except Fault Sys}, b = true → guarded b x = some x := fun hb => by rw [hb]; rfl
  have one : ∀ {e' : Ev} {s' : Sys}, e'.disk = .good → s.step lib e' = some (.ok s') → s'.shell = q → s'.world.todo = none →
      ∃ es tr s', Path lib s es tr s' ∧ Good es ∧ s'.shell = q ∧ s'.world.todo = none :=
    fun hd he h1 h2 => ⟨_, _, _, .one he, good_one hd, h1, h2⟩
  have shl : ∀ {e' : Ev}, e'.shell = some e → e'.disk = .good →
      ∃ es tr s', Path lib s es tr s' ∧ Good es ∧ s'.shell = q ∧ s'.world.todo = none := by
    intro e' he hd
    obtain ⟨s', h1, h2, h3⟩ := shell_lift he h ht
    exact one hd h1 h2 (by rw [h3]; exact ht)
  have recv : ∀ {e' : Ev} {c : Ctx} {i : Input} {s1 : Sys} {l' : Loading.Loader}, e'.disk = .good → s.step lib e' = some (.ok s1) →
      s1.world = s.world.receive c i → s1.main = s.main → Loading.step lib (s.world.own.on s.world.sh) ⟨c, i.event⟩ = .ok l' →
      { s1.shell with l := l' } = q → ∃ es tr s', Path lib s es tr s' ∧ Good es ∧ s'.shell = q ∧ s'.world.todo = none := by
    intro e' c i s1 l' hd he hw hm1 hl hq
    obtain ⟨n, tr, s', h1, h2, h3⟩ := received_good (lib := lib) (s := s1) (i := i) (c := c) (l' := l') (by rw [hm1]; exact hm)
      (by rw [hw]; rfl) (by rw [hw]; exact hl)
    exact ⟨_, _, s', h1.cons he, Good.append (good_one hd) (good_goes n), by rw [h3]; exact hq, h2⟩
  have hand : ∀ {e' : Ev} {r : Go Services.Handled} {r' : Go Handled} {x : Services.Handled}, r = r'.map (Handled.plain s.world.own) → r = .ok x →
      e'.disk = .good → s.step lib e' = some (s.handled r') →
      q = { s.shell with
        l := x.l, out := s.out ++ x.out, sent := s.sent ++ x.pkg.toList
        dist := match x.pkg with
          | none => .ready
          | some p => .sending p } → ∃ es tr s', Path lib s es tr s' ∧ Good es ∧ s'.shell = q ∧ s'.world.todo = none := by
    intro e' r r' x hr hx hd he hq
    rw [hr] at hx
    cases r' with
    | error e => cases hx
    | ok y =>
      cases hx
      refine one hd he ?_ ht
      rw [hq]; rfl
  cases hc with
  | @handled _ r x hd hr hx =>
    have hd : s.dist = .ready := hd
    cases hr with
    | message c p m =>
      exact hand (e' := .message .good c p m) (receive_good s.world.own c s.world.sh p m) hx rfl
        ((st rfl).trans (gd (by simp [hd]))) rfl
    | connected c p hj =>
      exact hand (e' := .connected .good c p) (connected_good s.world.own c s.world.sh p) hx rfl
        ((st rfl).trans (gd (by simp [hd]; exact fun a ha => hj a ha))) rfl
    | broken c p =>
      exact hand (e' := .broken .good c p) (broken_good s.world.own c s.world.sh p) hx rfl
        ((st rfl).trans (gd (by simp [hd]))) rfl
    | ping c =>
      exact hand (e' := .ping c) (r' := .ok (pingConnections c s.world.sh)) rfl hx rfl ((st rfl).trans (gd (by simp [hd]))) rfl
  | take c p l' hd hu hl =>
    have hd : s.dist = .sending p := hd
    have hw : s.waits = true := by simp only [Sys.waits, ht, Option.isNone_none, Bool.and_true]; exact hu
    refine recv (e' := .take c) (c := c) (i := p.input) (s1 := { s with world := s.world.receive c p.input, dist := .ready, taken := s.taken ++ [p] })
      rfl ?_ rfl rfl (l' := l') (by cases p <;> exact hl) rfl
    refine (st rfl).trans ?_
    simp only [hd]
    exact gd hw
  | tick c l' hu htk hl =>
    have hw : s.waits = true := by simp only [Sys.waits, ht, Option.isNone_none, Bool.and_true]; exact hu
    exact recv (e' := .tick c) (c := c) (i := .tick) (s1 := { s with world := s.world.receive c .tick }) rfl
      ((st rfl).trans (gd (by simp only [hw, Bool.true_and]; exact htk))) rfl rfl (l' := l') hl rfl
  | timer c l' hu hl =>
    have hw : s.waits = true := by simp only [Sys.waits, ht, Option.isNone_none, Bool.and_true]; exact hu
    exact recv (e' := .timer c) (c := c) (i := .timer) (s1 := { s with world := s.world.receive c .timer }) rfl
      ((st rfl).trans (gd hw)) rfl rfl (l' := l') hl rfl
  | respawn now rf hu ha =>
    have hb : (s.respawnUp && s.armed) = true := by simp only [Bool.and_eq_true]; exact ⟨hu, ha⟩
    refine one (e' := .respawn .good now rf) rfl ((st rfl).trans (gd hb)) ?_ ?_
    · unfold Sys.respawn Prog.respawn
      cases rf with
      | true => rfl
      | false =>
        simp only [Bool.false_eq_true, if_false]
        rw [show Disk.good.peers = .none from rfl, Peers.Rd.take_good]
        show _ = (match (Peers.TakeAvailableAddresses now s.world.sh.reg).2 with
          | .error _ => _
          | .ok as => _)
        cases (Peers.TakeAvailableAddresses now s.world.sh.reg).2 <;> rfl
    · unfold Sys.respawn
      split
      · exact ht
      · simp only; split <;> exact ht
  | refused f now a e hw =>
    have hw : (Peers.SuggestVersion f now s.world.sh.reg a).2 = fail e := hw
    refine one (e' := .suggest .good f now a) rfl (s' := { s with world := s.world.called { s.world.sh with reg := (Peers.SuggestVersion f now s.world.sh.reg a).1 } (some (.registry ⟨now, .suggest f a⟩)) })
      ((st rfl).trans ?_) rfl ht
    simp only [show Disk.good.peers = Chains.Rd.Faults.none from rfl, Peers.Rd.suggest_good, hw, fail]
  | suggested f now a v hw =>
    have hw : (Peers.SuggestVersion f now s.world.sh.reg a).2 = .ok v := hw
    refine one (e' := .suggest .good f now a) rfl (s' := { s with world := s.world.called { s.world.sh with reg := (Peers.SuggestVersion f now s.world.sh.reg a).1 } (some (.registry ⟨now, .suggest f a⟩)), joined := a :: s.joined })
      ((st rfl).trans ?_) rfl ht
    simp only [show Disk.good.peers = Chains.Rd.Faults.none from rfl, Peers.Rd.suggest_good, hw]
  | giveUp f now a hd =>
    have hd : a ∈ s.dialled.map (·.addr) := hd
    have hn : (Peers.UnregisterPeer f now s.world.sh.reg a).2 ≠ goPanic := by
      intro hx
      have := h
      unfold Prog.step Services.guarded at this
      rw [if_neg (show ¬ s.shell.main = .exited from hm)] at this
      simp only [show s.shell.dialled = s.dialled from rfl, hd, decide_true, if_true] at this
      simp only [show s.shell.l.reg = s.world.sh.reg from rfl, hx] at this
      cases this
    refine one (e' := .giveUp .good f now a) rfl (s' := { s with world := s.world.called { s.world.sh with reg := (Peers.UnregisterPeer f now s.world.sh.reg a).1 } (some (.registry ⟨now, .unregister f a⟩)) })
      ((st rfl).trans ((gd (by simp [hd])).trans ?_)) rfl ht
    simp only [show Disk.good.peers = Chains.Rd.Faults.none from rfl, Peers.Rd.unregister_good]
    rcases hx : (Peers.UnregisterPeer f now s.world.sh.reg a).2 with (e | u) | u
    · rfl
    · exact absurd hx hn
    · rfl
  | distExit => exact shl (e' := .distExit) rfl rfl
  | loaderExit => exact shl (e' := .loaderExit) rfl rfl
  | respawnExit => exact shl (e' := .respawnExit) rfl rfl
  | listen ok => exact shl (e' := .listen ok) rfl rfl
  | listenerExit conn => exact shl (e' := .listenerExit conn) rfl rfl
  | apiExit => exact shl (e' := .apiExit) rfl rfl
  | signal => exact shl (e' := .signal) rfl rfl
  | mainWaiting => exact shl (e' := .main) rfl rfl
  | mainApi => exact shl (e' := .main) rfl rfl
  | mainOff => exact shl (e' := .main) rfl rfl
  | mainListener => exact shl (e' := .main) rfl rfl
  | mainRespawn => exact shl (e' := .main) rfl rfl
  | mainLoader => exact shl (e' := .main) rfl rfl
  | mainDistributor => exact shl (e' := .main) rfl rfl

theorem sim_start (cfg : Config) (pdb : Peers.DB) (fs : Nat → Fate) (seeds : List (Option AddrPort)) (lk : Linkage) (listener : Bool) :
    (Sys.start .good cfg pdb fs seeds lk listener).shell = Prog.start cfg pdb fs seeds lk listener := by
  unfold Sys.start Prog.start
  rw [show Disk.good.peers = .none from rfl, Peers.Rd.append_good]
  rfl

theorem sim {cfg : Config} {pdb : Peers.DB} {fs : Nat → Fate} {seeds : List (Option AddrPort)} {lk : Linkage} {listener : Bool}
    {es : List Services.Ev} {q : Prog} (h : Services.Path lib (Prog.start cfg pdb fs seeds lk listener) es q) :
    ∃ es' tr s', Path lib (Sys.start .good cfg pdb fs seeds lk listener) es' tr s' ∧ Good es' ∧ s'.shell = q ∧ s'.world.todo = none := by
  induction h with
  | nil => exact ⟨[], [], _, .nil, (fun e he => by cases he), sim_start .., rfl⟩
  | snoc _ e he ih =>
    obtain ⟨es1, tr1, s1, h1, g1, rfl, t1⟩ := ih
    obtain ⟨es2, tr2, s2, h2, g2, e2, t2⟩ := sim_step t1 he
    exact ⟨_, _, s2, h1.append h2, g1.append g2, e2, t2⟩

end Verif.Services.Fine
