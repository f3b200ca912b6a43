import Verif.Services.Whole
import Verif.Services.ProgramInv
/-
Lemmas for property C97.
-/

set_option autoImplicit false

namespace Verif.Services

open Verif
open Verif.Chains (Addr BlockID ProtoBlock MicroInv Linkage)
open Verif.Loading (Ctx Loader Sent AsksIDs Begun GenuineMicro Session Honest History)
open Verif.Peers (Lib second)

variable {lib : Lib} {g : ProtoBlock} {n : Nat} {s s0 : Nat} {ch : List ProtoBlock} {peer : Addr}

theorem Answers.same {l l' : Loader} {ids : List BlockID} (h : Answers ch l ids) (ho : l'.obj = l.obj) (hout : l'.out = l.out) :
    Answers ch l' ids := by
  intro hs hne m req hm hr
  rw [ho] at hs
  rw [hout] at hm
  exact h hs hne m req hm hr

theorem Course.run {lk : Linkage} {es0 es : List Ev} {p0 p : Prog} (h : Course lib g lk peer s ch es0 p0 n es p) :
    Run lib g lk n (es0 ++ es) p := by
  induction h with
  | start h => rw [List.append_nil]; exact h
  | step e _ _ _ hs ih => rw [← List.append_assoc]; exact .step e ih hs

/-- an upright event of the program is an honest event of the loader -/
theorem Upright.honest {p : Prog} {e : Ev} {ctx0 : Ctx} {le : Loading.Event} (hu : Upright peer s s0 ch p e) (hc : p.Clean peer ch)
    (he : p.loaderEv ctx0 e = some le) : Honest peer s s0 ch p.l le := by
  have reg : ∀ {c : Ctx} {ev : Peers.Event}, (∀ f s', ev.op = .updateScore f peer s' → s' = s) → Honest peer s s0 ch p.l ⟨c, .registry ev⟩ := by
    intro c ev h
    exact ⟨fun _ h => (by cases h), fun _ h => (by cases h), fun h => (by cases h), fun _ _ _ _ h => (by cases h), fun _ _ _ _ h => (by cases h),
      fun ev' f s' h1 h2 => (by cases h1; exact h f s' h2)⟩
  have put : ∀ {c : Ctx} {x a f1 f2}, Loading.Genuine ch x → Honest peer s s0 ch p.l ⟨c, .putBlock x a f1 f2⟩ := by
    intro c x a f1 f2 h
    exact ⟨fun _ h => (by cases h), fun _ h => (by cases h), fun h => (by cases h), fun _ _ _ _ h1 => (by cases h1; exact h),
      fun _ _ _ _ h => (by cases h), fun _ _ _ h => (by cases h)⟩
  cases e with
  | message c q m =>
    simp only [Prog.loaderEv, Option.map_eq_some_iff] at he
    obtain ⟨o, ho, rfl⟩ := he
    cases m with
    | block b =>
      cases b with
      | none => cases ho
      | some b =>
        simp only [messageEv, Option.map_eq_some_iff] at ho; obtain ⟨a', _, rfl⟩ := ho
        exact put (hu.block c q b (Or.inl rfl))
    | pbBlock b =>
      cases b with
      | none => cases ho
      | some b =>
        simp only [messageEv, Option.map_eq_some_iff] at ho; obtain ⟨a', _, rfl⟩ := ho
        exact put (hu.block c q b (Or.inr rfl))
    | microBlockInv inv =>
      cases inv with
      | none => cases ho
      | some inv =>
        simp only [messageEv, Option.map_eq_some_iff] at ho; obtain ⟨a', _, rfl⟩ := ho
        exact ⟨fun _ h => (by cases h), fun _ h => (by cases h), fun h => (by cases h), fun _ _ _ _ h => (by cases h),
          fun _ _ _ _ h => (by cases h; exact hu.micro c q inv rfl), fun _ _ _ h => (by cases h)⟩
    | peers ps => cases ho; exact reg (fun _ _ h => by cases h)
    | score sc =>
      simp only [messageEv, Option.map_eq_some_iff] at ho; obtain ⟨a', ha', rfl⟩ := ho
      exact reg (fun _ _ h => by cases h; exact hu.score c q sc rfl ha')
    | _ => cases ho
  | connected c q =>
    simp only [Prog.loaderEv, Option.map_eq_some_iff] at he; obtain ⟨a, _, rfl⟩ := he; exact reg (fun _ _ h => by cases h)
  | broken c q =>
    simp only [Prog.loaderEv, Option.map_eq_some_iff] at he; obtain ⟨a, _, rfl⟩ := he; exact reg (fun _ _ h => by cases h)
  | take c =>
    simp only [Prog.loaderEv] at he
    have hf := hu.take c rfl
    cases hd : p.dist with
    | ready => rw [hd] at he; cases he
    | exited => rw [hd] at he; cases he
    | sending pk =>
      rw [hd] at he
      cases pk with
      | ids a ids =>
        cases he
        exact ⟨fun ids' h h1 h2 => (by cases h; exact ⟨hf, hc.1 ids hd h1 h2⟩), fun _ h => (by cases h), fun h => (by cases h),
          fun _ _ _ _ h => (by cases h), fun _ _ _ _ h => (by cases h), fun _ _ _ h => (by cases h)⟩
      | block a b =>
        cases he
        exact ⟨fun _ h => (by cases h), fun b' h => (by cases h; exact ⟨hf, fun x hx => (by cases hx; exact hc.2 b hd)⟩), fun h => (by cases h),
          fun _ _ _ _ h => (by cases h), fun _ _ _ _ h => (by cases h), fun _ _ _ h => (by cases h)⟩
  | tick c =>
    cases he
    exact ⟨fun _ h => (by cases h), fun _ h => (by cases h), fun _ => hu.tick c rfl, fun _ _ _ _ h => (by cases h),
      fun _ _ _ _ h => (by cases h), fun _ _ _ h => (by cases h)⟩
  | timer c =>
    cases he
    exact ⟨fun _ h => (by cases h), fun _ h => (by cases h), fun h => (by cases h), fun _ _ _ _ h => (by cases h),
      fun _ _ _ _ h => (by cases h), fun _ _ _ h => (by cases h)⟩
  | respawn now rf =>
    simp only [Prog.loaderEv] at he
    cases rf with
    | true => cases he
    | false => cases he; exact reg (fun _ _ h => by cases h)
  | suggest f now a => cases he; exact reg (fun _ _ h => by cases h)
  | giveUp f now a => cases he; exact reg (fun _ _ h => by cases h)
  | _ => cases he

/-- the events of the loader that other goroutines bring, and the timer -/
def calm : Loading.Op → Bool
  | .ids _ _ => false
  | .block _ _ => false
  | .tick => false
  | _ => true

theorem loaderEv_calm {p : Prog} {e : Ev} {ctx0 : Ctx} {le : Loading.Event} (he : p.loaderEv ctx0 e = some le) (ht : ∀ c, e ≠ .take c) :
    calm le.op = true ∨ ∃ c, e = .tick c ∧ le = ⟨c, .tick⟩ := by
  cases e with
  | take c => exact absurd rfl (ht c)
  | message c q m =>
    left
    simp only [Prog.loaderEv, Option.map_eq_some_iff] at he
    obtain ⟨o, ho, rfl⟩ := he
    cases m with
    | block b => cases b with
      | none => cases ho
      | some b => simp only [messageEv, Option.map_eq_some_iff] at ho; obtain ⟨_, _, rfl⟩ := ho; rfl
    | pbBlock b => cases b with
      | none => cases ho
      | some b => simp only [messageEv, Option.map_eq_some_iff] at ho; obtain ⟨_, _, rfl⟩ := ho; rfl
    | microBlockInv b => cases b with
      | none => cases ho
      | some b => simp only [messageEv, Option.map_eq_some_iff] at ho; obtain ⟨_, _, rfl⟩ := ho; rfl
    | score sc => simp only [messageEv, Option.map_eq_some_iff] at ho; obtain ⟨_, _, rfl⟩ := ho; rfl
    | peers ps => cases ho; rfl
    | _ => cases ho
  | connected c q => simp only [Prog.loaderEv, Option.map_eq_some_iff] at he; obtain ⟨_, _, rfl⟩ := he; exact Or.inl rfl
  | broken c q => simp only [Prog.loaderEv, Option.map_eq_some_iff] at he; obtain ⟨_, _, rfl⟩ := he; exact Or.inl rfl
  | tick c => cases he; exact Or.inr ⟨c, rfl, rfl⟩
  | respawn now rf => cases rf <;> cases he; exact Or.inl rfl
  | timer c => cases he; exact Or.inl rfl
  | suggest f now a => cases he; exact Or.inl rfl
  | giveUp f now a => cases he; exact Or.inl rfl
  | _ => cases he

/-- events other than `take` leave the synchronisation as it is -/
theorem kept {p p' : Prog} {e : Ev} (hu : Upright peer s s0 ch p e) (A : Loading.Running lib g n p.l) (ha : p.l.active = true)
    (hw : Loading.Waiting p.l) (ht : ∀ c, e ≠ .take c) (hs : p.step lib e = some (.ok p')) :
    p'.l.obj = p.l.obj ∧ p'.l.out = p.l.out ∧ p'.l.active = true := by
  have I := A.reachable.inv
  have hl := step_loader (Loading.Ex.ctx 0) hs
  cases he : p.loaderEv (Loading.Ex.ctx 0) e with
  | none =>
    rw [he] at hl
    have hl : p'.l = p.l := hl
    rw [hl]; exact ⟨rfl, rfl, ha⟩
  | some le =>
    rw [he] at hl
    have hl : Loading.step lib p.l le = .ok p'.l := hl
    rcases loaderEv_calm he ht with hca | ⟨c, rfl, rfl⟩
    · obtain ⟨c, op⟩ := le
      cases op with
      | ids a ids => cases hca
      | block a b => cases hca
      | tick => cases hca
      | timer =>
        simp only [Loading.step, Loading.sync] at hl
        rw [if_pos ha] at hl
        have e1 : p.l = p'.l := Except.ok.inj hl
        rw [← e1]; exact ⟨rfl, rfl, ha⟩
      | putBlock b a f1 f2 => obtain ⟨_, e1⟩ := I.others hl; rw [e1]; exact ⟨rfl, rfl, ha⟩
      | putMicro inv a f1 f2 => obtain ⟨_, e1⟩ := I.others hl; rw [e1]; exact ⟨rfl, rfl, ha⟩
      | registry ev =>
        simp only [Loading.step, Except.ok.injEq] at hl
        rw [← hl]; exact ⟨rfl, rfl, ha⟩
    · simp only [Loading.step, Loading.tick] at hl
      rw [if_pos ha] at hl
      obtain ⟨e1, _⟩ := Loading.logged_ok hl
      rw [Loading.fire_tick c p.l c.now I.quiet hw,
        if_neg (by unfold Loading.timeoutDuration; exact Int.not_lt.mpr (hu.tick c rfl))] at e1
      rw [e1]; exact ⟨rfl, rfl, ha⟩

/-- the package that a message may lead to -/
def carried (p : Sender) : Message → Option Pkg
  | .signatures sigs => p.remote.map (Pkg.ids · (sigs.map idFromSignature))
  | .blockIds ids => p.remote.map (Pkg.ids · ids)
  | .block (some x) => p.remote.map (Pkg.block · x)
  | .pbBlock (some x) => p.remote.map (Pkg.block · x)
  | _ => none

/-- the package that the handler of a message makes -/
theorem handleMessage_carried {c : Ctx} {l : Loader} {p : Sender} {m : Message} {x : Handled} (h : handleMessage lib c l p m = .ok x)
    {k : Pkg} (hk : x.pkg = some k) : carried p m = some k := by
  have put : ∀ b, carried p m = p.remote.map (Pkg.block · b) → handleBlock c l p (some b) = .ok x → carried p m = some k := by
    intro b hm h
    unfold handleBlock at h
    cases hr : p.remote with
    | none => rw [hr] at h; cases h; cases hk
    | some a =>
      rw [hr] at h
      simp only at h
      rcases hw : Chains.PutBlock (c.fates 0) (c.fates 1) l.link.db b a with ⟨db, (e | u) | u⟩
      · rw [hw] at h
        cases e <;> (cases h; first | cases hk) <;> (rw [hm, hr]; rfl)
      · rw [hw] at h; cases h
      · rw [hw] at h; cases h; cases hk; (rw [hm, hr]; rfl)
  cases m with
  | getPeers =>
    simp only [handleMessage, handleGetPeers] at h
    rcases hf : Peers.FriendlyPeers lib c.env l.reg with (e | u) | fs
    · rw [hf] at h; cases h; cases hk
    · rw [hf] at h; cases h
    · rw [hf] at h
      simp only at h
      cases ht : Peers.tcpAddrs fs with
      | error e => rw [ht] at h; cases h
      | ok infos => rw [ht] at h; cases h; cases hk
  | peers ps =>
    simp only [handleMessage, handlePeers] at h
    obtain ⟨rfl, _⟩ := noPanic_eq h
    cases hk
  | signatures sigs =>
    simp only [handleMessage, handleSignatures] at h
    cases hr : p.remote with
    | none => rw [hr] at h; cases h; cases hk
    | some a =>
      rw [hr] at h; cases h; cases hk
      simp only [carried, hr]; rfl
  | block b =>
    cases b with
    | none => cases h; cases hk
    | some b => exact put b rfl h
  | score sc =>
    simp only [handleMessage, handleScore] at h
    cases hr : p.remote with
    | none => rw [hr] at h; cases h; cases hk
    | some a =>
      rw [hr] at h
      obtain ⟨rfl, _⟩ := noPanic_eq h
      cases hk
  | microBlockInv inv =>
    simp only [handleMessage, handleMicroBlockInv] at h
    cases hr : p.remote with
    | none => rw [hr] at h; cases inv <;> (cases h; cases hk)
    | some a =>
      rw [hr] at h
      cases inv with
      | none => cases h; cases hk
      | some inv =>
        obtain ⟨rfl, _⟩ := noPanic_eq h
        cases hk
  | pbBlock b =>
    cases b with
    | none => cases h; cases hk
    | some b => exact put b rfl h
  | blockIds ids =>
    simp only [handleMessage, handleBlockIDs] at h
    cases hr : p.remote with
    | none => rw [hr] at h; cases h; cases hk
    | some a =>
      rw [hr] at h
      simp only at h
      split at h
      · cases h; cases hk
      · cases h; cases hk
        simp only [carried, hr]; rfl
  | _ => cases h; cases hk

/-- the package on its way after an event -/
theorem held {s s' : Prog} {e : Ev} (h : s.step lib e = some (.ok s')) {k : Pkg} (hk : s'.dist = .sending k) :
    s.dist = .sending k ∧ (∀ c, e ≠ .take c) ∨ ∃ c p m, e = .message c p m ∧ carried p m = some k := by
  obtain ⟨_, hc⟩ := step_case h
  cases hc with
  | @handled _ r x hd hr hx =>
    right
    have hk : x.pkg = some k := by
      cases hp : x.pkg with
      | none => simp only [hp] at hk; cases hk
      | some k' => simp only [hp] at hk; cases hk; rfl
    cases hr with
    | message c p m => rw [receive_eq] at hx; exact ⟨c, p, m, rfl, handleMessage_carried hx hk⟩
    | connected c p hj =>
      unfold handleConnected at hx
      cases hr : p.remote with
      | none => rw [hr] at hx; cases hx; cases hk
      | some a =>
        rw [hr] at hx
        obtain ⟨rfl, _⟩ := noPanic_eq hx
        cases hk
    | broken c p =>
      unfold handleInternalError at hx
      cases hr : p.remote with
      | none => rw [hr] at hx; cases hx; cases hk
      | some a =>
        rw [hr] at hx
        obtain ⟨rfl, _⟩ := noPanic_eq hx
        cases hk
    | ping c => cases hx; cases hk
  | take c p l' hd hu hl => cases hk
  | distExit hc hd => cases hk
  | respawn now rf hu ha =>
    refine Or.inl ⟨?_, fun _ h => by cases h⟩
    unfold Prog.respawn at hk
    split at hk
    · exact hk
    · simp only at hk
      split at hk <;> exact hk
  | _ => exact Or.inl ⟨hk, fun _ h => by cases h⟩

theorem clean_step {p p' : Prog} {e : Ev} (hu : Upright peer s s0 ch p e) (hc : p.Clean peer ch) (A : Loading.Running lib g n p.l)
    (ha : p.l.active = true) (hw : Loading.Waiting p.l) (hs : p.step lib e = some (.ok p')) : p'.Clean peer ch := by
  refine ⟨fun ids h => ?_, fun x h => ?_⟩
  · rcases held hs h with ⟨h, ht⟩ | ⟨c, q, m, rfl, hca⟩
    · obtain ⟨h1, h2, _⟩ := kept hu A ha hw ht hs
      exact (hc.1 ids h).same h1 h2
    · obtain ⟨h1, h2, _⟩ := kept hu A ha hw (fun _ h => by cases h) hs
      refine Answers.same ?_ h1 h2
      cases m with
      | signatures sigs =>
        simp only [carried, Option.map_eq_some_iff, Pkg.ids.injEq] at hca
        obtain ⟨a, hr, rfl, rfl⟩ := hca
        exact hu.signatures c q sigs rfl hr
      | blockIds ids' =>
        simp only [carried, Option.map_eq_some_iff, Pkg.ids.injEq] at hca
        obtain ⟨a, hr, rfl, rfl⟩ := hca
        exact hu.ids c q _ rfl hr
      | block b => cases b <;> simp [carried] at hca
      | pbBlock b => cases b <;> simp [carried] at hca
      | _ => cases hca
  · rcases held hs h with ⟨h, _⟩ | ⟨c, q, m, rfl, hca⟩
    · exact hc.2 x h
    · cases m with
      | signatures sigs => simp [carried] at hca
      | blockIds ids' => simp [carried] at hca
      | block b =>
        cases b with
        | none => cases hca
        | some b =>
          simp only [carried, Option.map_eq_some_iff, Pkg.block.injEq] at hca
          obtain ⟨a, _, _, rfl⟩ := hca
          exact hu.block c q _ (Or.inl rfl)
      | pbBlock b =>
        cases b with
        | none => cases hca
        | some b =>
          simp only [carried, Option.map_eq_some_iff, Pkg.block.injEq] at hca
          obtain ⟨a, _, _, rfl⟩ := hca
          exact hu.block c q _ (Or.inr rfl)
      | _ => cases hca

theorem Session.waits (H : History ch) {l0 l : Loader} (h : Session lib g peer s s0 ch l0 n l) (ha : l.active = true) : Loading.Waiting l := by
  obtain ⟨_, B⟩ := h.base H
  obtain ⟨more, _, P⟩ := B.phase
  cases P with
  | asking _ hs => exact Or.inl hs
  | loading j h' => exact Or.inr h'.choose_spec.choose_spec.choose_spec.2.1
  | released ha' => rw [ha] at ha'; cases ha'

theorem Session.mono {l0 l : Loader} {m : Nat} (h : Session lib g peer s s0 ch l0 m l) (hn : n ≤ m) : Session lib g peer s s0 ch l0 n l := by
  induction h generalizing n with
  | start hr hb => exact .start (hr.mono hn) hb
  | step e _ ha hh hs ih => exact .step e (ih (Nat.add_le_add_right hn _)) ha hh hs

/-- the program in a synchronisation, seen from the loader -/
theorem Syncing.session (H : History ch) {p0 p : Prog} {es : List Ev} (h : Syncing lib g peer s s0 ch p0 n es p) :
    Session lib g peer s s0 ch p0.l n p.l ∧ p.Clean peer ch ∧ Alive lib g n p := by
  induction h with
  | start h hb hc => exact ⟨.start h.running hb, hc, h⟩
  | @step n es p p' e h ha hu hs ih =>
    obtain ⟨hS, hc, hA⟩ := ih
    refine ⟨?_, clean_step hu hc hA.running ha (Session.waits H hS ha) hs, .step e hA hs⟩
    have hl := step_loader (Loading.Ex.ctx 0) hs
    cases he : p.loaderEv (Loading.Ex.ctx 0) e with
    | none =>
      rw [he] at hl
      have hl : p'.l = p.l := hl
      rw [hl]; exact Session.mono hS (Nat.le_add_right _ _)
    | some le =>
      rw [he] at hl
      exact .step le (Session.mono hS (Nat.add_le_add_left (cost_loaderEv he) _)) ha (hu.honest hc he) hl

end Verif.Services
