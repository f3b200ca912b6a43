import Verif.Services.FaultyLemmas
/-
What holds in every state of the program of `Services/Faulty.lean`: channels, origin of what is stored, life cycles.
-/

set_option autoImplicit false

namespace Verif.Services.Fine

open Verif
open Verif.Chains (Addr BytesN BlockID ProtoBlock MicroInv Linkage)
open Verif.Peers (Conn Registry Lib AddrPort Config)
open Verif.Loading (Ctx)
open Verif.Loading.Fine (World Shared Disk Other Input Answer Call RdStep RdRun Own Proc)
open Verif.KV (Fate)

variable {lib : Lib}

/-! ### what the peers say -/

/-- what a peer says to the loader with a message: a block, or ids -/
def Ev.says : Ev → Option Pkg
  | .message _ _ p (.block (some b)) => p.remote.map (fun a => .block a b)
  | .message _ _ p (.pbBlock (some b)) => p.remote.map (fun a => .block a b)
  | .message _ _ p (.signatures sigs) => p.remote.map (fun a => .ids a (sigs.map (fun s => ⟨s.1, Or.inr s.2⟩)))
  | .message _ _ p (.blockIds ids) => if ids = [] then none else p.remote.map (fun a => .ids a ids)
  | _ => none

/-- everything that the peers say, in this order -/
def says (es : List Ev) : List Pkg := es.filterMap Ev.says

/-- the announcements of micro blocks -/
def Ev.announces : Ev → Option (Addr × MicroInv)
  | .message _ _ p (.microBlockInv (some inv)) => p.remote.map (fun a => (a, inv))
  | _ => none

def announces (es : List Ev) : List (Addr × MicroInv) := es.filterMap Ev.announces

/-- what the loader was given -/
def heard (ins : List (Ctx × Input)) : List Pkg :=
  ins.filterMap (fun x => match x.2 with
    | .ids a ids => some (.ids a ids)
    | .block a (some b) => some (.block a b)
    | _ => none)

theorem says_append (es es' : List Ev) : says (es ++ es') = says es ++ says es' := List.filterMap_append

theorem announces_append (es es' : List Ev) : announces (es ++ es') = announces es ++ announces es' := List.filterMap_append

theorem heard_append (l l' : List (Ctx × Input)) : heard (l ++ l') = heard l ++ heard l' := List.filterMap_append

theorem heard_input (c : Ctx) (p : Pkg) : heard [(c, p.input)] = [p] := by cases p <;> rfl

theorem handleMessage_pkg {D : Disk} {c : Ctx} {s : Shared} {p : Sender} {m : Message} {x : Handled}
    (h : handleMessage D lib c s p m = .ok x) : x.pkg = none ∨ x.pkg = (Ev.message D c p m).says := by
  have block : ∀ {b : ProtoBlock} {m' : Message}, (Ev.message D c p m').says = p.remote.map (fun a => .block a b) →
      handleBlock D c s p (some b) = .ok x → x.pkg = none ∨ x.pkg = (Ev.message D c p m').says := by
    intro b m' he hb
    rw [he]
    obtain ⟨_, _, h3⟩ := handleBlock_call (lib := lib) hb
    cases hq : x.pkg with
    | none => exact Or.inl rfl
    | some q =>
      obtain ⟨a, ha, rfl⟩ := h3 q hq
      rw [ha]; exact Or.inr rfl
  cases m with
  | block b =>
    cases b with
    | none => cases h; exact Or.inl rfl
    | some b => exact block rfl h
  | pbBlock b =>
    cases b with
    | none => cases h; exact Or.inl rfl
    | some b => exact block rfl h
  | getPeers =>
    simp only [handleMessage, handleGetPeers] at h
    rcases hf : Peers.Rd.FriendlyPeers D.peers lib c.env s.reg with (e | u) | fs
    · rw [hf] at h; cases h; exact Or.inl rfl
    · rw [hf] at h; cases h
    · rw [hf] at h
      simp only at h
      cases ht : Peers.tcpAddrs fs with
      | error e => rw [ht] at h; cases h
      | ok infos => rw [ht] at h; cases h; exact Or.inl rfl
  | peers ps =>
    simp only [handleMessage, handlePeers] at h
    obtain ⟨rfl, _⟩ := noPanic_eq h
    exact Or.inl rfl
  | signatures sigs =>
    simp only [handleMessage, handleSignatures] at h
    cases hr : p.remote with
    | none => rw [hr] at h; cases h; exact Or.inl rfl
    | some a => rw [hr] at h; cases h; right; simp only [Ev.says, hr]; rfl
  | blockIds ids =>
    simp only [handleMessage, handleBlockIDs] at h
    cases hr : p.remote with
    | none => rw [hr] at h; cases h; exact Or.inl rfl
    | some a =>
      rw [hr] at h
      simp only at h
      split at h
      · cases h; exact Or.inl rfl
      · rename_i hn
        cases h; right; simp only [Ev.says, hr, if_neg hn]; rfl
  | score sc =>
    simp only [handleMessage, handleScore] at h
    cases hr : p.remote with
    | none => rw [hr] at h; cases h; exact Or.inl rfl
    | some a => rw [hr] at h; obtain ⟨rfl, _⟩ := noPanic_eq h; exact Or.inl rfl
  | microBlockInv inv =>
    simp only [handleMessage, handleMicroBlockInv] at h
    cases inv with
    | none => cases hr : p.remote <;> (rw [hr] at h; cases h; exact Or.inl rfl)
    | some inv =>
      cases hr : p.remote with
      | none => rw [hr] at h; cases h; exact Or.inl rfl
      | some a =>
        rw [hr] at h
        simp only at h
        obtain ⟨rfl, _⟩ := noPanic_eq h
        exact Or.inl rfl
  | _ => cases h; exact Or.inl rfl

theorem Handling.pkg {s : Sys} {e : Ev} {r : Go Handled} {x : Handled} (h : Handling lib s e r) (hx : r = .ok x) :
    x.pkg = none ∨ x.pkg = e.says := by
  cases h with
  | message D c p m => rw [receive_eq] at hx; exact handleMessage_pkg hx
  | connected D c p hj =>
    unfold handleConnected at hx
    cases hr : p.remote with
    | none => rw [hr] at hx; cases hx; exact Or.inl rfl
    | some a => rw [hr] at hx; obtain ⟨rfl, _⟩ := noPanic_eq hx; exact Or.inl rfl
  | broken D c p =>
    unfold handleInternalError at hx
    cases hr : p.remote with
    | none => rw [hr] at hx; cases hx; exact Or.inl rfl
    | some a => rw [hr] at hx; obtain ⟨rfl, _⟩ := noPanic_eq hx; exact Or.inl rfl
  | ping c => cases hx; exact Or.inl rfl

/-- what the calls of the other goroutines on the store go back to -/
def Comes (es : List Ev) : Chains.Spec.Op → Prop
  | .putBlock b a _ _ => Pkg.block a b ∈ says es
  | .putMicro inv a _ _ => (a, inv) ∈ announces es
  | .moveLeash _ _ _ => False
  | .reopen _ _ => False

theorem Comes.mono {es : List Ev} {o : Chains.Spec.Op} (h : Comes es o) (es' : List Ev) : Comes (es ++ es') o := by
  cases o with
  | putBlock b a f1 f2 => unfold Comes at h ⊢; rw [says_append]; exact List.mem_append.mpr (Or.inl h)
  | putMicro inv a f1 f2 => unfold Comes at h ⊢; rw [announces_append]; exact List.mem_append.mpr (Or.inl h)
  | moveLeash id a f => exact h
  | reopen g f => exact h

theorem handlerCall_comes {e : Ev} {x : Other} {o : Chains.Spec.Op} (hx : handlerCall e = some x) (ho : x.op = some o) : Comes [e] o := by
  have mem : ∀ {α β : Type} {f : α → Option β} {a : α} {b : β}, f a = some b → b ∈ [a].filterMap f := by
    intro α β f a b h
    simp [List.filterMap, h]
  cases e with
  | message D c p m =>
    simp only [handlerCall] at hx
    cases m with
    | peers ps => cases hx; cases ho
    | block b =>
      cases b with
      | none => cases hx
      | some b =>
        simp only [messageCall, Option.map_eq_some_iff] at hx
        obtain ⟨a, ha, rfl⟩ := hx
        cases ho
        exact mem (show p.remote.map _ = _ by rw [ha]; rfl)
    | pbBlock b =>
      cases b with
      | none => cases hx
      | some b =>
        simp only [messageCall, Option.map_eq_some_iff] at hx
        obtain ⟨a, ha, rfl⟩ := hx
        cases ho
        exact mem (show p.remote.map _ = _ by rw [ha]; rfl)
    | score sc =>
      simp only [messageCall, Option.map_eq_some_iff] at hx
      obtain ⟨a, ha, rfl⟩ := hx
      cases ho
    | microBlockInv inv =>
      cases inv with
      | none => cases hx
      | some inv =>
        simp only [messageCall, Option.map_eq_some_iff] at hx
        obtain ⟨a, ha, rfl⟩ := hx
        cases ho
        exact mem (show p.remote.map _ = _ by rw [ha]; rfl)
    | _ => cases hx
  | connected D c p =>
    simp only [handlerCall, Option.map_eq_some_iff] at hx
    obtain ⟨a, ha, rfl⟩ := hx
    cases ho
  | broken D c p =>
    simp only [handlerCall, Option.map_eq_some_iff] at hx
    obtain ⟨a, ha, rfl⟩ := hx
    cases ho
  | _ => cases hx

/-! ### the channels -/

structure Chan (es : List Ev) (s : Sys) : Prop where
  fifo : s.sent = s.taken ++ s.dist.pending
  heard : heard s.world.ins = s.taken
  whole : ∀ c a, (c, Input.block a none) ∉ s.world.ins
  order : s.sent.Sublist (says es)
  log : ∀ o, (false, o) ∈ s.world.log → Comes es o
  idle : s.loaderUp = false → s.world.todo = none

theorem Chan.start (D : Disk) (cfg : Config) (pdb : Peers.DB) (fs : Nat → Fate) (seeds : List (Option AddrPort)) (lk : Linkage)
    (listener : Bool) : Chan [] (Sys.start D cfg pdb fs seeds lk listener) :=
  ⟨rfl, rfl, (fun _ _ h => by cases h), List.Sublist.refl _, (fun _ h => by cases h), fun _ => rfl⟩

theorem log_called {w : World} {sh : Shared} {x : Option Other} {b : Bool} {o : Chains.Spec.Op} (h : (b, o) ∈ (w.called sh x).log) :
    (b, o) ∈ w.log ∨ (b = false ∧ ∃ y, x = some y ∧ y.op = some o) := by
  unfold World.called at h
  rcases List.mem_append.mp h with h | h
  · exact Or.inl h
  · right
    simp only [Option.mem_toList, Option.map_eq_some_iff, Option.bind_eq_some_iff] at h
    obtain ⟨o', ⟨y, hy, ho⟩, he⟩ := h
    cases he
    exact ⟨rfl, y, hy, ho⟩

theorem Chan.step {es : List Ev} {s s' : Sys} {e : Ev} (I : Chan es s) (h : s.step lib e = some (.ok s')) : Chan (es ++ [e]) s' := by
  obtain ⟨_, hc⟩ := step_case h
  have hord : s.sent.Sublist (says (es ++ [e])) := by rw [says_append]; exact I.order.trans (List.sublist_append_left _ _)
  have hlog : ∀ o, (false, o) ∈ s.world.log → Comes (es ++ [e]) o := fun o ho => (I.log o ho).mono _
  -- a call on the registry
  have reg : ∀ {sh : Shared} {ev : Peers.Event} {o : Chains.Spec.Op}, (false, o) ∈ (s.world.called sh (some (.registry ev))).log →
      Comes (es ++ [e]) o := by
    intro sh ev o ho
    rcases log_called ho with ho | ⟨_, y, hy, ho⟩
    · exact hlog o ho
    · cases hy; cases ho
  -- the loader begins to handle an event
  have recv : ∀ (c : Ctx) (i : Input), (∀ a, i ≠ .block a none) → ∀ c' a, (c', Input.block a none) ∉ (s.world.receive c i).ins := by
    intro c i hi c' a hm
    rcases List.mem_append.mp (show _ ∈ s.world.ins ++ [(c, i)] from hm) with hm | hm
    · exact I.whole c' a hm
    · rw [List.mem_singleton] at hm
      cases hm
      exact hi a rfl
  cases hc with
  | @handled _ r x hd hr hx =>
    obtain ⟨h1, _⟩ := hr.effect hx
    refine ⟨?_, I.heard, I.whole, ?_, fun o ho => ?_, I.idle⟩
    · have hf := I.fifo
      rw [hd] at hf
      show s.sent ++ x.pkg.toList = s.taken ++ _
      rw [hf]
      cases x.pkg <;> simp [Dist.pending]
    · show (s.sent ++ x.pkg.toList).Sublist (says (es ++ [e]))
      rw [says_append]
      refine I.order.append ?_
      rcases hr.pkg hx with hp | hp
      · rw [hp]; exact List.nil_sublist _
      · rw [hp]
        cases he : e.says with
        | none => exact List.nil_sublist _
        | some q => simp [says, he]
    · rcases log_called ho with ho | ⟨_, y, hy, ho⟩
      · exact hlog o ho
      · rw [h1] at hy
        have := handlerCall_comes hy ho
        cases o with
        | putBlock b a f1 f2 => unfold Comes at this ⊢; rw [says_append]; exact List.mem_append.mpr (Or.inr this)
        | putMicro inv a f1 f2 => unfold Comes at this ⊢; rw [announces_append]; exact List.mem_append.mpr (Or.inr this)
        | moveLeash id a f => exact this
        | reopen g f => exact this
  | take c p hd hw =>
    refine ⟨?_, ?_, recv c _ (fun a => by cases p <;> simp [Pkg.input]), hord, hlog, fun hu => ?_⟩
    · have hf := I.fifo
      rw [hd] at hf
      show s.sent = s.taken ++ [p] ++ []
      rw [hf]; simp [Dist.pending]
    · show Fine.heard (s.world.ins ++ [(c, p.input)]) = s.taken ++ [p]
      rw [heard_append, I.heard, heard_input]
    · exact absurd hu (by simp [(waits_iff hw).1])
  | tick c hw ht =>
    refine ⟨I.fifo, ?_, recv c _ (fun a => by simp), hord, hlog, fun hu => ?_⟩
    · show Fine.heard (s.world.ins ++ [(c, .tick)]) = s.taken
      rw [heard_append, I.heard]; simp [Fine.heard]
    · exact absurd hu (by simp [(waits_iff hw).1])
  | timer c hw =>
    refine ⟨I.fifo, ?_, recv c _ (fun a => by simp), hord, hlog, fun hu => ?_⟩
    · show Fine.heard (s.world.ins ++ [(c, .timer)]) = s.taken
      rw [heard_append, I.heard]; simp [Fine.heard]
    · exact absurd hu (by simp [(waits_iff hw).1])
  | distExit _ hd =>
    have hf := I.fifo
    rw [hd] at hf
    exact ⟨hf, I.heard, I.whole, hord, hlog, I.idle⟩
  | call D c k ht hk =>
    refine ⟨I.fifo, I.heard, I.whole, hord, fun o ho => ?_, fun hu => ?_⟩
    · rcases List.mem_append.mp ho with ho | ho
      · exact hlog o ho
      · simp only [Option.mem_toList, Option.map_eq_some_iff] at ho
        obtain ⟨_, _, he⟩ := ho
        cases he
    · have := I.idle hu
      rw [ht] at this; cases this
  | finish D o ht => exact ⟨I.fifo, I.heard, I.whole, hord, hlog, fun _ => rfl⟩
  | loaderExit hcn hw => exact ⟨I.fifo, I.heard, I.whole, hord, hlog, fun _ => (waits_iff hw).2⟩
  | respawn D now failed hu ha =>
    unfold Sys.respawn
    split
    · exact ⟨I.fifo, I.heard, I.whole, hord, hlog, I.idle⟩
    · simp only
      split <;> exact ⟨I.fifo, I.heard, I.whole, hord, fun o ho => reg ho, I.idle⟩
  | refused D f now a e hw => exact ⟨I.fifo, I.heard, I.whole, hord, fun o ho => reg ho, I.idle⟩
  | suggested D f now a v hw => exact ⟨I.fifo, I.heard, I.whole, hord, fun o ho => reg ho, I.idle⟩
  | giveUp D f now a hd => exact ⟨I.fifo, I.heard, I.whole, hord, fun o ho => reg ho, I.idle⟩
  | _ => exact ⟨I.fifo, I.heard, I.whole, hord, hlog, I.idle⟩

theorem Path.chan {D : Disk} {cfg : Config} {pdb : Peers.DB} {fs : Nat → Fate} {seeds : List (Option AddrPort)} {lk : Linkage}
    {listener : Bool} {es : List Ev} {tr : List Answer} {s : Sys}
    (h : Path lib (Sys.start D cfg pdb fs seeds lk listener) es tr s) : Chan es s := by
  induction h with
  | nil => exact Chan.start ..
  | snoc _ e he ih => exact ih.step he

/-! ### life cycles -/

theorem respawn_frame (s : Sys) (D : Disk) (now : Int) (failed : Bool) :
    (s.respawn D now failed).dist = s.dist ∧ (s.respawn D now failed).cancelled = s.cancelled ∧ (s.respawn D now failed).apiUp = s.apiUp ∧
    (s.respawn D now failed).lsn = s.lsn ∧ (s.respawn D now failed).respawnUp = s.respawnUp ∧
    (s.respawn D now failed).loaderUp = s.loaderUp ∧ (s.respawn D now failed).main = s.main := by
  unfold Sys.respawn
  split
  · exact ⟨rfl, rfl, rfl, rfl, rfl, rfl, rfl⟩
  · simp only
    split <;> exact ⟨rfl, rfl, rfl, rfl, rfl, rfl, rfl⟩

/-- the main goroutine changes its own position only -/
theorem mainStep_eq {p q : Prog} (h : p.mainStep = some (.ok q)) : q = { p with main := q.main } := by
  unfold Prog.mainStep at h
  repeat' split at h
  all_goals first
    | (cases h; rfl)
    | cases h

/-- the events that change no more than who is running, as events of `Services/Program.lean` -/
def Ev.shell : Ev → Option Services.Ev
  | .distExit => some .distExit
  | .loaderExit => some .loaderExit
  | .respawnExit => some .respawnExit
  | .listen ok => some (.listen ok)
  | .listenerExit conn => some (.listenerExit conn)
  | .apiExit => some .apiExit
  | .signal => some .signal
  | .main => some .main
  | _ => none

theorem shell_step {s s' : Sys} {e : Ev} {e' : Services.Ev} (h : s.step lib e = some (.ok s')) (he : e.shell = some e') :
    s.shell.step lib e' = some (.ok s'.shell) := by
  obtain ⟨hm, hc⟩ := step_case h
  have key : ∀ {x : Option (Go Prog)} {y : Option (Go Prog)}, x = y → (if s.shell.main = .exited then none else x) = y :=
    fun hx => by rw [if_neg (show ¬ s.shell.main = .exited from hm)]; exact hx
  have gd : ∀ {b : Bool} {x : Go Prog}, b = true → Services.guarded b x = some x := fun hb => by rw [hb]; rfl
  cases hc with
  | handled _ hr _ => cases hr <;> cases he
  | distExit h1 h2 => cases he; exact key (gd (by simp [Sys.shell, h1, h2]))
  | loaderExit h1 h2 => cases he; exact key (gd (by simp [Sys.shell, h1, (waits_iff h2).1]))
  | respawnExit h1 h2 => cases he; exact key (gd (by simp [Sys.shell, h1, h2]))
  | listen ok h1 => cases he; exact key (gd (by simp [Sys.shell, h1]))
  | listenerExit conn h1 h2 h3 => cases he; exact key (gd (by simp [Sys.shell, h1, h2]; exact h3))
  | apiExit h1 h2 => cases he; exact key (gd (by simp [Sys.shell, h1]; exact h2))
  | signal => cases he; exact key rfl
  | main q hq =>
    cases he
    refine key ?_
    show s.shell.mainStep = _
    rw [hq, mainStep_eq hq]; rfl
  | _ => cases he

/-- and back, when the loader is not handling an event -/
theorem shell_lift {s : Sys} {e : Ev} {e' : Services.Ev} {q : Prog} (he : e.shell = some e') (h : s.shell.step lib e' = some (.ok q))
    (ht : s.world.todo = none) : ∃ s', s.step lib e = some (.ok s') ∧ s'.shell = q ∧ s'.world = s.world := by
  have hm : s.main ≠ .exited := (Services.step_case h).1
  have h : _ := h
  unfold Prog.step at h
  rw [if_neg (show ¬ s.shell.main = .exited from hm)] at h
  have key : ∀ {x : Option (Except Fault Sys)} {s' : Sys}, x = some (.ok s') → s'.shell = q → s'.world = s.world →
      ∃ s', (if s.main = .exited then none else x) = some (.ok s') ∧ s'.shell = q ∧ s'.world = s.world :=
    fun hx h1 h2 => ⟨_, by rw [if_neg hm]; exact hx, h1, h2⟩
  have gd : ∀ {b : Bool} {x : Except Fault Sys}, b = true → guarded b x = some x := fun hb => by rw [hb]; rfl
  have back : ∀ {b : Bool} {r : Go Prog} {q : Prog}, Services.guarded b r = some (.ok q) → b = true ∧ r = .ok q := by
    intro b r q hg
    unfold Services.guarded at hg
    cases b with
    | false => cases hg
    | true => exact ⟨rfl, Option.some.inj hg⟩
  cases e with
  | distExit => cases he; obtain ⟨hb, hr⟩ := back h; cases hr; exact key (gd hb) rfl rfl
  | loaderExit =>
    cases he; obtain ⟨hb, hr⟩ := back h; cases hr
    refine key (gd ?_) rfl rfl
    simp only [Sys.waits, ht, Option.isNone_none, Bool.and_true]
    exact hb
  | respawnExit => cases he; obtain ⟨hb, hr⟩ := back h; cases hr; exact key (gd hb) rfl rfl
  | listen ok => cases he; obtain ⟨hb, hr⟩ := back h; cases hr; exact key (gd hb) rfl rfl
  | listenerExit conn => cases he; obtain ⟨hb, hr⟩ := back h; cases hr; exact key (gd hb) rfl rfl
  | apiExit => cases he; obtain ⟨hb, hr⟩ := back h; cases hr; exact key (gd hb) rfl rfl
  | signal => cases he; cases h; exact key rfl rfl rfl
  | main =>
    cases he
    have h' : s.shell.mainStep = some (.ok q) := h
    refine key (s' := { s with main := q.main }) ?_ ?_ rfl
    · simp only [h']
    · rw [mainStep_eq h']; rfl
  | _ => cases he

theorem life_step {s s' : Sys} {e : Ev} (L : Life s.shell) (h : s.step lib e = some (.ok s')) : Life s'.shell := by
  cases he : e.shell with
  | some e' => exact L.step (shell_step h he)
  | none =>
    obtain ⟨hne, hc⟩ := step_case h
    obtain ⟨h1, h2, h4, h5, h6, h7, h8, h9⟩ := L
    cases hc with
    | @handled _ _ x hd _ _ =>
      refine ⟨?_, h2, h4, h5, h6, h7, h8, fun hm => absurd hm hne⟩
      intro hc
      refine ⟨?_, (h1 hc).2⟩
      show (match x.pkg with | none => Dist.ready | some p => .sending p) ≠ .exited
      cases x.pkg <;> simp
    | take c p hd hw => exact ⟨fun hc => ⟨by simp [Sys.shell], (h1 hc).2⟩, h2, h4, h5, h6, h7, h8, fun hm => absurd hm hne⟩
    | respawn D now failed hu ha =>
      obtain ⟨e1, e2, e3, e4, e5, e6, e7⟩ := respawn_frame s D now failed
      refine ⟨?_, ?_, ?_, ?_, ?_, ?_, ?_, ?_⟩ <;> simp only [Sys.shell, e1, e2, e3, e4, e5, e6, e7] <;> assumption
    | tick => exact ⟨h1, h2, h4, h5, h6, h7, h8, h9⟩
    | timer => exact ⟨h1, h2, h4, h5, h6, h7, h8, h9⟩
    | call => exact ⟨h1, h2, h4, h5, h6, h7, h8, h9⟩
    | finish => exact ⟨h1, h2, h4, h5, h6, h7, h8, h9⟩
    | refused => exact ⟨h1, h2, h4, h5, h6, h7, h8, h9⟩
    | suggested => exact ⟨h1, h2, h4, h5, h6, h7, h8, h9⟩
    | giveUp => exact ⟨h1, h2, h4, h5, h6, h7, h8, h9⟩
    | _ => cases he

theorem Path.life {D : Disk} {cfg : Config} {pdb : Peers.DB} {fs : Nat → Fate} {seeds : List (Option AddrPort)} {lk : Linkage}
    {listener : Bool} {es : List Ev} {tr : List Answer} {s : Sys}
    (h : Path lib (Sys.start D cfg pdb fs seeds lk listener) es tr s) : Life s.shell := by
  induction h with
  | nil =>
    exact ⟨fun _ => ⟨by simp [Sys.start, Sys.shell], rfl, rfl, rfl⟩, fun _ => rfl, (fun h => by cases h), (fun h => by cases h),
      (fun h => by cases h), (fun h => by rcases h with h | h | h <;> cases h), (fun h => by rcases h with h | h <;> cases h),
      (fun h => by cases h)⟩
  | snoc _ e he ih => exact life_step ih he

/-! ### paths -/

theorem Path.append {s s1 s2 : Sys} {es es' : List Ev} {tr tr' : List Answer} (h : Path lib s es tr s1) (h' : Path lib s1 es' tr' s2) :
    Path lib s (es ++ es') (tr ++ tr') s2 := by
  induction h' with
  | nil => rw [List.append_nil, List.append_nil]; exact h
  | snoc _ e he ih => rw [← List.append_assoc, ← List.append_assoc]; exact ih.snoc e he

theorem Path.one {s s' : Sys} {e : Ev} (he : s.step lib e = some (.ok s')) : Path lib s [e] (s.answer lib e) s' :=
  .snoc .nil e he

theorem Path.cons {s s1 s' : Sys} {e : Ev} {es : List Ev} {tr : List Answer} (he : s.step lib e = some (.ok s1))
    (h : Path lib s1 es tr s') : Path lib s (e :: es) (s.answer lib e ++ tr) s' := by
  have := (Path.one he).append h
  exact this

/-- the next `n` steps of the loader, on the disks `ds` -/
def goes (ds : Nat → Disk) (n : Nat) : List Ev := (List.range n).map (fun i => .go (ds i))

theorem goes_succ (ds : Nat → Disk) (n : Nat) : goes ds (n + 1) = .go (ds 0) :: goes (fun i => ds (i + 1)) n := by
  unfold goes
  rw [List.range_succ_eq_map, List.map_cons, List.map_map]
  rfl

/-- The loader handles its event to the end, on whatever disks, while nothing else happens; or it panics on the way. -/
theorem finish {s : Sys} (hm : s.main ≠ .exited) (ds : Nat → Disk) :
    (∃ n tr s', Path lib s (goes ds n) tr s' ∧ s'.world.todo = none ∧ s' = { s with world := s'.world }) ∨
    ∃ n tr s' e, Path lib s (goes ds n) tr s' ∧ s'.step lib (.go (ds n)) = some (.error e) := by
  cases hp : s.world.todo with
  | none => exact Or.inl ⟨0, [], s, .nil, hp, rfl⟩
  | some p =>
    induction p generalizing s ds with
    | ret r =>
      cases r with
      | error e => exact Or.inr ⟨0, [], s, e, .nil, by simp [Sys.step, hm, Sys.go, hp]⟩
      | ok o =>
        have he : s.step lib (.go (ds 0)) = some (.ok { s with world := { s.world with own := o, todo := none } }) := by
          simp [Sys.step, hm, Sys.go, hp]
        exact Or.inl ⟨1, _, _, .one he, rfl, rfl⟩
    | call c k ih =>
      have hs : s.step lib (.go (ds 0)) = s.go lib (ds 0) := by simp [Sys.step, hm]
      cases hk : k (c.resRd (ds 0) lib s.world.sh) with
      | ret r =>
        cases r with
        | error e => exact Or.inr ⟨0, [], s, e, .nil, by rw [hs]; simp only [Sys.go, hp, hk]⟩
        | ok o =>
          have he : s.step lib (.go (ds 0)) = some (.ok { s with world :=
              ⟨s.world.own, some (.ret (.ok o)), c.effectRd (ds 0) s.world.sh, s.world.ins, s.world.log ++ (c.op.map (fun o => (true, o))).toList⟩ }) := by
            rw [hs]; simp only [Sys.go, hp, hk]
          rcases ih (c.resRd (ds 0) lib s.world.sh) (s := { s with world :=
              ⟨s.world.own, some (.ret (.ok o)), c.effectRd (ds 0) s.world.sh, s.world.ins, s.world.log ++ (c.op.map (fun o => (true, o))).toList⟩ })
              hm (fun i => ds (i + 1)) (by rw [hk]) with ⟨n, tr, s', h1, h2, h3⟩ | ⟨n, tr, s', e, h1, h2⟩
          · exact Or.inl ⟨n + 1, _, s', by rw [goes_succ]; exact h1.cons he, h2, h3⟩
          · exact Or.inr ⟨n + 1, _, s', e, by rw [goes_succ]; exact h1.cons he, h2⟩
      | call c' k' =>
        have he : s.step lib (.go (ds 0)) = some (.ok { s with world :=
            ⟨s.world.own, some (.call c' k'), c.effectRd (ds 0) s.world.sh, s.world.ins, s.world.log ++ (c.op.map (fun o => (true, o))).toList⟩ }) := by
          rw [hs]; simp only [Sys.go, hp, hk]
        rcases ih (c.resRd (ds 0) lib s.world.sh) (s := { s with world :=
            ⟨s.world.own, some (.call c' k'), c.effectRd (ds 0) s.world.sh, s.world.ins, s.world.log ++ (c.op.map (fun o => (true, o))).toList⟩ })
            hm (fun i => ds (i + 1)) (by rw [hk]) with ⟨n, tr, s', h1, h2, h3⟩ | ⟨n, tr, s', e, h1, h2⟩
        · exact Or.inl ⟨n + 1, _, s', by rw [goes_succ]; exact h1.cons he, h2, h3⟩
        · exact Or.inr ⟨n + 1, _, s', e, by rw [goes_succ]; exact h1.cons he, h2⟩

/-! ### shutdown -/

theorem closing_lift {e' : Services.Ev} (h : e'.closing = true) : ∃ e, Ev.shell e = some e' := by
  cases e' with
  | distExit => exact ⟨.distExit, rfl⟩
  | loaderExit => exact ⟨.loaderExit, rfl⟩
  | respawnExit => exact ⟨.respawnExit, rfl⟩
  | listenerExit conn => exact ⟨.listenerExit conn, rfl⟩
  | apiExit => exact ⟨.apiExit, rfl⟩
  | main => exact ⟨.main, rfl⟩
  | _ => cases h

theorem can_exit {s : Sys} (L : Life s.shell) (ht : s.world.todo = none) (hc : s.cancelled = true) (hl : s.lsn ≠ .starting)
    (hf : s.lsn ≠ .failed) (hd : ∀ p, s.dist ≠ .sending p) :
    ∃ es tr s', Path lib s es tr s' ∧ s'.main = .exited ∧ ∀ e, e ∈ es → e.shell ≠ none := by
  generalize hn : s.shell.rank = n
  induction n using Nat.strongRecOn generalizing s with
  | ind n ih =>
    by_cases hm : s.main = .exited
    · exact ⟨[], [], s, .nil, hm, (fun _ he => by cases he)⟩
    · obtain ⟨e', q, hcl, hs, h1, h2, h3, h4⟩ := closing_enabled (lib := lib) L hc hm hl hf hd
      obtain ⟨e, he⟩ := closing_lift hcl
      obtain ⟨s1, hs1, hq, hw⟩ := shell_lift he hs ht
      subst hq
      have hr := rank_step hs
      rw [hcl] at hr
      obtain ⟨es, tr, s', h', hx, hes⟩ := ih s1.shell.rank (by simp at hr; omega) (L.step hs) (by rw [hw]; exact ht) h1 h2 h3 h4 rfl
      refine ⟨_, _, s', h'.cons hs1, hx, fun e1 he1 => ?_⟩
      rcases List.mem_cons.mp he1 with rfl | he1
      · rw [he]; simp
      · exact hes e1 he1

end Verif.Services.Fine
