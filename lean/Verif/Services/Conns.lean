import Verif.Services.NoticeLemmas
/-
What becomes of the connections that the program is told of.
-/

set_option autoImplicit false

namespace Verif.Services

open Verif
open Verif.Chains (Addr)
open Verif.Peers (Conn Lib Accepted)

variable {lib : Lib}

/-- the event takes away the connection that is registered for the address, whichever it is -/
def Ev.Drops (a : Addr) : Ev → Prop
  | .broken _ p => p.remote = some a
  | .giveUp _ _ a' => a' = a
  | _ => False

/-- the event is the notice of a new connection of the address, and the connection qualifies -/
def Joins (lib : Lib) (s : Prog) (e : Ev) (a : Addr) (cn : Conn) : Prop :=
  ∃ c p, e = .connected c p ∧ p.remote = some a ∧ p.conn = cn ∧ Accepted lib s.l.reg a cn cn.handshake

/-- The ways in which a connection is lost sight of: it is open, and the program neither lists it nor will ever close it.
`p` is the connection, `s` the state at the moment of its notice, `later` what happened afterwards. -/
inductive Lost (s : Prog) (p : Sender) (later : List Ev) : Prop where
  /-- its remote address cannot be read -/
  | nameless (h : p.remote = none)
  /-- it comes from our own address -/
  | own (h : p.remote = some s.l.reg.declared)
  /-- it declares an address that does not parse -/
  | undeclared (h : p.conn.handshake.declared = .unparsable)
  /-- the address made another connection -/
  | replaced (c : Loading.Ctx) (p' : Sender) (hm : Ev.connected c p' ∈ later) (hr : p'.remote = p.remote) (hne : p'.conn ≠ p.conn)
  /-- another connection of the address broke -/
  | shared (c : Loading.Ctx) (p' : Sender) (hm : Ev.broken c p' ∈ later) (hr : p'.remote = p.remote) (hne : p'.conn ≠ p.conn)
  /-- a dial of the address failed -/
  | dialled (f : KV.Fate) (now : Int) (a : Addr) (hm : Ev.giveUp f now a ∈ later) (hr : p.remote = some a)

/-! ### one event -/

/-- a registry event of the program, by the event -/
theorem conn_registry {s s' : Prog} {e : Ev} {ctx0 c : Loading.Ctx} {ev : Peers.Event} {a : Addr} {cn : Conn} (R : Reached lib s)
    (he : s.loaderEv ctx0 e = some ⟨c, .registry ev⟩) (hr : s'.l.reg = Peers.step lib s.l.reg ev) :
    (a, cn) ∈ s'.l.reg.connections ↔ Joins lib s e a cn ∨ ((a, cn) ∈ s.l.reg.connections ∧ ¬ e.Drops a ∧ ∀ cn', ¬ Joins lib s e a cn') := by
  have I := R.inv.loader.inv.reg.inv
  rw [hr, Peers.step_conn_iff I]
  have known : (a, cn) ∈ s.l.reg.connections → ∃ p, Peers.PeerOf s.l.reg a = .ok p := by
    intro hm
    obtain ⟨b, rfl⟩ := Peers.is4_iff.mp (I.ipv4 _ _ hm).1
    obtain ⟨v, hv⟩ := Option.ne_none_iff_exists'.mp (R.inv.covered b _ hm)
    exact ⟨_, I.peerOf.mpr ⟨v, hv, rfl⟩⟩
  have other : (∀ f a' np h, ev.op ≠ .register f a' np h) → (∀ f a', ev.op ≠ .unregister f a') → (∀ cfg, ev.op ≠ .reopen cfg) →
      ¬ e.Drops a → (∀ cn', ¬ Joins lib s e a cn') →
      ((∃ f h, ev.op = .register f a cn h ∧ Accepted lib s.l.reg a cn h) ∨ ((a, cn) ∈ s.l.reg.connections ∧ ¬ Peers.Ends lib s.l.reg ev a) ↔
        Joins lib s e a cn ∨ ((a, cn) ∈ s.l.reg.connections ∧ ¬ e.Drops a ∧ ∀ cn', ¬ Joins lib s e a cn')) := by
    intro h1 h2 h3 h4 h5
    constructor
    · rintro (⟨f, h, ho, _⟩ | ⟨hm, _⟩)
      · exact absurd ho (h1 _ _ _ _)
      · exact Or.inr ⟨hm, h4, h5⟩
    · rintro (hj | ⟨hm, _⟩)
      · exact absurd hj (h5 _)
      · refine Or.inr ⟨hm, ?_⟩
        rintro (⟨_, _, _, ho, _⟩ | ⟨_, _, ho, _⟩ | ⟨_, ho⟩)
        · exact h1 _ _ _ _ ho
        · exact h2 _ _ ho
        · exact h3 _ ho
  have drop : ∀ f a', ev.op = .unregister f a' → (e.Drops a ↔ a' = a) → (∀ cn', ¬ Joins lib s e a cn') →
      ((∃ f h, ev.op = .register f a cn h ∧ Accepted lib s.l.reg a cn h) ∨ ((a, cn) ∈ s.l.reg.connections ∧ ¬ Peers.Ends lib s.l.reg ev a) ↔
        Joins lib s e a cn ∨ ((a, cn) ∈ s.l.reg.connections ∧ ¬ e.Drops a ∧ ∀ cn', ¬ Joins lib s e a cn')) := by
    intro f a' ho hd h5
    constructor
    · rintro (⟨f', h, ho', _⟩ | ⟨hm, hend⟩)
      · rw [ho] at ho'; cases ho'
      · refine Or.inr ⟨hm, fun hdr => hend (Or.inr (Or.inl ?_)), h5⟩
        obtain ⟨p, hp⟩ := known hm
        exact ⟨f, p, by rw [ho, hd.mp hdr], hp⟩
    · rintro (hj | ⟨hm, hnd, _⟩)
      · exact absurd hj (h5 _)
      · refine Or.inr ⟨hm, ?_⟩
        rintro (⟨_, _, _, ho', _⟩ | ⟨f', p, ho', _⟩ | ⟨_, ho'⟩)
        · rw [ho] at ho'; cases ho'
        · rw [ho] at ho'; cases ho'; exact hnd (hd.mpr rfl)
        · rw [ho] at ho'; cases ho'
  cases e with
  | message c' p m =>
    simp only [Prog.loaderEv, Option.map_eq_some_iff] at he
    obtain ⟨o, ho, he⟩ := he
    cases he
    have : (∃ fs l, ev.op = .append fs l) ∨ ∃ f a' sc, ev.op = .updateScore f a' sc := by
      cases m with
      | peers ps => simp only [messageEv, Option.some.injEq, Loading.Op.registry.injEq] at ho; subst ho; exact Or.inl ⟨_, _, rfl⟩
      | score sc =>
        simp only [messageEv, Option.map_eq_some_iff] at ho
        obtain ⟨a', _, ho⟩ := ho
        cases ho; exact Or.inr ⟨_, _, _, rfl⟩
      | block b =>
        cases b with
        | none => cases ho
        | some b => simp only [messageEv, Option.map_eq_some_iff] at ho; obtain ⟨a', _, ho⟩ := ho; cases ho
      | pbBlock b =>
        cases b with
        | none => cases ho
        | some b => simp only [messageEv, Option.map_eq_some_iff] at ho; obtain ⟨a', _, ho⟩ := ho; cases ho
      | microBlockInv inv =>
        cases inv with
        | none => cases ho
        | some b => simp only [messageEv, Option.map_eq_some_iff] at ho; obtain ⟨a', _, ho⟩ := ho; cases ho
      | _ => cases ho
    have hj : ∀ cn', ¬ Joins lib s (.message c p m) a cn' := by rintro cn' ⟨_, _, h, _⟩; cases h
    rcases this with ⟨fs, l, h⟩ | ⟨f, a', sc, h⟩
    · exact other (by simp [h]) (by simp [h]) (by simp [h]) (fun h => h) hj
    · exact other (by simp [h]) (by simp [h]) (by simp [h]) (fun h => h) hj
  | connected c' p =>
    simp only [Prog.loaderEv, Option.map_eq_some_iff] at he
    obtain ⟨a', ha', he⟩ := he
    cases he
    constructor
    · rintro (⟨f, h, ho, acc⟩ | ⟨hm, hend⟩)
      · cases ho; exact Or.inl ⟨_, p, rfl, ha', rfl, acc⟩
      · refine Or.inr ⟨hm, fun h => h, ?_⟩
        rintro cn' ⟨c1, p1, h1, h2, h3, h4⟩
        cases h1
        rw [ha'] at h2; cases h2
        exact hend (Or.inl ⟨_, _, _, rfl, by rw [h3]; exact h4⟩)
    · rintro (⟨c1, p1, h1, h2, h3, h4⟩ | ⟨hm, _, hj⟩)
      · cases h1
        rw [ha'] at h2; cases h2
        subst h3
        exact Or.inl ⟨_, _, rfl, h4⟩
      · refine Or.inr ⟨hm, ?_⟩
        rintro (⟨_, _, _, ho, acc⟩ | ⟨_, _, ho, _⟩ | ⟨_, ho⟩)
        · cases ho; exact hj _ ⟨_, p, rfl, ha', rfl, acc⟩
        · cases ho
        · cases ho
  | broken c' p =>
    simp only [Prog.loaderEv, Option.map_eq_some_iff] at he
    obtain ⟨a', ha', he⟩ := he
    cases he
    refine drop _ a' rfl ?_ (by rintro cn' ⟨_, _, h, _⟩; cases h)
    simp [Ev.Drops, ha']
  | giveUp f now a' =>
    simp only [Prog.loaderEv, Option.some.injEq] at he
    cases he
    exact drop _ a' rfl Iff.rfl (by rintro cn' ⟨_, _, h, _⟩; cases h)
  | suggest f now a' =>
    simp only [Prog.loaderEv, Option.some.injEq] at he
    cases he
    exact other (by simp) (by simp) (by simp) (fun h => h) (by rintro cn' ⟨_, _, h, _⟩; cases h)
  | respawn now rf =>
    simp only [Prog.loaderEv] at he
    split at he
    · cases he
    · cases he
      exact other (by simp) (by simp) (by simp) (fun h => h) (by rintro cn' ⟨_, _, h, _⟩; cases h)
  | take c' =>
    simp only [Prog.loaderEv] at he
    split at he <;> cases he
  | tick c' => cases he
  | timer c' => cases he
  | _ => cases he

/-- what one event does to the list of connections -/
theorem conn_step {s s' : Prog} {e : Ev} {a : Addr} {cn : Conn} (R : Reached lib s) (h : s.step lib e = some (.ok s')) :
    (a, cn) ∈ s'.l.reg.connections ↔ Joins lib s e a cn ∨ ((a, cn) ∈ s.l.reg.connections ∧ ¬ e.Drops a ∧ ∀ cn', ¬ Joins lib s e a cn') := by
  have hl := step_loader (Loading.Ex.ctx 0) h
  have quiet : s'.l.reg = s.l.reg → ¬ e.Drops a → (∀ cn', ¬ Joins lib s e a cn') →
      ((a, cn) ∈ s'.l.reg.connections ↔ Joins lib s e a cn ∨ ((a, cn) ∈ s.l.reg.connections ∧ ¬ e.Drops a ∧ ∀ cn', ¬ Joins lib s e a cn')) := by
    intro hr hd hj
    rw [hr]
    exact ⟨fun hm => Or.inr ⟨hm, hd, hj⟩, fun hm => hm.elim (fun x => absurd x (hj _)) (·.1)⟩
  cases he : s.loaderEv (Loading.Ex.ctx 0) e with
  | none =>
    rw [he] at hl
    refine quiet (congrArg Loading.Loader.reg hl) ?_ ?_
    · intro hd
      cases e with
      | broken c p => simp only [Ev.Drops] at hd; simp [Prog.loaderEv, hd] at he
      | giveUp f now a' => simp [Prog.loaderEv] at he
      | _ => exact hd
    · rintro cn' ⟨c, p, rfl, hp, _⟩
      simp [Prog.loaderEv, hp] at he
  | some le =>
    rw [he] at hl
    rcases reg_step R.inv.loader.inv hl with hr | ⟨c, ev, rfl, hr⟩
    · by_cases hev : ∃ ev, le.op = .registry ev
      · obtain ⟨ev, hev⟩ := hev
        obtain ⟨c, op⟩ := le
        simp only at hev
        subst hev
        refine conn_registry R he ?_
        simp only [Follows, Loading.step, Except.ok.injEq] at hl
        rw [← hl]
      · refine quiet hr ?_ ?_
        · intro hd
          cases e with
          | broken c p =>
            simp only [Ev.Drops] at hd
            simp only [Prog.loaderEv, hd, Option.map_some, Option.some.injEq] at he
            exact hev ⟨_, by rw [← he]⟩
          | giveUp f now a' =>
            simp only [Prog.loaderEv, Option.some.injEq] at he
            exact hev ⟨_, by rw [← he]⟩
          | _ => exact hd
        · rintro cn' ⟨c, p, rfl, hp, _⟩
          simp only [Prog.loaderEv, hp, Option.map_some, Option.some.injEq] at he
          exact hev ⟨_, by rw [← he]⟩
    · exact conn_registry R he hr

/-- what was done to connections is not forgotten -/
theorem out_step {s s' : Prog} {e : Ev} (h : s.step lib e = some (.ok s')) : ∃ more, s'.out = s.out ++ more := by
  obtain ⟨_, hc⟩ := step_case h
  cases hc with
  | handled hd hh hx => exact ⟨_, rfl⟩
  | respawn now rf hu ha => 
    refine ⟨[], ?_⟩
    unfold Prog.respawn
    split
    · simp
    · simp only
      split <;> simp
  | _ => exact ⟨[], by simp⟩

/-- the events determine the state -/
theorem Path.unique {s t t' : Prog} {es : List Ev} (h : Path lib s es t) (h' : Path lib s es t') : t = t' := by
  induction h generalizing t' with
  | nil =>
    generalize he : ([] : List Ev) = es at h'
    cases h' with
    | nil => rfl
    | snoc h e hs => simp at he
  | @snoc es s1 s2 h e hs ih =>
    generalize hes : es ++ [e] = es' at h'
    cases h' with
    | nil => simp at hes
    | @snoc es2 s1' s2' h2 e2 hs2 =>
      have hsp := List.append_inj' hes (by simp)
      have he : e = e2 := by simpa using hsp.2
      subst he
      rw [← hsp.1] at h2
      have := ih h2
      subst this
      rw [hs] at hs2
      cases hs2; rfl

/-- messages close nothing -/
theorem handleMessage_out {c : Loading.Ctx} {l : Loading.Loader} {p : Sender} {m : Message} {x : Handled}
    (h : handleMessage lib c l p m = .ok x) (cn : Conn) : Out.close cn ∉ x.out := by
  intro hm
  cases m with
  | getPeers =>
    simp only [handleMessage, handleGetPeers] at h
    split at h
    · cases h
    · cases h; cases hm
    · obtain ⟨i, _, h⟩ := go_bind_eq_ok.mp h
      cases h
      simp at hm
  | peers ps => obtain ⟨rfl, _⟩ := noPanic_eq h; cases hm
  | signatures l' =>
    simp only [handleMessage, handleSignatures] at h
    split at h <;> cases h <;> cases hm
  | block b =>
    simp only [handleMessage, handleBlock] at h
    split at h
    · cases h; cases hm
    · cases h; cases hm
    · split at h <;> cases h <;> cases hm
  | pbBlock b =>
    simp only [handleMessage, handleBlock] at h
    split at h
    · cases h; cases hm
    · cases h; cases hm
    · split at h <;> cases h <;> cases hm
  | score b =>
    simp only [handleMessage, handleScore] at h
    split at h
    · cases h; cases hm
    · obtain ⟨rfl, _⟩ := noPanic_eq h; cases hm
  | microBlockInv inv =>
    simp only [handleMessage, handleMicroBlockInv] at h
    split at h
    · cases h; cases hm
    · cases h; cases hm
    · obtain ⟨rfl, _⟩ := noPanic_eq h; cases hm
  | blockIds ids =>
    simp only [handleMessage, handleBlockIDs] at h
    split at h
    · cases h; cases hm
    · split at h <;> cases h <;> cases hm
  | _ => cases h; cases hm

/-- a connection is closed when it is refused or when it broke -/
theorem close_step {s s' : Prog} {e : Ev} {cn : Conn} (R : Reached lib s) (h : s.step lib e = some (.ok s')) (hc : Out.close cn ∈ s'.out) :
    Out.close cn ∈ s.out ∨ ∃ c p a, p.conn = cn ∧ p.remote = some a ∧
      (e = .broken c p ∨ (e = .connected c p ∧ ¬ Accepted lib s.l.reg a cn cn.handshake)) := by
  obtain ⟨_, hcase⟩ := step_case h
  cases hcase with
  | handled hd hh hx =>
    simp only [List.mem_append] at hc
    rcases hc with hc | hc
    · exact Or.inl hc
    · right
      cases hh with
      | message c p m =>
        exfalso
        rw [receive_eq] at hx
        have := handleMessage_out hx
        exact this cn hc
      | connected c p hj =>
        unfold handleConnected at hx
        cases hr : p.remote with
        | none => rw [hr] at hx; cases hx; cases hc
        | some a =>
          rw [hr] at hx
          simp only at hx
          obtain ⟨rfl, hnp⟩ := noPanic_eq hx
          cases Peers.register_outcome (lib := lib) (f := c.fates 0) (now := c.now) (a := a) (np := p.conn) (h := p.conn.handshake)
              R.inv.loader.inv.reg.inv.good with
          | accepted acc eq => rw [eq] at hc; simp at hc
          | hostile rej v4 eq =>
            rw [eq] at hc
            simp at hc
            subst hc
            exact ⟨c, p, a, rfl, hr, Or.inr ⟨rfl, rej⟩⟩
          | refused rej cl e eq =>
            rw [eq] at hc
            cases cl with
            | false => simp at hc
            | true =>
              simp at hc
              subst hc
              exact ⟨c, p, a, rfl, hr, Or.inr ⟨rfl, rej⟩⟩
      | broken c p =>
        unfold handleInternalError at hx
        cases hr : p.remote with
        | none => rw [hr] at hx; cases hx; cases hc
        | some a =>
          rw [hr] at hx
          simp only at hx
          obtain ⟨rfl, hnp⟩ := noPanic_eq hx
          simp at hc
          exact ⟨c, p, a, hc.symm, hr, Or.inl rfl⟩
      | ping c =>
        cases hx
        simp [pingConnections] at hc
  | respawn now rf hu ha =>
    left
    have : (s.respawn now rf).out = s.out := by
      unfold Prog.respawn
      split
      · rfl
      · simp only
        split <;> rfl
    rw [this] at hc
    exact hc
  | _ => exact Or.inl hc

end Verif.Services
