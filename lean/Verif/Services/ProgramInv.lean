import Verif.Services.ProgramLemmas
/-
Invariants of the running program.
-/

set_option autoImplicit false

namespace Verif.Services

open Verif
open Verif.Chains (Addr BytesN BlockID ProtoBlock MicroInv Linkage)
open Verif.Peers (Conn Registry Lib AddrPort Config Covered view)
open Verif.Loading (Ctx Loader)
open Verif.KV (Fate)

variable {lib : Lib}

/-- the package in the hands of the distributor -/
def Dist.pending : Dist → List Pkg
  | .sending p => [p]
  | _ => []

/-- what holds about registry, loader and channels -/
structure PInv (lib : Lib) (s : Prog) : Prop where
  loader : Loading.Reachable lib s.l
  joined : ∀ b, Addr.v4 b ∈ s.joined → view s.l.reg.db b ≠ none
  covered : Covered s.l.reg
  fifo : s.sent = s.taken ++ s.dist.pending

/-- registrations come from notices of connections -/
theorem loaderEv_register {s : Prog} {ctx0 c : Ctx} {e : Ev} {ev : Peers.Event} {f : Fate} {a : Addr} {cn : Conn} {h : Peers.Handshake}
    (he : s.loaderEv ctx0 e = some ⟨c, .registry ev⟩) (hop : ev.op = .register f a cn h) :
    ∃ c' p, e = .connected c' p ∧ p.remote = some a := by
  cases e with
  | message c' p m =>
    simp only [Prog.loaderEv, Option.map_eq_some_iff] at he
    obtain ⟨o, ho, he⟩ := he
    cases he
    exfalso
    cases m with
    | peers ps => simp only [messageEv, Option.some.injEq, Loading.Op.registry.injEq] at ho; subst ho; cases hop
    | score sc =>
      simp only [messageEv, Option.map_eq_some_iff] at ho
      obtain ⟨a', _, ho⟩ := ho
      cases ho; cases hop
    | block b =>
      cases b with
      | none => cases ho
      | some b => simp only [messageEv, Option.map_eq_some_iff] at ho; obtain ⟨a', _, ho⟩ := ho; cases ho
    | pbBlock b =>
      cases b with
      | none => cases ho
      | some b => simp only [messageEv, Option.map_eq_some_iff] at ho; obtain ⟨a', _, ho⟩ := ho; cases ho
    | microBlockInv inv =>
      cases inv with
      | none => cases ho
      | some b => simp only [messageEv, Option.map_eq_some_iff] at ho; obtain ⟨a', _, ho⟩ := ho; cases ho
    | _ => cases ho
  | connected c' p =>
    simp only [Prog.loaderEv, Option.map_eq_some_iff] at he
    obtain ⟨a', ha, he⟩ := he
    cases he
    cases hop
    exact ⟨_, p, rfl, ha⟩
  | broken c' p =>
    simp only [Prog.loaderEv, Option.map_eq_some_iff] at he
    obtain ⟨a', ha, he⟩ := he
    cases he
    cases hop
  | take c' =>
    simp only [Prog.loaderEv] at he
    split at he <;> cases he
  | respawn now rf =>
    simp only [Prog.loaderEv] at he
    split at he
    · cases he
    · cases he; cases hop
  | tick c' => cases he
  | timer c' => cases he
  | suggest f' now a' => cases he; cases hop
  | giveUp f' now a' => cases he; cases hop
  | _ => cases he

/-- what an event does to the registry -/
theorem step_reg {s s' : Prog} {e : Ev} (I : Loading.Inv lib s.l) (h : s.step lib e = some (.ok s')) :
    s'.l.reg = s.l.reg ∨ ∃ ev, s'.l.reg = Peers.step lib s.l.reg ev ∧
      ∀ f a cn hs, ev.op = .register f a cn hs → a ∈ s.joined := by
  have hl := step_loader (Loading.Ex.ctx 0) h
  cases he : s.loaderEv (Loading.Ex.ctx 0) e with
  | none => rw [he] at hl; left; exact congrArg Loader.reg hl
  | some le =>
    rw [he] at hl
    rcases reg_step I hl with hr | ⟨c, ev, rfl, hr⟩
    · exact Or.inl hr
    · refine Or.inr ⟨ev, hr, fun f a cn hs hop => ?_⟩
      obtain ⟨c', p, rfl, hp⟩ := loaderEv_register he hop
      obtain ⟨_, hc⟩ := step_case h
      cases hc with
      | handled hd hh hx =>
        cases hh with
        | connected _ _ hj => exact hj a hp

theorem PInv.step {s s' : Prog} {e : Ev} (I : PInv lib s) (h : s.step lib e = some (.ok s')) : PInv lib s' := by
  have L := I.loader.inv
  have R := L.reg.inv
  have hreg := step_reg L h
  have hview : ∀ b, view s.l.reg.db b ≠ none → view s'.l.reg.db b ≠ none := by
    intro b hb
    rcases hreg with hr | ⟨ev, hr, _⟩
    · rw [hr]; exact hb
    · rw [hr]; exact Peers.step_known R.good hb
  refine ⟨?_, ?_, ?_, ?_⟩
  · have hl := step_loader (Loading.Ex.ctx 0) h
    cases he : s.loaderEv (Loading.Ex.ctx 0) e with
    | none => rw [he] at hl; rw [show s'.l = s.l from hl]; exact I.loader
    | some le => rw [he] at hl; exact I.loader.step le hl
  · intro b hb
    obtain ⟨_, hc⟩ := step_case h
    have old : Addr.v4 b ∈ s.joined → view s'.l.reg.db b ≠ none := fun hj => hview b (I.joined b hj)
    cases hc with
    | suggested f now a v hw =>
      rcases List.mem_cons.mp hb with rfl | hb
      · exact Peers.suggest_known R hw
      · exact old hb
    | respawn now rf hu ha =>
      apply old
      revert hb
      unfold Prog.respawn
      split
      · exact id
      · simp only; split <;> exact id
    | _ => exact old hb
  · intro b c hm
    rcases hreg with hr | ⟨ev, hr, hj⟩
    · rw [hr] at hm ⊢; exact I.covered b c hm
    · rw [hr] at hm
      rcases (Peers.step_conn_iff R).mp hm with ⟨f, hs, hop, _⟩ | ⟨hm, _⟩
      · exact hview b (I.joined b (hj f _ c hs hop))
      · exact hview b (I.covered b c hm)
  · have hf := I.fifo
    obtain ⟨_, hc⟩ := step_case h
    cases hc with
    | @handled _ _ x hd _ _ =>
      rw [hd] at hf
      show s.sent ++ x.pkg.toList = s.taken ++ _
      rw [hf]
      cases x.pkg <;> simp [Dist.pending]
    | take c p l' hd _ _ =>
      rw [hd] at hf
      show s.sent = s.taken ++ [p] ++ []
      rw [hf]; simp [Dist.pending]
    | distExit _ hd => rw [hd] at hf; exact hf
    | respawn now rf hu ha =>
      revert hf
      unfold Prog.respawn
      split
      · exact id
      · simp only; split <;> exact id
    | _ => exact hf

theorem PInv.start (cfg : Config) {r : Registry} (R : Peers.Reachable lib r) (fs : Nat → Fate) (seeds : List (Option AddrPort))
    (lk : Linkage) (listener : Bool) : PInv lib (Prog.start cfg r.db fs seeds lk listener) := by
  have hr : Peers.Reachable lib (Peers.AppendAddresses fs (Peers.NewRegistry cfg r.db) seeds).1 := by
    have := (R.step ⟨0, .reopen cfg⟩).step ⟨0, .append fs seeds⟩
    exact this
  refine ⟨⟨_, lk, [], hr, rfl⟩, (fun b hb => by cases hb), ?_, rfl⟩
  intro b c hm
  have hc : (Peers.AppendAddresses fs (Peers.NewRegistry cfg r.db) seeds).1.connections = [] := by
    have I0 : Peers.Inv (Peers.NewRegistry cfg r.db) := (R.step ⟨0, .reopen cfg⟩).inv
    have := Peers.step_connections (lib := lib) (e := ⟨0, .append fs seeds⟩) I0.good
    exact this
  have hm : (Addr.v4 b, c) ∈ (Peers.AppendAddresses fs (Peers.NewRegistry cfg r.db) seeds).1.connections := hm
  rw [hc] at hm
  cases hm

theorem PInv.reaches {s s' : Prog} (I : PInv lib s) (h : Reaches lib s s') : PInv lib s' := by
  induction h with
  | refl => exact I
  | step _ e he ih => exact ih.step he

theorem Reached.inv {s : Prog} (h : Reached lib s) : PInv lib s := by
  obtain ⟨cfg, r, fs, seeds, lk, ls, R, hs⟩ := h
  exact (PInv.start cfg R fs seeds lk ls).reaches hs

theorem Reaches.trans {s s' s'' : Prog} (h : Reaches lib s s') (h' : Reaches lib s' s'') : Reaches lib s s'' := by
  induction h' with
  | refl => exact h
  | step _ e he ih => exact ih.step e he

theorem Reached.reaches {s s' : Prog} (h : Reached lib s) (h' : Reaches lib s s') : Reached lib s' := by
  obtain ⟨cfg, r, fs, seeds, lk, ls, R, hs⟩ := h
  exact ⟨cfg, r, fs, seeds, lk, ls, R, hs.trans h'⟩

theorem Reached.step {s s' : Prog} {e : Ev} (h : Reached lib s) (he : s.step lib e = some (.ok s')) : Reached lib s' :=
  h.reaches (.step .refl e he)

/-! ### life cycles -/

/-- how the services go down one after the other -/
structure Life (s : Prog) : Prop where
  /-- nobody leaves before the signal -/
  before : s.cancelled = false → s.dist ≠ .exited ∧ s.loaderUp = true ∧ s.respawnUp = true ∧ s.main = .waiting
  waiting : s.main = .waiting → s.apiUp = true
  closed : s.main.closed = true → s.apiUp = false ∧ s.lsn ≠ .starting ∧ s.lsn ≠ .failed
  listener : s.main = .listener → s.lsn ≠ .off
  off : s.main.closed = true → s.main ≠ .listener → s.lsn = .off ∨ s.lsn = .exited
  respawn : s.main = .loader ∨ s.main = .distributor ∨ s.main = .exited → s.respawnUp = false
  loader : s.main = .distributor ∨ s.main = .exited → s.loaderUp = false
  dist : s.main = .exited → s.dist = .exited

theorem respawn_frame (s : Prog) (now : Int) (rf : Bool) :
    (s.respawn now rf).dist = s.dist ∧ (s.respawn now rf).cancelled = s.cancelled ∧ (s.respawn now rf).apiUp = s.apiUp ∧
    (s.respawn now rf).lsn = s.lsn ∧ (s.respawn now rf).respawnUp = s.respawnUp ∧ (s.respawn now rf).loaderUp = s.loaderUp ∧
    (s.respawn now rf).main = s.main ∧ (s.respawn now rf).sent = s.sent ∧ (s.respawn now rf).taken = s.taken ∧
    (s.respawn now rf).joined = s.joined := by
  unfold Prog.respawn
  split
  · exact ⟨rfl, rfl, rfl, rfl, rfl, rfl, rfl, rfl, rfl, rfl⟩
  · simp only
    split <;> exact ⟨rfl, rfl, rfl, rfl, rfl, rfl, rfl, rfl, rfl, rfl⟩

theorem Life.step {s s' : Prog} {e : Ev} (I : Life s) (h : s.step lib e = some (.ok s')) : Life s' := by
  obtain ⟨hne, hc⟩ := step_case h
  obtain ⟨h1, h2, h4, h5, h6, h7, h8, h9⟩ := I
  cases hc with
  | @handled _ _ x hd _ _ =>
    refine ⟨?_, h2, h4, h5, h6, h7, h8, fun hm => absurd hm hne⟩
    intro hc
    refine ⟨?_, (h1 hc).2⟩
    show (match x.pkg with | none => Dist.ready | some p => .sending p) ≠ .exited
    cases x.pkg <;> simp
  | take c p l' hd _ _ => exact ⟨fun hc => ⟨by simp, (h1 hc).2⟩, h2, h4, h5, h6, h7, h8, fun hm => absurd hm hne⟩
  | distExit hcn hd => exact ⟨fun hc => (by rw [hcn] at hc; cases hc), h2, h4, h5, h6, h7, h8, fun _ => rfl⟩
  | tick => exact ⟨h1, h2, h4, h5, h6, h7, h8, h9⟩
  | timer => exact ⟨h1, h2, h4, h5, h6, h7, h8, h9⟩
  | loaderExit hcn hu => exact ⟨fun hc => (by rw [hcn] at hc; cases hc), h2, h4, h5, h6, h7, fun _ => rfl, h9⟩
  | respawn now rf hu ha =>
    obtain ⟨e1, e2, e3, e4, e5, e6, e7, _, _, _⟩ := respawn_frame s now rf
    refine ⟨?_, ?_, ?_, ?_, ?_, ?_, ?_, ?_⟩ <;> simp only [e1, e2, e3, e4, e5, e6, e7] <;> assumption
  | respawnExit hcn hu => exact ⟨fun hc => (by rw [hcn] at hc; cases hc), h2, h4, h5, h6, fun _ => rfl, h8, h9⟩
  | refused => exact ⟨h1, h2, h4, h5, h6, h7, h8, h9⟩
  | suggested => exact ⟨h1, h2, h4, h5, h6, h7, h8, h9⟩
  | giveUp => exact ⟨h1, h2, h4, h5, h6, h7, h8, h9⟩
  | listen ok hl =>
    have hcl : s.main.closed = true → False := fun hm => (h4 hm).2.1 hl
    have hcl' : ∀ {m : Main}, m.closed = true → s.main = m → False := fun hm e => hcl (by rw [e]; exact hm)
    exact ⟨h1, h2, fun hm => (hcl hm).elim, fun hm => (hcl' (m := .listener) rfl hm).elim,
      fun hm => (hcl hm).elim, h7, h8, h9⟩
  | listenerExit conn hl hcn hm =>
    exact ⟨h1, h2, fun h' => ⟨(h4 h').1, by simp, by simp⟩, fun _ => by simp, fun _ _ => Or.inr rfl, h7, h8, h9⟩
  | apiExit hu hm =>
    exact ⟨h1, fun h' => absurd h' hm, fun h' => ⟨rfl, (h4 h').2⟩, h5, h6, h7, h8, h9⟩
  | signal => exact ⟨(fun hc => by cases hc), h2, h4, h5, h6, h7, h8, h9⟩
  | mainWaiting hm hcn =>
    exact ⟨(fun hc => by rw [hcn] at hc; cases hc), (fun h' => by cases h'), (fun h' => by cases h'), (fun h' => by cases h'),
      (fun h' => by cases h'), (fun h' => by rcases h' with h' | h' | h' <;> cases h'), (fun h' => by rcases h' with h' | h' <;> cases h'), (fun h' => by cases h')⟩
  | mainApi hm hu hl =>
    have hcn : s.cancelled = false → False := fun hc => by have := (h1 hc).2.2.2; rw [hm] at this; cases this
    refine ⟨fun hc => (hcn hc).elim, (fun h' => by cases h'), fun _ => ⟨hu, ?_, ?_⟩, fun _ => ?_, fun _ h' => absurd rfl h',
      (fun h' => by rcases h' with h' | h' | h' <;> cases h'), (fun h' => by rcases h' with h' | h' <;> cases h'), (fun h' => by cases h')⟩ <;>
    · rcases hl with hl | hl <;> (show s.lsn ≠ _; rw [hl]; simp)
  | mainOff hm hu hl =>
    have hcn : s.cancelled = false → False := fun hc => by have := (h1 hc).2.2.2; rw [hm] at this; cases this
    refine ⟨fun hc => (hcn hc).elim, (fun h' => by cases h'), fun _ => ⟨hu, ?_, ?_⟩, (fun h' => by cases h'), fun _ _ => Or.inl hl,
      (fun h' => by rcases h' with h' | h' | h' <;> cases h'), (fun h' => by rcases h' with h' | h' <;> cases h'), (fun h' => by cases h')⟩ <;>
    · show s.lsn ≠ _; rw [hl]; simp
  | mainListener hm hl =>
    have hcn : s.cancelled = false → False := fun hc => by have := (h1 hc).2.2.2; rw [hm] at this; cases this
    exact ⟨fun hc => (hcn hc).elim, (fun h' => by cases h'), fun _ => h4 (by rw [hm]; rfl), (fun h' => by cases h'),
      fun _ _ => Or.inr hl, (fun h' => by rcases h' with h' | h' | h' <;> cases h'), (fun h' => by rcases h' with h' | h' <;> cases h'), (fun h' => by cases h')⟩
  | mainRespawn hm hu =>
    have hcn : s.cancelled = false → False := fun hc => by have := (h1 hc).2.2.2; rw [hm] at this; cases this
    exact ⟨fun hc => (hcn hc).elim, (fun h' => by cases h'), fun _ => h4 (by rw [hm]; rfl), (fun h' => by cases h'),
      fun _ _ => h6 (by rw [hm]; rfl) (by rw [hm]; simp), fun _ => hu, (fun h' => by rcases h' with h' | h' <;> cases h'), (fun h' => by cases h')⟩
  | mainLoader hm hu =>
    have hcn : s.cancelled = false → False := fun hc => by have := (h1 hc).2.2.2; rw [hm] at this; cases this
    exact ⟨fun hc => (hcn hc).elim, (fun h' => by cases h'), fun _ => h4 (by rw [hm]; rfl), (fun h' => by cases h'),
      fun _ _ => h6 (by rw [hm]; rfl) (by rw [hm]; simp), fun _ => h7 (Or.inl hm), fun _ => hu, (fun h' => by cases h')⟩
  | mainDistributor hm hd =>
    have hcn : s.cancelled = false → False := fun hc => by have := (h1 hc).2.2.2; rw [hm] at this; cases this
    exact ⟨fun hc => (hcn hc).elim, (fun h' => by cases h'), fun _ => h4 (by rw [hm]; rfl), (fun h' => by cases h'),
      fun _ _ => h6 (by rw [hm]; rfl) (by rw [hm]; simp), fun _ => h7 (Or.inr (Or.inl hm)), fun _ => h8 (Or.inl hm), fun _ => hd⟩

theorem Life.start (cfg : Config) (db : Peers.DB) (fs : Nat → Fate) (seeds : List (Option AddrPort))
    (lk : Linkage) (listener : Bool) : Life (Prog.start cfg db fs seeds lk listener) := by
  exact ⟨fun _ => ⟨by simp [Prog.start], rfl, rfl, rfl⟩, fun _ => rfl, (fun h => by cases h), (fun h => by cases h), (fun h => by cases h),
    (fun h => by rcases h with h | h | h <;> cases h), (fun h => by rcases h with h | h <;> cases h), (fun h => by cases h)⟩

theorem Reached.life {s : Prog} (h : Reached lib s) : Life s := by
  obtain ⟨cfg, r, fs, seeds, lk, ls, R, hs⟩ := h
  have I := Life.start cfg r.db fs seeds lk ls
  clear R
  induction hs with
  | refl => exact I
  | step _ e he ih => exact ih.step he

/-! ### paths -/

theorem Path.reaches {s s' : Prog} {es : List Ev} (h : Path lib s es s') : Reaches lib s s' := by
  induction h with
  | nil => exact .refl
  | snoc _ e he ih => exact ih.step e he

theorem Path.cons {s s1 s' : Prog} {e : Ev} {es : List Ev} (he : s.step lib e = some (.ok s1)) (h : Path lib s1 es s') :
    Path lib s (e :: es) s' := by
  induction h with
  | nil => exact .snoc .nil e he
  | snoc _ e' he' ih => exact .snoc ih e' he'

theorem Alive.reached {g : ProtoBlock} {n : Nat} {s : Prog} (h : Alive lib g n s) : Reached lib s := by
  induction h with
  | start hr hs cfg fs seeds lsn => exact ⟨cfg, _, fs, seeds, _, lsn, hr, .refl⟩
  | step e _ hs ih => exact ih.step hs

theorem _root_.Verif.Loading.Running.mono {g : ProtoBlock} {n m : Nat} {l : Loader} (h : Loading.Running lib g m l) (hn : n ≤ m) :
    Loading.Running lib g n l := by
  induction h generalizing n with
  | start hr hs => exact .start hr (hs.mono hn)
  | step e _ hs ih => exact .step e (ih (Nat.add_le_add_right hn _)) hs

/-- the room that the event of the loader takes -/
theorem cost_loaderEv {s : Prog} {e : Ev} {ctx0 : Ctx} {le : Loading.Event} (he : s.loaderEv ctx0 e = some le) :
    Loading.cost s.l le ≤ s.cost e := by
  cases e with
  | message c p m =>
    simp only [Prog.loaderEv, Option.map_eq_some_iff] at he
    obtain ⟨o, ho, rfl⟩ := he
    cases m with
    | block b =>
      cases b with
      | none => cases ho
      | some b =>
        simp only [messageEv, Option.map_eq_some_iff] at ho; obtain ⟨a', _, rfl⟩ := ho; exact Nat.le_refl _
    | pbBlock b =>
      cases b with
      | none => cases ho
      | some b =>
        simp only [messageEv, Option.map_eq_some_iff] at ho; obtain ⟨a', _, rfl⟩ := ho; exact Nat.le_refl _
    | microBlockInv inv =>
      cases inv with
      | none => cases ho
      | some b =>
        simp only [messageEv, Option.map_eq_some_iff] at ho; obtain ⟨a', _, rfl⟩ := ho; exact Nat.le_refl _
    | peers ps => cases ho; exact Nat.le_refl _
    | score sc => simp only [messageEv, Option.map_eq_some_iff] at ho; obtain ⟨a', _, rfl⟩ := ho; exact Nat.le_refl _
    | _ => cases ho
  | connected c p => simp only [Prog.loaderEv, Option.map_eq_some_iff] at he; obtain ⟨a, _, rfl⟩ := he; exact Nat.le_refl _
  | broken c p => simp only [Prog.loaderEv, Option.map_eq_some_iff] at he; obtain ⟨a, _, rfl⟩ := he; exact Nat.le_refl _
  | take c =>
    simp only [Prog.loaderEv] at he
    split at he
    · cases he; exact Nat.zero_le _
    · rename_i hd
      cases he; simp only [Prog.cost, hd]; exact Nat.le_refl _
    · cases he
  | respawn now rf =>
    simp only [Prog.loaderEv] at he
    split at he <;> cases he
    exact Nat.le_refl _
  | tick c => cases he; exact Nat.le_refl _
  | timer c => cases he; exact Nat.le_refl _
  | suggest f now a => cases he; exact Nat.le_refl _
  | giveUp f now a => cases he; exact Nat.le_refl _
  | _ => cases he

theorem Alive.running {g : ProtoBlock} {n : Nat} {s : Prog} (h : Alive lib g n s) : Loading.Running lib g n s.l := by
  induction h with
  | @start n r lk hr hs cfg fs seeds lsn => exact .start ((hr.step ⟨0, .reopen cfg⟩).step ⟨0, .append fs seeds⟩) hs
  | @step n s s' e h hs ih =>
    have hl := step_loader (Loading.Ex.ctx 0) hs
    cases he : s.loaderEv (Loading.Ex.ctx 0) e with
    | none =>
      rw [he] at hl
      rw [show s'.l = s.l from hl]
      exact ih.mono (Nat.le_add_right _ _)
    | some le =>
      rw [he] at hl
      refine .step le (ih.mono ?_) hl
      exact Nat.add_le_add_left (cost_loaderEv he) _

/-! ### shutdown -/

/-- how many closing events are left -/
def Lsn.rank : Lsn → Nat
  | .starting => 1
  | .listening => 1
  | _ => 0

def Main.rank : Main → Nat
  | .waiting => 6
  | .api => 5
  | .listener => 4
  | .respawn => 3
  | .loader => 2
  | .distributor => 1
  | .exited => 0

def Prog.rank (s : Prog) : Nat :=
  s.main.rank + s.lsn.rank + (if s.apiUp then 1 else 0) + (if s.respawnUp then 1 else 0) + (if s.loaderUp then 1 else 0) +
    (if s.dist = .exited then 0 else 1)

theorem rank_step {s s' : Prog} {e : Ev} (h : s.step lib e = some (.ok s')) :
    s'.rank + (if e.closing then 1 else 0) ≤ s.rank := by
  obtain ⟨_, hc⟩ := step_case h
  cases hc with
  | @handled _ _ x hd hh _ =>
    have hcl : e.closing = false := by cases hh <;> rfl
    simp only [Prog.rank, hcl, hd]
    simp
    split <;> simp
  | take c p l' hd _ _ => simp [Prog.rank, Ev.closing, hd]
  | distExit _ hd => simp [Prog.rank, Ev.closing, hd]
  | tick => simp [Prog.rank, Ev.closing]
  | timer => simp [Prog.rank, Ev.closing]
  | loaderExit _ hu => simp [Prog.rank, Ev.closing, hu]; omega
  | respawn now rf hu ha =>
    obtain ⟨e1, e2, e3, e4, e5, e6, e7, _, _, _⟩ := respawn_frame s now rf
    simp [Prog.rank, Ev.closing, e1, e3, e4, e5, e6, e7]
  | respawnExit _ hu => simp [Prog.rank, Ev.closing, hu]; omega
  | refused => simp [Prog.rank, Ev.closing]
  | suggested => simp [Prog.rank, Ev.closing]
  | giveUp => simp [Prog.rank, Ev.closing]
  | listen ok hl =>
    have : (if ok = true then Lsn.listening else Lsn.failed).rank ≤ 1 := by cases ok <;> simp [Lsn.rank]
    simp only [Prog.rank, Ev.closing, hl]
    simp only [Lsn.rank] at this ⊢
    simp
    omega
  | listenerExit conn hl _ _ => simp [Prog.rank, Ev.closing, hl, Lsn.rank]; omega
  | apiExit hu _ => simp [Prog.rank, Ev.closing, hu]; omega
  | signal => simp [Prog.rank, Ev.closing]
  | mainWaiting hm _ => simp [Prog.rank, Ev.closing, hm, Main.rank]; omega
  | mainApi hm _ _ => simp [Prog.rank, Ev.closing, hm, Main.rank]; omega
  | mainOff hm _ _ => simp [Prog.rank, Ev.closing, hm, Main.rank]; omega
  | mainListener hm _ => simp [Prog.rank, Ev.closing, hm, Main.rank]; omega
  | mainRespawn hm _ => simp [Prog.rank, Ev.closing, hm, Main.rank]; omega
  | mainLoader hm _ => simp [Prog.rank, Ev.closing, hm, Main.rank]; omega
  | mainDistributor hm _ => simp [Prog.rank, Ev.closing, hm, Main.rank]; omega

/-- while the distributor is not sending there is always a closing event -/
theorem closing_enabled {s : Prog} (L : Life s) (hc : s.cancelled = true) (hm : s.main ≠ .exited)
    (hl : s.lsn ≠ .starting) (hf : s.lsn ≠ .failed) (hd : ∀ p, s.dist ≠ .sending p) :
    ∃ e s', e.closing = true ∧ s.step lib e = some (.ok s') ∧ s'.cancelled = true ∧ s'.lsn ≠ .starting ∧ s'.lsn ≠ .failed ∧
      ∀ p, s'.dist ≠ .sending p := by
  cases hm' : s.main with
  | waiting => exact ⟨.main, { s with main := .api }, rfl, by simp [Prog.step, Prog.mainStep, hm', hc], hc, hl, hf, hd⟩
  | api =>
    cases hu : s.apiUp with
    | true => exact ⟨.apiExit, { s with apiUp := false }, rfl, by simp [Prog.step, guarded, hm', hu], hc, hl, hf, hd⟩
    | false =>
      cases hl' : s.lsn with
      | starting => exact absurd hl' hl
      | failed => exact absurd hl' hf
      | off => exact ⟨.main, { s with main := .respawn }, rfl, by simp [Prog.step, Prog.mainStep, hm', hu, hl'], hc, hl, hf, hd⟩
      | listening => exact ⟨.main, { s with main := .listener }, rfl, by simp [Prog.step, Prog.mainStep, hm', hu, hl'], hc, hl, hf, hd⟩
      | exited => exact ⟨.main, { s with main := .listener }, rfl, by simp [Prog.step, Prog.mainStep, hm', hu, hl'], hc, hl, hf, hd⟩
  | listener =>
    cases hl' : s.lsn with
    | starting => exact absurd hl' hl
    | failed => exact absurd hl' hf
    | off => exact absurd hl' (L.listener hm')
    | listening =>
      exact ⟨.listenerExit false, { s with lsn := .exited }, rfl, by simp [Prog.step, guarded, hm', hl', hc, Main.closed], hc, by simp, by simp, hd⟩
    | exited => exact ⟨.main, { s with main := .respawn }, rfl, by simp [Prog.step, Prog.mainStep, hm', hl'], hc, hl, hf, hd⟩
  | respawn =>
    cases hu : s.respawnUp with
    | true => exact ⟨.respawnExit, { s with respawnUp := false }, rfl, by simp [Prog.step, guarded, hm', hu, hc], hc, hl, hf, hd⟩
    | false => exact ⟨.main, { s with main := .loader }, rfl, by simp [Prog.step, Prog.mainStep, hm', hu], hc, hl, hf, hd⟩
  | loader =>
    cases hu : s.loaderUp with
    | true => exact ⟨.loaderExit, { s with loaderUp := false }, rfl, by simp [Prog.step, guarded, hm', hu, hc], hc, hl, hf, hd⟩
    | false => exact ⟨.main, { s with main := .distributor }, rfl, by simp [Prog.step, Prog.mainStep, hm', hu], hc, hl, hf, hd⟩
  | distributor =>
    cases hd' : s.dist with
    | sending p => exact absurd hd' (hd p)
    | ready => exact ⟨.distExit, { s with dist := .exited }, rfl, by simp [Prog.step, guarded, hm', hd', hc], hc, hl, hf, by simp⟩
    | exited => exact ⟨.main, { s with main := .exited }, rfl, by simp [Prog.step, Prog.mainStep, hm', hd'], hc, hl, hf, hd⟩
  | exited => exact absurd hm' hm

theorem can_exit {s : Prog} (L : Life s) (hc : s.cancelled = true) (hl : s.lsn ≠ .starting) (hf : s.lsn ≠ .failed)
    (hd : ∀ p, s.dist ≠ .sending p) : ∃ s', Reaches lib s s' ∧ s'.main = .exited := by
  generalize hn : s.rank = n
  induction n using Nat.strongRecOn generalizing s with
  | ind n ih =>
    by_cases hm : s.main = .exited
    · exact ⟨s, .refl, hm⟩
    · obtain ⟨e, s1, hcl, hs, h1, h2, h3, h4⟩ := closing_enabled (lib := lib) L hc hm hl hf hd
      have hr := rank_step hs
      rw [hcl] at hr
      obtain ⟨s', h', hx⟩ := ih s1.rank (by simp at hr; omega) (L.step hs) h1 h2 h3 h4 rfl
      exact ⟨s', (Reaches.step .refl e hs).trans h', hx⟩

theorem stuck_step {s s' : Prog} {e : Ev} (hm : s.main ≠ .exited) (hs : s.Stuck) (h : s.step lib e = some (.ok s')) :
    s'.main ≠ .exited ∧ s'.Stuck := by
  obtain ⟨hu, p, hd⟩ := hs
  obtain ⟨_, hc⟩ := step_case h
  cases hc with
  | handled hd' _ _ => rw [hd] at hd'; cases hd'
  | take c p' l' hd' hu' _ => rw [hu] at hu'; cases hu'
  | distExit _ hd' => rw [hd] at hd'; cases hd'
  | loaderExit _ _ => exact ⟨hm, rfl, p, hd⟩
  | respawn now rf _ _ =>
    obtain ⟨e1, e2, e3, e4, e5, e6, e7, _, _, _⟩ := respawn_frame s now rf
    exact ⟨by rw [e7]; exact hm, by rw [e6]; exact hu, p, by rw [e1]; exact hd⟩
  | mainDistributor _ hd' => rw [hd] at hd'; cases hd'
  | mainWaiting => exact ⟨by simp, hu, p, hd⟩
  | mainApi => exact ⟨by simp, hu, p, hd⟩
  | mainOff => exact ⟨by simp, hu, p, hd⟩
  | mainListener => exact ⟨by simp, hu, p, hd⟩
  | mainRespawn => exact ⟨by simp, hu, p, hd⟩
  | mainLoader => exact ⟨by simp, hu, p, hd⟩
  | _ => exact ⟨hm, hu, p, hd⟩

theorem stuck_reaches {s s' : Prog} (hm : s.main ≠ .exited) (hs : s.Stuck) (h : Reaches lib s s') :
    s'.main ≠ .exited ∧ s'.Stuck := by
  induction h with
  | refl => exact ⟨hm, hs⟩
  | step _ e he ih => exact stuck_step ih.1 ih.2 he

/-- without a network listener the program does not end regularly -/
theorem failed_step {s s' : Prog} {e : Ev} (hm : s.main = .waiting ∨ s.main = .api) (hl : s.lsn = .failed)
    (h : s.step lib e = some (.ok s')) : (s'.main = .waiting ∨ s'.main = .api) ∧ s'.lsn = .failed := by
  obtain ⟨_, hc⟩ := step_case h
  have ne : ∀ {m : Main}, s.main = m → m = .waiting ∨ m = .api := fun e => e ▸ hm
  cases hc with
  | respawn now rf _ _ =>
    obtain ⟨e1, e2, e3, e4, e5, e6, e7, _, _, _⟩ := respawn_frame s now rf
    exact ⟨by rw [e7]; exact hm, by rw [e4]; exact hl⟩
  | listen ok hl' => rw [hl] at hl'; cases hl'
  | listenerExit conn hl' _ _ => rw [hl] at hl'; cases hl'
  | mainWaiting => exact ⟨Or.inr rfl, hl⟩
  | mainApi _ _ hl' => rw [hl] at hl'; rcases hl' with h | h <;> cases h
  | mainOff _ _ hl' => rw [hl] at hl'; cases hl'
  | mainListener _ hl' => rw [hl] at hl'; cases hl'
  | mainRespawn hm' _ => rcases ne hm' with h | h <;> cases h
  | mainLoader hm' _ => rcases ne hm' with h | h <;> cases h
  | mainDistributor hm' _ => rcases ne hm' with h | h <;> cases h
  | _ => exact ⟨hm, hl⟩

theorem failed_reaches {s s' : Prog} (hm : s.main = .waiting ∨ s.main = .api) (hl : s.lsn = .failed)
    (h : Reaches lib s s') : s'.main = .waiting ∨ s'.main = .api := by
  suffices (s'.main = .waiting ∨ s'.main = .api) ∧ s'.lsn = .failed from this.1
  induction h with
  | refl => exact ⟨hm, hl⟩
  | step _ e he ih => exact failed_step ih.1 ih.2 he

end Verif.Services
