import Verif.Services.ConfigLemmas
import Verif.Peers.Ports
/-
Where the addresses that the program dials come from.
-/

set_option autoImplicit false

namespace Verif.Services

open Verif
open Verif.Chains (Addr BytesN Linkage)
open Verif.Peers (Registry Lib AddrPort Config view)
open Verif.Loading (Ctx)
open Verif.KV (Fate)

variable {lib : Lib}

/-- somebody named the address in the event: a peer in a list of peers, or the peer itself in its handshake, and then the
connection was from that address -/
def Ev.Tells (ap : AddrPort) (e : Ev) : Prop :=
  (∃ c p l, e = .message c p (.peers l) ∧ some ap ∈ l) ∨
    ∃ c p, e = .connected c p ∧ p.remote = some ap.addr ∧ p.conn.handshake.declared = .addrPort ap

theorem loaderEv_names {s : Prog} {ctx0 c : Ctx} {e : Ev} {ev : Peers.Event} {ap : AddrPort}
    (he : s.loaderEv ctx0 e = some ⟨c, .registry ev⟩) (hn : ev.names ap) : e.Tells ap := by
  cases e with
  | message c' p m =>
    simp only [Prog.loaderEv, Option.map_eq_some_iff] at he
    obtain ⟨o, ho, he⟩ := he
    cases he
    cases m with
    | peers ps =>
      simp only [messageEv, Option.some.injEq, Loading.Op.registry.injEq] at ho; subst ho
      simp only [Peers.Event.names, List.mem_map, Option.some.injEq, List.mem_filterMap] at hn
      obtain ⟨x, ⟨y, hy, hxy⟩, rfl⟩ := hn
      have : y = some x := hxy
      exact Or.inl ⟨_, p, ps, rfl, this ▸ hy⟩
    | score sc =>
      simp only [messageEv, Option.map_eq_some_iff] at ho
      obtain ⟨a', _, ho⟩ := ho
      cases ho; exact hn.elim
    | block b =>
      cases b with
      | none => cases ho
      | some b => simp only [messageEv, Option.map_eq_some_iff] at ho; obtain ⟨a', _, ho⟩ := ho; cases ho
    | pbBlock b =>
      cases b with
      | none => cases ho
      | some b => simp only [messageEv, Option.map_eq_some_iff] at ho; obtain ⟨a', _, ho⟩ := ho; cases ho
    | microBlockInv inv =>
      cases inv with
      | none => cases ho
      | some b => simp only [messageEv, Option.map_eq_some_iff] at ho; obtain ⟨a', _, ho⟩ := ho; cases ho
    | _ => cases ho
  | connected c' p =>
    simp only [Prog.loaderEv, Option.map_eq_some_iff] at he
    obtain ⟨a', ha, he⟩ := he
    cases he
    obtain ⟨h1, h2⟩ := hn
    subst h1
    exact Or.inr ⟨_, p, rfl, ha, h2⟩
  | broken c' p =>
    simp only [Prog.loaderEv, Option.map_eq_some_iff] at he
    obtain ⟨a', ha, he⟩ := he
    cases he
    exact hn.elim
  | take c' =>
    simp only [Prog.loaderEv] at he
    split at he <;> cases he
  | respawn now rf =>
    simp only [Prog.loaderEv] at he
    split at he
    · cases he
    · cases he; exact hn.elim
  | tick c' => cases he
  | timer c' => cases he
  | suggest f' now a' => cases he; exact hn.elim
  | giveUp f' now a' => cases he; exact hn.elim
  | _ => cases he

/-- where an address with its port comes from -/
def Known (cfg : Config) (r : Registry) (seeds : List (Option AddrPort)) (es : List Ev) (ap : AddrPort) : Prop :=
  (∃ p, Peers.PeerOf (Peers.NewRegistry cfg r.db) ap.addr = .ok p ∧ p.port = ap.port) ∨ some ap ∈ seeds ∨ ∃ e, e ∈ es ∧ e.Tells ap

theorem Known.mono {cfg : Config} {r : Registry} {seeds : List (Option AddrPort)} {es : List Ev} {ap : AddrPort}
    (h : Known cfg r seeds es ap) (e : Ev) : Known cfg r seeds (es ++ [e]) ap := by
  rcases h with h | h | ⟨e', he, h⟩
  · exact Or.inl h
  · exact Or.inr (Or.inl h)
  · exact Or.inr (Or.inr ⟨e', List.mem_append_left _ he, h⟩)

/-- the ports on record and the dialled addresses are known -/
structure Dials (cfg : Config) (r : Registry) (seeds : List (Option AddrPort)) (es : List Ev) (s : Prog) : Prop where
  port : ∀ b v, view s.l.reg.db b = some v → v.port ≠ 0 → Known cfg r seeds es ⟨.v4 b, v.port⟩
  loop : Peers.NoLoopback s.l.reg
  own : s.l.reg.declared = cfg.declared
  dialled : ∀ ap, ap ∈ s.dialled → Known cfg r seeds es ap ∧ Peers.is4 ap.addr = true ∧ ap.port ≠ 0 ∧
    Peers.isLoopback ap.addr = false ∧ ap.addr ≠ cfg.declared

/-- the dialled addresses after an event -/
theorem step_dialled {s s' : Prog} {e : Ev} (h : s.step lib e = some (.ok s')) {ap : AddrPort} (ha : ap ∈ s'.dialled) :
    ap ∈ s.dialled ∨ ∃ now l, (Peers.TakeAvailableAddresses now s.l.reg).2 = .ok l ∧ ap ∈ l := by
  obtain ⟨_, hc⟩ := step_case h
  cases hc with
  | respawn now rf hu hr =>
    unfold Prog.respawn at ha
    split at ha
    · exact Or.inl ha
    · simp only at ha
      split at ha
      · exact Or.inl ha
      · rename_i as has
        rcases List.mem_append.mp ha with h | h
        · exact Or.inl h
        · exact Or.inr ⟨now, as, has, h⟩
  | _ => exact Or.inl ha

theorem path_reached {cfg : Config} {r : Registry} (R : Peers.Reachable lib r) {fs : Nat → Fate} {seeds : List (Option AddrPort)}
    {lk : Linkage} {lsn : Bool} {es : List Ev} {s : Prog} (h : Path lib (Prog.start cfg r.db fs seeds lk lsn) es s) : Reached lib s := by
  refine ⟨cfg, r, fs, seeds, lk, lsn, R, ?_⟩
  induction h with
  | nil => exact .refl
  | snoc _ e he ih => exact .step ih e he

theorem Dials.path {cfg : Config} {r : Registry} (R : Peers.Reachable lib r) {fs : Nat → Fate} {seeds : List (Option AddrPort)}
    {lk : Linkage} {lsn : Bool} {es : List Ev} {s : Prog} (h : Path lib (Prog.start cfg r.db fs seeds lk lsn) es s) :
    Dials cfg r seeds es s := by
  induction h with
  | nil =>
    have R0 : Peers.Reachable lib (Peers.NewRegistry cfg r.db) := R.step ⟨0, .reopen cfg⟩
    have hG := R0.inv.good
    have hstep : (Prog.start cfg r.db fs seeds lk lsn).l.reg = Peers.step lib (Peers.NewRegistry cfg r.db) ⟨0, .append fs seeds⟩ := rfl
    refine ⟨?_, ?_, ?_, fun ap ha => by cases ha⟩
    · intro b v hv hp
      rw [hstep] at hv
      rcases Peers.step_port hG hv hp with ⟨v0, h0, h1⟩ | ⟨hn, _⟩
      · exact Or.inl ⟨v0.toPeer (.v4 b), R0.inv.peerOf.mpr ⟨v0, h0, rfl⟩, h1⟩
      · exact Or.inr (Or.inl hn)
    · rw [hstep]; exact R0.noLoopback.step hG _
    · rw [hstep]; exact (Peers.step_config (lib := lib) hG (fun c h => by cases h)).1
  | @snoc es s s' h e he ih =>
    have I := (path_reached R h).inv.loader.inv
    have G := I.reg.inv.good
    have hl := step_loader (Loading.Ex.ctx 0) he
    have hport : (∀ b v, view s'.l.reg.db b = some v → v.port ≠ 0 → Known cfg r seeds (es ++ [e]) ⟨.v4 b, v.port⟩) ∧
        Peers.NoLoopback s'.l.reg ∧ s'.l.reg.declared = cfg.declared := by
      have same : s'.l.reg = s.l.reg → _ := fun hr => (⟨fun b v hv hp => (ih.port b v (hr ▸ hv) hp).mono e, hr ▸ ih.loop, hr ▸ ih.own⟩ :
        (∀ b v, view s'.l.reg.db b = some v → v.port ≠ 0 → Known cfg r seeds (es ++ [e]) ⟨.v4 b, v.port⟩) ∧
        Peers.NoLoopback s'.l.reg ∧ s'.l.reg.declared = cfg.declared)
      cases hle : s.loaderEv (Loading.Ex.ctx 0) e with
      | none => rw [hle] at hl; exact same (congrArg _ hl)
      | some le =>
        rw [hle] at hl
        rcases reg_step I hl with hr | ⟨c, ev, rfl, hr⟩
        · exact same hr
        · refine ⟨?_, ?_, ?_⟩
          · intro b v hv hp
            rw [hr] at hv
            rcases Peers.step_port G hv hp with ⟨v0, h0, h1⟩ | ⟨hn, _⟩
            · rw [← h1]; exact (ih.port b v0 h0 (h1 ▸ hp)).mono e
            · exact Or.inr (Or.inr ⟨e, by simp, loaderEv_names hle hn⟩)
          · rw [hr]; exact ih.loop.step G ev
          · rw [hr, (Peers.step_config (lib := lib) G (loaderEv_registry hle).1).1]; exact ih.own
    refine ⟨hport.1, hport.2.1, hport.2.2, ?_⟩
    intro ap hap
    rcases step_dialled he hap with h | ⟨now, l, hl, hm⟩
    · obtain ⟨h1, h2⟩ := ih.dialled ap h
      exact ⟨h1.mono e, h2⟩
    · obtain ⟨l', pend', h1, h2, _⟩ := I.reg.inv.take now
      rw [h1] at hl; cases hl
      obtain ⟨b, v, hv, ⟨_, g2, g3, _⟩, _, rfl⟩ := (h2 ap).mp hm
      exact ⟨(ih.port b v hv g2).mono e, rfl, g2, ih.loop b v hv g2, fun h => g3 (h.trans ih.own.symm)⟩

end Verif.Services
