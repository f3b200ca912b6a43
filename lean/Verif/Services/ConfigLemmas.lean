import Verif.Services.ProgramInv
import Verif.Services.PeerReports
import Verif.Services.ParamsLemmas
import Verif.Services.MessageLemmas
import Verif.Peers.Config
/-
The configuration and the clock in executions of the program.
-/

set_option autoImplicit false

namespace Verif.Services

open Verif
open Verif.Chains (Addr BytesN Linkage)
open Verif.Peers (Conn Registry Lib AddrPort Config)
open Verif.Loading (Ctx Loader)
open Verif.KV (Fate)

variable {lib : Lib}

/-- the reading of the clock that comes with an event -/
def Ev.at : Ev → Option Int
  | .message c _ _ => some c.now
  | .connected c _ => some c.now
  | .broken c _ => some c.now
  | .ping c => some c.now
  | .take c => some c.now
  | .tick c => some c.now
  | .timer c => some c.now
  | .respawn now _ => some now
  | .suggest _ now _ => some now
  | .giveUp _ now _ => some now
  | _ => none

/-- the registry is not opened again, and its calls read the clock of the event -/
theorem loaderEv_registry {s : Prog} {ctx0 c : Ctx} {e : Ev} {ev : Peers.Event} (he : s.loaderEv ctx0 e = some ⟨c, .registry ev⟩) :
    (∀ cf, ev.op ≠ .reopen cf) ∧ e.at = some ev.now := by
  cases e with
  | message c' p m =>
    simp only [Prog.loaderEv, Option.map_eq_some_iff] at he
    obtain ⟨o, ho, he⟩ := he
    cases he
    cases m with
    | peers ps =>
      simp only [messageEv, Option.some.injEq, Loading.Op.registry.injEq] at ho
      subst ho
      exact ⟨fun cf h => (by cases h), rfl⟩
    | score sc =>
      simp only [messageEv, Option.map_eq_some_iff] at ho
      obtain ⟨a', _, ho⟩ := ho
      cases ho
      exact ⟨fun cf h => (by cases h), rfl⟩
    | block b =>
      cases b with
      | none => cases ho
      | some b => simp only [messageEv, Option.map_eq_some_iff] at ho; obtain ⟨a', _, ho⟩ := ho; cases ho
    | pbBlock b =>
      cases b with
      | none => cases ho
      | some b => simp only [messageEv, Option.map_eq_some_iff] at ho; obtain ⟨a', _, ho⟩ := ho; cases ho
    | microBlockInv inv =>
      cases inv with
      | none => cases ho
      | some b => simp only [messageEv, Option.map_eq_some_iff] at ho; obtain ⟨a', _, ho⟩ := ho; cases ho
    | _ => cases ho
  | connected c' p =>
    simp only [Prog.loaderEv, Option.map_eq_some_iff] at he
    obtain ⟨a', ha, he⟩ := he
    cases he
    exact ⟨fun cf h => (by cases h), rfl⟩
  | broken c' p =>
    simp only [Prog.loaderEv, Option.map_eq_some_iff] at he
    obtain ⟨a', ha, he⟩ := he
    cases he
    exact ⟨fun cf h => (by cases h), rfl⟩
  | take c' =>
    simp only [Prog.loaderEv] at he
    split at he <;> cases he
  | respawn now rf =>
    simp only [Prog.loaderEv] at he
    split at he
    · cases he
    · cases he; exact ⟨fun cf h => (by cases h), rfl⟩
  | tick c' => cases he
  | timer c' => cases he
  | suggest f' now a' => cases he; exact ⟨fun cf h => (by cases h), rfl⟩
  | giveUp f' now a' => cases he; exact ⟨fun cf h => (by cases h), rfl⟩
  | _ => cases he

/-- what an event does to the registry -/
theorem step_registry {s s' : Prog} {e : Ev} (I : Loading.Inv lib s.l) (h : s.step lib e = some (.ok s')) :
    s'.l.reg = s.l.reg ∨ ∃ ev, s'.l.reg = Peers.step lib s.l.reg ev ∧ (∀ cf, ev.op ≠ .reopen cf) ∧ e.at = some ev.now := by
  have hl := step_loader (Loading.Ex.ctx 0) h
  cases he : s.loaderEv (Loading.Ex.ctx 0) e with
  | none => rw [he] at hl; left; exact congrArg Loader.reg hl
  | some le =>
    rw [he] at hl
    rcases reg_step I hl with hr | ⟨c, ev, rfl, hr⟩
    · exact Or.inl hr
    · exact Or.inr ⟨ev, hr, loaderEv_registry he⟩

/-- the configuration of the registry is the one it was started with, and connections are with peers of its network -/
theorem configured {cfg : Config} {r : Registry} (R : Peers.Reachable lib r) {fs : Nat → Fate} {seeds : List (Option AddrPort)}
    {lk : Linkage} {lsn : Bool} {s : Prog} (h : Reaches lib (Prog.start cfg r.db fs seeds lk lsn) s) :
    s.l.reg.scheme = cfg.scheme ∧ s.l.reg.declared = cfg.declared ∧ s.l.reg.versions = Peers.newVersions cfg.versions ∧
    Peers.SameNetwork s.l.reg := by
  have I0 := PInv.start (lib := lib) cfg R fs seeds lk lsn
  induction h with
  | refl =>
    have G : Peers.Good (Peers.NewRegistry cfg r.db).db := R.inv.good
    obtain ⟨_, db', h⟩ := Peers.append_good (fs := fs) (l := seeds) G
    have : (Prog.start cfg r.db fs seeds lk lsn).l.reg = { Peers.NewRegistry cfg r.db with db := db' } := h
    rw [this]
    exact ⟨rfl, rfl, rfl, fun a c hm => by cases hm⟩
  | step h1 e he ih =>
    have I := (PInv.reaches I0 h1).loader.inv
    rcases step_registry I he with hr | ⟨ev, hr, hop, _⟩
    · rw [hr]; exact ih
    · have hc := Peers.step_config (lib := lib) I.reg.inv.good hop
      rw [hr]
      refine ⟨hc.2.2.trans ih.1, hc.1.trans ih.2.1, hc.2.1.trans ih.2.2.1, ih.2.2.2.step I.reg.inv ev⟩

/-- the program was started on a database of peers that was written, and has run since then, with a clock that showed the years 1970 to 9999 -/
def Timely (lib : Lib) (s : Prog) : Prop :=
  ∃ c es0 cfg fs seeds lk lsn es, (∀ e : Peers.Event, e ∈ es0 → Peers.Near e.now) ∧
    Path lib (Prog.start cfg (Peers.exec lib (Peers.NewRegistry c []) es0).db fs seeds lk lsn) es s ∧
    ∀ e : Ev, e ∈ es → ∀ t, e.at = some t → Peers.Near t

theorem Timely.reached {s : Prog} (h : Timely lib s) : Reached lib s := by
  obtain ⟨c, es0, cfg, fs, seeds, lk, lsn, es, _, hp, _⟩ := h
  exact ⟨cfg, _, fs, seeds, lk, lsn, ⟨c, es0, rfl⟩, hp.reaches⟩

theorem Timely.onTime {s : Prog} (h : Timely lib s) : Peers.OnTime s.l.reg.db := by
  obtain ⟨c, es0, cfg, fs, seeds, lk, lsn, es, h0, hp, ht⟩ := h
  have R : Peers.Reachable lib (Peers.exec lib (Peers.NewRegistry c []) es0) := ⟨c, es0, rfl⟩
  have I0 := PInv.start (lib := lib) cfg R fs seeds lk lsn
  have hdb : Peers.OnTime (Peers.exec lib (Peers.NewRegistry c []) es0).db :=
    Peers.OnTime.exec (Peers.Inv.start c) (fun b v hv => by simp [Peers.NewRegistry, Peers.view, KV.get] at hv) es0 h0
  induction hp with
  | nil =>
    have R2 : Peers.Reachable lib (Peers.NewRegistry cfg (Peers.exec lib (Peers.NewRegistry c []) es0).db) :=
      R.step ⟨0, .reopen cfg⟩
    have : Peers.OnTime (Peers.step lib (Peers.NewRegistry cfg (Peers.exec lib (Peers.NewRegistry c []) es0).db) ⟨0, .append fs seeds⟩).db :=
      Peers.OnTime.step R2.inv.good hdb (by simp [Peers.Near, Peers.second])
    exact this
  | snoc h1 e he ih =>
    have I := (PInv.reaches I0 h1.reaches).loader.inv
    have ih := ih (fun e' he' => ht e' (by simp [he']))
    rcases step_registry I he with hr | ⟨ev, hr, _, hat⟩
    · rw [hr]; exact ih
    · rw [hr]
      exact ih.step I.reg.inv.good (ht e (by simp) _ hat)

/-- where the parts of accepted parameters come from -/
theorem params_from {o : Opts} {f : Flags} {p : Params} (hp : o.newParameters f = .ok p) :
    ∃ n, o.network f.network = some n ∧ p.scheme = n.scheme ∧
      ∀ da b, o.parse f.declared = some da → Fits da.addr b → p.declared = some (b, da.port) := by
  unfold Opts.newParameters at hp
  split at hp
  · cases hp
  · split at hp
    · cases hp
    · rename_i n hn
      obtain ⟨_, _, hp⟩ := go_bind_eq_ok.mp hp
      obtain ⟨_, _, hp⟩ := go_bind_eq_ok.mp hp
      obtain ⟨_, _, hp⟩ := go_bind_eq_ok.mp hp
      obtain ⟨_, _, hp⟩ := go_bind_eq_ok.mp hp
      obtain ⟨_, _, hp⟩ := go_bind_eq_ok.mp hp
      obtain ⟨_, _, hp⟩ := go_bind_eq_ok.mp hp
      obtain ⟨d, hd, hp⟩ := go_bind_eq_ok.mp hp
      cases hp
      refine ⟨n, hn, rfl, fun da b hda hb => ?_⟩
      unfold Opts.parseAddress at hd
      rw [hda] at hd
      dsimp only at hd
      rw [as4_fits.mpr hb] at hd
      cases hd; rfl

theorem split_ne_nil (s : List Char) : split s ≠ [] := by
  cases s with
  | nil => simp [split]
  | cons c s =>
    rw [split]
    split
    · simp
    · split <;> simp

theorem versions_nonempty {o : Opts} {f : Flags} {p : Params} (hp : o.newParameters f = .ok p) : p.versions ≠ [] := by
  unfold Opts.newParameters at hp
  split at hp
  · cases hp
  · split at hp
    · cases hp
    · obtain ⟨_, _, hp⟩ := go_bind_eq_ok.mp hp
      obtain ⟨vs, hvs, hp⟩ := go_bind_eq_ok.mp hp
      obtain ⟨_, _, hp⟩ := go_bind_eq_ok.mp hp
      obtain ⟨_, _, hp⟩ := go_bind_eq_ok.mp hp
      obtain ⟨_, _, hp⟩ := go_bind_eq_ok.mp hp
      obtain ⟨_, _, hp⟩ := go_bind_eq_ok.mp hp
      obtain ⟨d, hd, hp⟩ := go_bind_eq_ok.mp hp
      cases hp
      show vs ≠ []
      unfold Opts.parseVersions at hvs
      cases hsp : split f.versions with
      | nil => exact absurd hsp (split_ne_nil _)
      | cons x xs =>
        rw [hsp, Opts.versionLoop] at hvs
        split at hvs
        · cases hvs
        · obtain ⟨_, _, hvs⟩ := go_bind_eq_ok.mp hvs
          cases hvs; simp

theorem goIndex_not_panic {α : Type} {l : List α} {i : Nat} (h : i < l.length) : goIndex l i ≠ goPanic := by
  unfold goIndex
  rw [List.getElem?_eq_getElem h]
  simp [goPanic]

theorem suggest_not_panic {f : Fate} {now : Int} {r : Registry} {a : Addr} (hne : r.versions ≠ []) (ha : a ≠ .zero) :
    (Peers.SuggestVersion f now r a).2 ≠ goPanic := by
  have hpos : 0 < r.versions.length := List.length_pos_iff.mpr hne
  have bind : ∀ (x : Go Unit) (ver : Peers.Version), x ≠ goPanic → (do let _ ← x; Except.ok ver : Go Peers.Version) ≠ goPanic := by
    intro x ver hx
    cases x with
    | ok u => intro h; cases h
    | error e => exact fun h => hx (by cases h; rfl)
  unfold Peers.SuggestVersion
  have hp := peer_not_panic (db := r.db) ha
  split
  · split
    · rename_i e hb
      exact fun h => goIndex_not_panic hpos (by rw [← h]; exact hb)
    · exact bind _ _ (putPeer_not_panic _ _ _)
  · rename_i e _ he
    exact fun h => hp (by rw [he]; cases h; rfl)
  · split
    · split
      · rename_i e hb
        intro h
        have hb : Peers.nextVersion r.versions _ = _ := hb
        unfold Peers.nextVersion at hb
        dsimp only at hb
        split at hb
        · exact goIndex_not_panic hpos (hb.trans h)
        · rename_i hlt
          refine goIndex_not_panic ?_ (hb.trans h)
          omega
      · exact bind _ _ (putPeer_not_panic _ _ _)
    · intro h; cases h
    · intro h; cases h

end Verif.Services
