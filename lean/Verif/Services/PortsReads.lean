import Verif.Services.ClosedReads
import Verif.Services.Ports
import Verif.Peers.Size
/-
Where the addresses that the program dials come from, with failing reads and with the loader at work.
-/

set_option autoImplicit false

namespace Verif.Services.Fine

open Verif
open Verif.Chains (Addr BytesN Linkage)
open Verif.Peers (Registry Lib AddrPort Config Event view)
open Verif.Loading (Ctx)
open Verif.Loading.Fine (Disk)
open Verif.KV (Fate)

variable {lib : Lib}

/-- what a call on a failing disk writes, a call on a good one writes that names no other addresses -/
theorem rd_db (F : Chains.Rd.Faults) (lib : Lib) {r : Registry} (I : Peers.Inv r) (e : Event) (hc : ∀ c, e.op ≠ .reopen c) :
    (Peers.Rd.step F lib r e).declared = r.declared ∧
    ∃ e' : Event, (∀ ap, e'.names ap → e.names ap) ∧ (∀ a, a ∈ Peers.named e'.op → a ∈ Peers.named e.op) ∧
      ((Peers.Rd.step F lib r e).db = r.db ∨ (Peers.Rd.step F lib r e).db = (Peers.step lib r e').db) := by
  have one : Peers.Rd.step F lib r e = Peers.step lib r e → _ := fun h =>
    (⟨by rw [h]; exact (Peers.step_config (lib := lib) I.good hc).1, e, fun _ h => h, fun _ h => h, Or.inr (by rw [h])⟩ :
      (Peers.Rd.step F lib r e).declared = r.declared ∧ ∃ e' : Event, (∀ ap, e'.names ap → e.names ap) ∧ (∀ a, a ∈ Peers.named e'.op → a ∈ Peers.named e.op) ∧
        ((Peers.Rd.step F lib r e).db = r.db ∨ (Peers.Rd.step F lib r e).db = (Peers.step lib r e').db))
  have same : (Peers.Rd.step F lib r e).db = r.db → (Peers.Rd.step F lib r e).declared = r.declared → _ := fun h h' =>
    (⟨h', e, fun _ h => h, fun _ h => h, Or.inl h⟩ :
      (Peers.Rd.step F lib r e).declared = r.declared ∧ ∃ e' : Event, (∀ ap, e'.names ap → e.names ap) ∧ (∀ a, a ∈ Peers.named e'.op → a ∈ Peers.named e.op) ∧
        ((Peers.Rd.step F lib r e).db = r.db ∨ (Peers.Rd.step F lib r e).db = (Peers.step lib r e').db))
  obtain ⟨now, op⟩ := e
  cases op with
  | register f a np h =>
    rcases Peers.Rd.register_safe F lib f now r a np h with h | h
    · exact one (congrArg Prod.fst h)
    · have h' := congrArg Prod.fst h
      exact same ((congrArg Registry.db h').trans rfl) ((congrArg Registry.declared h').trans rfl)
  | unregister f a =>
    rcases Peers.Rd.unregister_safe F f now r a with h | h
    · exact one (congrArg Prod.fst h)
    · have h' := congrArg Prod.fst h
      exact same ((congrArg Registry.db h').trans rfl) ((congrArg Registry.declared h').trans rfl)
  | markHostile f arg =>
    rcases Peers.Rd.mark_safe F f r arg with h | ⟨a, _, h⟩
    · exact one (congrArg Prod.fst h)
    · have h' := congrArg Prod.fst h
      exact same ((congrArg Registry.db h').trans rfl) ((congrArg Registry.declared h').trans rfl)
  | updateScore f a s =>
    rcases Peers.Rd.updateScore_safe F f r a s with h | h
    · exact one (congrArg Prod.fst h)
    · have h' := congrArg Prod.fst h
      exact same ((congrArg Registry.db h').trans rfl) ((congrArg Registry.declared h').trans rfl)
  | append fs l =>
    obtain ⟨k, _, h⟩ := Peers.Rd.appendLoop_take fs (l.map (fun x => (F, x))) r 0
    have h' : Peers.Rd.step F lib r ⟨now, .append fs l⟩ =
        Peers.step lib r ⟨now, .append fs (((l.map (fun x => (F, x))).map (·.2)).take k)⟩ := congrArg Prod.fst h
    refine ⟨by rw [h']; exact (Peers.step_config (lib := lib) I.good (fun c h => by cases h)).1, _, ?_, ?_, Or.inr (by rw [h'])⟩
    · intro ap hm
      have hm : some ap ∈ ((l.map (fun x => (F, x))).map (·.2)).take k := hm
      have := List.mem_of_mem_take hm
      simpa [Peers.Event.names] using this
    · intro a hm
      obtain ⟨x, hx, e⟩ := List.mem_filterMap.mp hm
      exact List.mem_filterMap.mpr ⟨x, by simpa using List.mem_of_mem_take hx, e⟩
  | take =>
    obtain ⟨l, N, _, h2, _⟩ := Peers.Rd.take_safe F I now
    have h' := congrArg Prod.fst h2
    exact same ((congrArg Registry.db h').trans rfl) ((congrArg Registry.declared h').trans rfl)
  | suggest f a =>
    rcases Peers.Rd.suggest_safe F f now r a with h | h
    · exact one (congrArg Prod.fst h)
    · have h' := congrArg Prod.fst h
      exact same ((congrArg Registry.db h').trans rfl) ((congrArg Registry.declared h').trans rfl)
  | reopen c => exact absurd rfl (hc c)

/-- somebody named the address in the event: a peer in a list of peers, or the peer itself in its handshake, and then the
connection was from that address -/
def Ev.Tells (ap : AddrPort) (e : Ev) : Prop :=
  (∃ D c p l, e = .message D c p (.peers l) ∧ some ap ∈ l) ∨
    ∃ D c p, e = .connected D c p ∧ p.remote = some ap.addr ∧ p.conn.handshake.declared = .addrPort ap

theorem handlerCall_names {e : Ev} {ev : Event} (hc : handlerCall e = some (.registry ev)) :
    (∀ ap, ev.names ap → e.Tells ap) ∧ ∀ c, ev.op ≠ .reopen c := by
  cases e with
  | message D c p m =>
    simp only [handlerCall] at hc
    cases m with
    | peers ps =>
      simp only [messageCall, Option.some.injEq, Loading.Fine.Other.registry.injEq] at hc
      subst hc
      refine ⟨fun ap hn => ?_, fun c h => by cases h⟩
      simp only [Peers.Event.names, List.mem_map, Option.some.injEq, List.mem_filterMap] at hn
      obtain ⟨x, ⟨y, hy, hxy⟩, rfl⟩ := hn
      have : y = some x := hxy
      exact Or.inl ⟨D, c, p, ps, rfl, this ▸ hy⟩
    | score sc =>
      simp only [messageCall, Option.map_eq_some_iff] at hc
      obtain ⟨a', _, hc⟩ := hc
      cases hc
      exact ⟨fun ap hn => hn.elim, fun c h => by cases h⟩
    | block b => cases b <;> simp [messageCall] at hc
    | pbBlock b => cases b <;> simp [messageCall] at hc
    | microBlockInv b => cases b <;> simp [messageCall] at hc
    | _ => cases hc
  | connected D c p =>
    simp only [handlerCall, Option.map_eq_some_iff] at hc
    obtain ⟨a', ha, hc⟩ := hc
    cases hc
    refine ⟨fun ap hn => ?_, fun c h => by cases h⟩
    obtain ⟨h1, h2⟩ := hn
    subst h1
    exact Or.inr ⟨D, c, p, rfl, ha, h2⟩
  | broken D c p =>
    simp only [handlerCall, Option.map_eq_some_iff] at hc
    obtain ⟨a', ha, hc⟩ := hc
    cases hc
    exact ⟨fun ap hn => hn.elim, fun c h => by cases h⟩
  | _ => cases hc

theorem reg_names {s s' : Sys} {e : Ev} (h : s.step lib e = some (.ok s')) :
    s'.world.sh.reg = s.world.sh.reg ∨ ∃ (D : Disk) (ev : Event), s'.world.sh.reg = Peers.Rd.step D.peers lib s.world.sh.reg ev ∧
      (∀ ap, ev.names ap → e.Tells ap) ∧ ∀ c, ev.op ≠ .reopen c := by
  obtain ⟨_, hc⟩ := step_case h
  cases hc with
  | @handled _ r x hd hr hx =>
    obtain ⟨e1, e2⟩ := hr.effect hx
    have key : x.sh = done e.disk lib s.world.sh (handlerCall e) := by rw [e2, e1]
    show x.sh.reg = _ ∨ ∃ (D : Disk) (ev : Event), x.sh.reg = _ ∧ _
    rw [key]
    cases hc : handlerCall e with
    | none => exact Or.inl rfl
    | some o =>
      cases o with
      | registry ev => exact Or.inr ⟨e.disk, ev, rfl, handlerCall_names hc⟩
      | putBlock b a f1 f2 => exact Or.inl rfl
      | putMicro inv a f1 f2 => exact Or.inl rfl
  | call D c k ht hk =>
    left
    show (c.effectRd D s.world.sh).reg = _
    unfold Loading.Fine.Call.effectRd
    split <;> rfl
  | respawn D now failed hu ha =>
    unfold Sys.respawn
    split
    · exact Or.inl rfl
    · dsimp only
      split <;> exact Or.inr ⟨D, ⟨now, .take⟩, rfl, fun ap hn => hn.elim, fun c h => by cases h⟩
  | refused D f now a e hw => exact Or.inr ⟨D, ⟨now, .suggest f a⟩, rfl, fun ap hn => hn.elim, fun c h => by cases h⟩
  | suggested D f now a v hw => exact Or.inr ⟨D, ⟨now, .suggest f a⟩, rfl, fun ap hn => hn.elim, fun c h => by cases h⟩
  | giveUp D f now a hd => exact Or.inr ⟨D, ⟨now, .unregister f a⟩, rfl, fun ap hn => hn.elim, fun c h => by cases h⟩
  | _ => exact Or.inl rfl

/-- where an address with its port comes from -/
def Heard (cfg : Config) (r : Registry) (seeds : List (Option AddrPort)) (es : List Ev) (ap : AddrPort) : Prop :=
  (∃ p, Peers.PeerOf (Peers.NewRegistry cfg r.db) ap.addr = .ok p ∧ p.port = ap.port) ∨ some ap ∈ seeds ∨ ∃ e, e ∈ es ∧ e.Tells ap

theorem Heard.mono {cfg : Config} {r : Registry} {seeds : List (Option AddrPort)} {es : List Ev} {ap : AddrPort}
    (h : Heard cfg r seeds es ap) (e : Ev) : Heard cfg r seeds (es ++ [e]) ap := by
  rcases h with h | h | ⟨e', he, h⟩
  · exact Or.inl h
  · exact Or.inr (Or.inl h)
  · exact Or.inr (Or.inr ⟨e', List.mem_append_left _ he, h⟩)

/-- the ports on record and the dialled addresses are known -/
structure Dials (cfg : Config) (r : Registry) (seeds : List (Option AddrPort)) (es : List Ev) (s : Sys) : Prop where
  port : ∀ b v, view s.world.sh.reg.db b = some v → v.port ≠ 0 → Heard cfg r seeds es ⟨.v4 b, v.port⟩
  loop : Peers.NoLoopback s.world.sh.reg
  own : s.world.sh.reg.declared = cfg.declared
  dialled : ∀ ap, ap ∈ s.dialled → Heard cfg r seeds es ap ∧ Peers.is4 ap.addr = true ∧ ap.port ≠ 0 ∧
    Peers.isLoopback ap.addr = false ∧ ap.addr ≠ cfg.declared

/-- the dialled addresses after an event -/
theorem step_dialled {s s' : Sys} {e : Ev} (h : s.step lib e = some (.ok s')) {ap : AddrPort} (ha : ap ∈ s'.dialled) :
    ap ∈ s.dialled ∨ ∃ (D : Disk) (now : Int) (l : List AddrPort),
      (Peers.Rd.TakeAvailableAddresses D.peers now s.world.sh.reg).2 = .ok l ∧ ap ∈ l := by
  obtain ⟨_, hc⟩ := step_case h
  cases hc with
  | respawn D now rf hu hr =>
    unfold Sys.respawn at ha
    split at ha
    · exact Or.inl ha
    · simp only at ha
      split at ha
      · exact Or.inl ha
      · rename_i as has
        rcases List.mem_append.mp ha with h | h
        · exact Or.inl h
        · exact Or.inr ⟨D, now, as, has, h⟩
  | _ => exact Or.inl ha

/-- ports and loopback addresses after a call on a failing disk -/
theorem rd_ports (F : Chains.Rd.Faults) {r : Registry} (I : Peers.Inv r) (e : Event) (hc : ∀ c, e.op ≠ .reopen c) (hl : Peers.NoLoopback r) :
    (∀ b v, view (Peers.Rd.step F lib r e).db b = some v → v.port ≠ 0 →
      (∃ v0, view r.db b = some v0 ∧ v0.port = v.port) ∨ e.names ⟨.v4 b, v.port⟩) ∧
    Peers.NoLoopback (Peers.Rd.step F lib r e) ∧ (Peers.Rd.step F lib r e).declared = r.declared := by
  obtain ⟨h1, e', h2, _, h3⟩ := rd_db F lib I e hc
  rcases h3 with h3 | h3
  · refine ⟨fun b v hv _ => Or.inl ⟨v, by rw [← h3]; exact hv, rfl⟩, fun b v hv hp => hl b v (by rw [← h3]; exact hv) hp, h1⟩
  · refine ⟨fun b v hv hp => ?_, fun b v hv hp => hl.step (lib := lib) I.good e' b v (by rw [← h3]; exact hv) hp, h1⟩
    rw [h3] at hv
    exact (Peers.step_port I.good hv hp).imp id (fun h => h2 _ h.1)

theorem Dials.path {cfg : Config} {r : Registry} (R : Peers.Reachable lib r) {D : Disk} {fs : Nat → Fate} {seeds : List (Option AddrPort)}
    {lk : Linkage} {listener : Bool} {es : List Ev} {tr : List Loading.Fine.Answer} {s : Sys}
    (h : Path lib (Sys.start D cfg r.db fs seeds lk listener) es tr s) : Dials cfg r seeds es s ∧ Peers.Reachable lib s.world.sh.reg := by
  induction h with
  | nil =>
    have R0 : Peers.Reachable lib (Peers.NewRegistry cfg r.db) := R.step ⟨0, .reopen cfg⟩
    have hstep : (Sys.start D cfg r.db fs seeds lk listener).world.sh.reg =
        Peers.Rd.step D.peers lib (Peers.NewRegistry cfg r.db) ⟨0, .append fs seeds⟩ := rfl
    obtain ⟨k1, k2, k3⟩ := rd_ports (lib := lib) D.peers R0.inv ⟨0, .append fs seeds⟩ (fun c h => by cases h) R0.noLoopback
    refine ⟨⟨?_, by rw [hstep]; exact k2, by rw [hstep]; exact k3, fun ap ha => by cases ha⟩, start_reachable R D cfg fs seeds⟩
    intro b v hv hp
    rw [hstep] at hv
    rcases k1 b v hv hp with ⟨v0, h0, h1⟩ | hn
    · exact Or.inl ⟨v0.toPeer (.v4 b), R0.inv.peerOf.mpr ⟨v0, h0, rfl⟩, h1⟩
    · exact Or.inr (Or.inl hn)
  | @snoc es tr s s' h e he ih =>
    obtain ⟨ih, Rs⟩ := ih
    have I := Rs.inv
    have hport : ((∀ b v, view s'.world.sh.reg.db b = some v → v.port ≠ 0 → Heard cfg r seeds (es ++ [e]) ⟨.v4 b, v.port⟩) ∧
        Peers.NoLoopback s'.world.sh.reg ∧ s'.world.sh.reg.declared = cfg.declared) ∧ Peers.Reachable lib s'.world.sh.reg := by
      rcases reg_names he with hr | ⟨D, ev, hr, hn, ho⟩
      · rw [hr]
        exact ⟨⟨fun b v hv hp => (ih.port b v hv hp).mono e, ih.loop, ih.own⟩, Rs⟩
      · obtain ⟨k1, k2, k3⟩ := rd_ports (lib := lib) D.peers I ev ho ih.loop
        rw [hr]
        refine ⟨⟨?_, k2, k3.trans ih.own⟩, Peers.Rd.exec_reachable [(D.peers, ev)] Rs⟩
        intro b v hv hp
        rcases k1 b v hv hp with ⟨v0, h0, h1⟩ | hm
        · rw [← h1]; exact (ih.port b v0 h0 (h1 ▸ hp)).mono e
        · exact Or.inr (Or.inr ⟨e, by simp, hn _ hm⟩)
    refine ⟨⟨hport.1.1, hport.1.2.1, hport.1.2.2, ?_⟩, hport.2⟩
    intro ap hap
    rcases step_dialled he hap with h | ⟨D, now, l, hl, hm⟩
    · obtain ⟨h1, h2⟩ := ih.dialled ap h
      exact ⟨h1.mono e, h2⟩
    · obtain ⟨l0, N, g1, g2, _⟩ := Peers.Rd.take_safe D.peers I now
      obtain ⟨l', pend', h1, h2, _⟩ := I.take now
      rw [g1] at h1
      rw [g2] at hl
      cases h1
      cases hl
      obtain ⟨b, v, hv, ⟨_, g2, g3, _⟩, _, rfl⟩ := (h2 ap).mp (List.mem_filter.mp hm).1
      exact ⟨(ih.port b v hv g2).mono e, rfl, g2, ih.loop b v hv g2, fun h => g3 (h.trans ih.own.symm)⟩

end Verif.Services.Fine
