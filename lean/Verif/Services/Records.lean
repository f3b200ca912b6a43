import Verif.Services.PortsReads
/-
Which records of peers there are after an execution, with failing reads and with the loader at work: lemmas for property C121.
-/

set_option autoImplicit false

namespace Verif.Services.Fine

open Verif
open Verif.Chains (Addr BytesN Linkage)
open Verif.Peers (Registry Lib AddrPort Config Event view)
open Verif.Loading.Fine (Disk)
open Verif.KV (Fate)

variable {lib : Lib}

/-- the event is about the address: somebody listed it, a connection from it came up, or it was dialled or called -/
def Ev.Mentions (a : Addr) : Ev → Prop
  | .message _ _ _ (.peers l) => ∃ ap, some ap ∈ l ∧ ap.addr = a
  | .connected _ _ p => p.remote = some a
  | .suggest _ _ _ a' => a' = a
  | _ => False

theorem rd_named (F : Chains.Rd.Faults) {r : Registry} (I : Peers.Inv r) (e : Event) (hc : ∀ c, e.op ≠ .reopen c) {b : BytesN 4}
    (h : view (Peers.Rd.step F lib r e).db b ≠ none) : view r.db b ≠ none ∨ .v4 b ∈ Peers.named e.op := by
  obtain ⟨_, e', _, h2, h3⟩ := rd_db F lib I e hc
  rcases h3 with h3 | h3
  · rw [h3] at h; exact Or.inl h
  · rw [h3] at h
    by_cases h0 : view r.db b = none
    · exact Or.inr (h2 _ (Peers.step_named I.good h0 h))
    · exact Or.inl h0

theorem handlerCall_mentions {e : Ev} {ev : Event} (hc : handlerCall e = some (.registry ev)) {a : Addr} (ha : a ∈ Peers.named ev.op) :
    e.Mentions a := by
  cases e with
  | message D c p m =>
    simp only [handlerCall] at hc
    cases m with
    | peers ps =>
      simp only [messageCall, Option.some.injEq, Loading.Fine.Other.registry.injEq] at hc
      subst hc
      simp only [Peers.named, List.mem_filterMap, List.mem_map] at ha
      obtain ⟨x, ⟨y, ⟨z, hz, hzy⟩, rfl⟩, hx⟩ := ha
      have : z = some y := hzy
      subst this
      simp only [Option.map_some, Option.some.injEq] at hx
      exact ⟨y, hz, hx⟩
    | score sc =>
      simp only [messageCall, Option.map_eq_some_iff] at hc
      obtain ⟨a', _, hc⟩ := hc
      cases hc
      cases ha
    | block b => cases b <;> simp [messageCall] at hc
    | pbBlock b => cases b <;> simp [messageCall] at hc
    | microBlockInv b => cases b <;> simp [messageCall] at hc
    | _ => cases hc
  | connected D c p =>
    simp only [handlerCall, Option.map_eq_some_iff] at hc
    obtain ⟨a', ha', hc⟩ := hc
    cases hc
    have : a = a' := by simpa [Peers.named] using ha
    subst this
    exact ha'
  | broken D c p =>
    simp only [handlerCall, Option.map_eq_some_iff] at hc
    obtain ⟨a', ha', hc⟩ := hc
    cases hc
    cases ha
  | _ => cases hc

theorem reg_mentions {s s' : Sys} {e : Ev} (h : s.step lib e = some (.ok s')) :
    s'.world.sh.reg = s.world.sh.reg ∨ ∃ (D : Disk) (ev : Event), s'.world.sh.reg = Peers.Rd.step D.peers lib s.world.sh.reg ev ∧
      (∀ a, a ∈ Peers.named ev.op → e.Mentions a) ∧ ∀ c, ev.op ≠ .reopen c := by
  obtain ⟨_, hc⟩ := step_case h
  cases hc with
  | @handled _ r x hd hr hx =>
    obtain ⟨e1, e2⟩ := hr.effect hx
    have key : x.sh = done e.disk lib s.world.sh (handlerCall e) := by rw [e2, e1]
    show x.sh.reg = _ ∨ ∃ (D : Disk) (ev : Event), x.sh.reg = _ ∧ _
    rw [key]
    cases hc : handlerCall e with
    | none => exact Or.inl rfl
    | some o =>
      cases o with
      | registry ev => exact Or.inr ⟨e.disk, ev, rfl, fun a ha => handlerCall_mentions hc ha, (handlerCall_names hc).2⟩
      | putBlock b a f1 f2 => exact Or.inl rfl
      | putMicro inv a f1 f2 => exact Or.inl rfl
  | call D c k ht hk =>
    left
    show (c.effectRd D s.world.sh).reg = _
    unfold Loading.Fine.Call.effectRd
    split <;> rfl
  | respawn D now failed hu ha =>
    unfold Sys.respawn
    split
    · exact Or.inl rfl
    · dsimp only
      split <;> exact Or.inr ⟨D, ⟨now, .take⟩, rfl, (fun a hn => by cases hn), fun c h => by cases h⟩
  | refused D f now a e hw =>
    exact Or.inr ⟨D, ⟨now, .suggest f a⟩, rfl, (fun a' hn => (List.mem_singleton.mp hn).symm), fun c h => by cases h⟩
  | suggested D f now a v hw =>
    exact Or.inr ⟨D, ⟨now, .suggest f a⟩, rfl, (fun a' hn => (List.mem_singleton.mp hn).symm), fun c h => by cases h⟩
  | giveUp D f now a hd => exact Or.inr ⟨D, ⟨now, .unregister f a⟩, rfl, (fun a hn => by cases hn), fun c h => by cases h⟩
  | _ => exact Or.inl rfl

/-- no record is lost -/
theorem view_path {s s' : Sys} {es : List Ev} {tr : List Loading.Fine.Answer} (R : Peers.Reachable lib s.world.sh.reg) (h : Path lib s es tr s') :
    Peers.Reachable lib s'.world.sh.reg ∧ (∀ b, view s.world.sh.reg.db b ≠ none → view s'.world.sh.reg.db b ≠ none) ∧
      ∀ b, view s'.world.sh.reg.db b ≠ none → view s.world.sh.reg.db b ≠ none ∨ ∃ e, e ∈ es ∧ e.Mentions (.v4 b) := by
  induction h with
  | nil => exact ⟨R, fun _ h => h, fun _ h => Or.inl h⟩
  | @snoc es tr v v' hp e he ih =>
    obtain ⟨Rv, h1, h2⟩ := ih
    have old : ∀ b, view v.world.sh.reg.db b ≠ none → view s.world.sh.reg.db b ≠ none ∨ ∃ e', e' ∈ es ++ [e] ∧ e'.Mentions (.v4 b) := by
      intro b hb
      rcases h2 b hb with h | ⟨e', h, h'⟩
      · exact Or.inl h
      · exact Or.inr ⟨e', List.mem_append_left _ h, h'⟩
    rcases reg_mentions he with hr | ⟨D, ev, hr, hn, ho⟩
    · rw [hr]; exact ⟨Rv, h1, old⟩
    · rw [hr]
      refine ⟨Peers.Rd.exec_reachable [(D.peers, ev)] Rv, fun b hb => ?_, fun b hb => ?_⟩
      · obtain ⟨es', e'⟩ := Peers.Rd.step_exec D.peers lib Rv.inv ev
        rw [e']
        exact Peers.exec_known Rv.inv (h1 b hb) es'
      · rcases rd_named D.peers Rv.inv ev ho hb with h | h
        · exact old b h
        · exact Or.inr ⟨e, by simp, hn _ h⟩

end Verif.Services.Fine
