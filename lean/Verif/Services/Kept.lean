import Verif.Services.ClosedReads
/-
Which events change the connection that is listed for an address: lemmas for property C137.
-/

set_option autoImplicit false

namespace Verif.Services.Fine

open Verif
open Verif.Chains (Addr)
open Verif.Peers (Conn Lib Registry Event)
open Verif.Loading (Ctx)
open Verif.Loading.Fine (World Disk Other)
open Verif.KV (Fate)

variable {lib : Lib}

/-- the events that are about the connection of an address: a connection with this address came up or broke, or a dial of it failed -/
def Ev.Touches (a : Addr) : Ev → Prop
  | .connected _ _ p => p.remote = some a
  | .broken _ _ p => p.remote = some a
  | .giveUp _ _ _ a' => a' = a
  | _ => False

/-- the calls of the registry that are about the connection of an address -/
def Touching (a : Addr) : Peers.Op → Prop
  | .register _ a' _ _ => a' = a
  | .unregister _ a' => a' = a
  | .reopen _ => True
  | _ => False

theorem rd_others (F : Chains.Rd.Faults) (lib : Lib) (r : Registry) (e : Event) {a : Addr} (h : ¬ Touching a e.op) (cn : Conn) :
    (a, cn) ∈ (Peers.Rd.step F lib r e).connections ↔ (a, cn) ∈ r.connections := by
  obtain ⟨now, op⟩ := e
  cases op with
  | register f a' np hs =>
    have hne : a ≠ a' := fun e => h e.symm
    simp only [Peers.Rd.step]
    rcases Peers.Rd.register_safe F lib f now r a' np hs with e | e
    · rw [e]
      have key : ∀ p, ((a, cn) ∈ (Peers.registerFound lib f now { r with pending := Peers.delPending r.pending a' } a' np hs p).1.connections ↔
          (a, cn) ∈ r.connections) := by
        intro p
        rcases found_connections lib f now { r with pending := Peers.delPending r.pending a' } a' np hs p with k | k
        · rw [k, Peers.mem_setConn]
          constructor
          · rintro (e | ⟨e, _⟩)
            · cases e; exact absurd rfl hne
            · exact e
          · intro hm; exact Or.inr ⟨hm, hne⟩
        · rw [k]
      unfold Peers.RegisterPeer
      dsimp only
      split
      · split
        · exact Iff.rfl
        · split
          · exact key _
          · exact key _
          · exact Iff.rfl
      · exact Iff.rfl
    · rw [e]
  | unregister f a' =>
    have hne : a ≠ a' := fun e => h e.symm
    simp only [Peers.Rd.step, Peers.Rd.UnregisterPeer]
    split
    · exact Iff.rfl
    · show (a, cn) ∈ Peers.delConn r.connections a' ↔ _
      simp [Peers.delConn, hne]
  | markHostile f arg =>
    cases arg with
    | none => exact Iff.rfl
    | some a => simp only [Peers.Rd.step, Peers.Rd.MarkAsHostile]; split <;> exact Iff.rfl
  | updateScore f a s => simp only [Peers.Rd.step, Peers.Rd.UpdatePeerScore]; split <;> exact Iff.rfl
  | append fs l => simp only [Peers.Rd.step, Peers.Rd.AppendAddresses, appendLoop_connections]
  | take => simp only [Peers.Rd.step, Peers.Rd.TakeAvailableAddresses]; split <;> exact Iff.rfl
  | suggest f a =>
    simp only [Peers.Rd.step, Peers.Rd.SuggestVersion]
    split
    · split <;> exact Iff.rfl
    · exact Iff.rfl
    · split
      · split <;> exact Iff.rfl
      · exact Iff.rfl
      · exact Iff.rfl
  | reopen c => exact absurd trivial h

theorem handlerCall_touching {e : Ev} {ev : Event} {a : Addr} (hc : handlerCall e = some (.registry ev)) (ho : Touching a ev.op) :
    e.Touches a := by
  cases e with
  | message D c p m =>
    exfalso
    simp only [handlerCall] at hc
    unfold messageCall at hc
    split at hc <;> first
      | (cases hc <;> exact ho)
      | (cases hr : p.remote with
         | none => rw [hr] at hc; cases hc
         | some a => rw [hr] at hc; cases hc <;> exact ho)
      | cases hc
  | connected D c p =>
    simp only [handlerCall] at hc
    cases hr : p.remote with
    | none => rw [hr] at hc; cases hc
    | some a' => rw [hr] at hc; cases hc; have : a' = a := ho; rw [← this]; exact hr
  | broken D c p =>
    simp only [handlerCall] at hc
    cases hr : p.remote with
    | none => rw [hr] at hc; cases hc
    | some a' => rw [hr] at hc; cases hc; have : a' = a := ho; rw [← this]; exact hr
  | _ => cases hc

/-- an event that is not about the connection of an address leaves it alone -/
theorem keep_step {s s' : Sys} {e : Ev} {a : Addr} (h : s.step lib e = some (.ok s')) (ht : ¬ e.Touches a) (cn : Conn) :
    (a, cn) ∈ s'.world.sh.reg.connections ↔ (a, cn) ∈ s.world.sh.reg.connections := by
  obtain ⟨_, hc⟩ := step_case h
  cases hc with
  | @handled _ r x hd hr hx =>
    obtain ⟨e1, e2⟩ := hr.effect hx
    have key : x.sh = done e.disk lib s.world.sh (handlerCall e) := by rw [e2, e1]
    show (a, cn) ∈ x.sh.reg.connections ↔ _
    rw [key]
    cases hc : handlerCall e with
    | none => exact Iff.rfl
    | some o =>
      cases o with
      | registry ev => exact rd_others e.disk.peers lib s.world.sh.reg ev (fun ho => ht (handlerCall_touching hc ho)) cn
      | putBlock b a f1 f2 => exact Iff.rfl
      | putMicro inv a f1 f2 => exact Iff.rfl
  | call D c k htodo hk =>
    show (a, cn) ∈ (c.effectRd D s.world.sh).reg.connections ↔ _
    unfold Loading.Fine.Call.effectRd
    split <;> exact Iff.rfl
  | respawn D now failed hu ha =>
    unfold Sys.respawn
    split
    · exact Iff.rfl
    · dsimp only
      split <;> exact rd_others D.peers lib s.world.sh.reg ⟨now, .take⟩ (a := a) id cn
  | refused D f now a' e hw => exact rd_others D.peers lib s.world.sh.reg ⟨now, .suggest f a'⟩ (a := a) id cn
  | suggested D f now a' v hw => exact rd_others D.peers lib s.world.sh.reg ⟨now, .suggest f a'⟩ (a := a) id cn
  | giveUp D f now a' hd => exact rd_others D.peers lib s.world.sh.reg ⟨now, .unregister f a'⟩ (a := a) ht cn
  | _ => exact Iff.rfl

theorem keep_path {s s' : Sys} {es : List Ev} {tr : List Loading.Fine.Answer} {a : Addr} (h : Path lib s es tr s')
    (ht : ∀ e, e ∈ es → ¬ e.Touches a) (cn : Conn) :
    (a, cn) ∈ s'.world.sh.reg.connections ↔ (a, cn) ∈ s.world.sh.reg.connections := by
  induction h with
  | nil => exact Iff.rfl
  | snoc hp e he ih =>
    rw [keep_step he (ht e (by simp)) cn]
    exact ih (fun e' hm => ht e' (List.mem_append_left _ hm))

theorem Recorded.path {s s' : Sys} {es : List Ev} {tr : List Loading.Fine.Answer} (I : Recorded lib s) (h : Path lib s es tr s') :
    Recorded lib s' := by
  induction h with
  | nil => exact I
  | snoc hp e he ih => exact ih.step he

/-- what is closed was closed before, or an event named it -/
theorem open_path {s s' : Sys} {es : List Ev} {tr : List Loading.Fine.Answer} {cn : Conn} (I : Recorded lib s) (h : Path lib s es tr s')
    (hc : Out.close cn ∈ s'.out) :
    Out.close cn ∈ s.out ∨ ∃ D c p, (Ev.connected D c p ∈ es ∨ Ev.broken D c p ∈ es) ∧ p.conn = cn := by
  induction h with
  | nil => exact Or.inl hc
  | @snoc es tr v v' hp e he ih =>
    have old : Out.close cn ∈ v.out → Out.close cn ∈ s.out ∨
        ∃ D c p, (Ev.connected D c p ∈ es ++ [e] ∨ Ev.broken D c p ∈ es ++ [e]) ∧ p.conn = cn := by
      intro h
      rcases ih h with h | ⟨D, c, p, h, h2⟩
      · exact Or.inl h
      · exact Or.inr ⟨D, c, p, h.imp (List.mem_append_left _) (List.mem_append_left _), h2⟩
    obtain ⟨more, hm, hcl, _⟩ := sent_step (I.path hp) he
    rw [hm] at hc
    rcases List.mem_append.mp hc with hc | hc
    · exact old hc
    · cases hcl cn hc with
      | before h => exact old h
      | broken D c p a he hr hc => exact Or.inr ⟨D, c, p, Or.inr (by simp [he]), hc⟩
      | refused D c p he hc hs => exact Or.inr ⟨D, c, p, Or.inl (by simp [he]), hc⟩

/-- with a readable record the connection of an address leaves the list -/
theorem unregister_gone {s : Sys} (I : Recorded lib s) {F : Chains.Rd.Faults} (hg : ∀ k, F.bad k = false) (f : Fate) (now : Int) (a : Addr)
    (cn : Conn) : (a, cn) ∉ (Peers.Rd.UnregisterPeer F f now s.world.sh.reg a).1.connections := by
  intro hm
  unfold Peers.Rd.UnregisterPeer at hm
  have hp : Peers.Rd.peer F s.world.sh.reg.db a = Peers.peer s.world.sh.reg.db a := by
    rcases Peers.Rd.peer_safe F s.world.sh.reg.db a with e | ⟨⟨k, _, hk⟩, _⟩
    · exact e
    · rw [hg k] at hk; cases hk
  rw [hp] at hm
  cases hpe : Peers.peer s.world.sh.reg.db a with
  | ok q =>
    rw [hpe] at hm
    have := (List.mem_filter.mp hm).2
    simp at this
  | error e =>
    rw [hpe] at hm
    have hm : (a, cn) ∈ s.world.sh.reg.connections := hm
    obtain ⟨b, rfl⟩ := Peers.is4_iff.mp (I.reg.inv.ipv4 _ _ hm).1
    obtain ⟨v, hv⟩ := Option.ne_none_iff_exists'.mp (I.covered b _ hm)
    rw [I.reg.inv.good.peer_v4, hv] at hpe
    cases hpe

theorem giveUp_gone {s s' : Sys} {D : Disk} {f : Fate} {now : Int} {a : Addr} {cn : Conn} (I : Recorded lib s)
    (hg : ∀ k, D.peers.bad k = false) (h : s.step lib (.giveUp D f now a) = some (.ok s')) :
    (a, cn) ∉ s'.world.sh.reg.connections := by
  obtain ⟨_, hc⟩ := step_case h
  cases hc with
  | @handled _ r x hd hh hx => cases hh
  | giveUp _ _ _ _ hd => exact unregister_gone I hg f now a cn

/-- a listed connection came up, and was not taken off the list since -/
theorem came_up {s0 s : Sys} {es : List Ev} {tr : List Loading.Fine.Answer} (I : Recorded lib s0) (h0 : s0.world.sh.reg.connections = [])
    (h : Path lib s0 es tr s) {a : Addr} {cn : Conn} (hm : (a, cn) ∈ s.world.sh.reg.connections) :
    ∃ pre D c p post, es = pre ++ .connected D c p :: post ∧ p.remote = some a ∧ p.conn = cn ∧
      (∀ D c p, Ev.broken D c p ∈ post → p.remote = some a → ∃ k, D.peers.bad k = true) ∧
      ∀ D f now, Ev.giveUp D f now a ∈ post → ∃ k, D.peers.bad k = true := by
  induction h with
  | nil => rw [h0] at hm; cases hm
  | @snoc es tr v v' hp e he ih =>
    have bad : ∀ F : Chains.Rd.Faults, ¬ (∃ k, F.bad k = true) → ∀ k, F.bad k = false := by
      intro F hn k
      cases hk : F.bad k with
      | false => rfl
      | true => exact absurd ⟨k, hk⟩ hn
    rcases listed_step he hm with hm0 | ⟨D, c, p, rfl, h1, h2⟩
    · obtain ⟨pre, D, c, p, post, e1, e2, e3, e4, e5⟩ := ih hm0
      refine ⟨pre, D, c, p, post ++ [e], by rw [e1]; simp, e2, e3, ?_, ?_⟩
      · intro D' c' p' hb hr
        rcases List.mem_append.mp hb with hb | hb
        · exact e4 D' c' p' hb hr
        · have : e = .broken D' c' p' := (List.mem_singleton.mp hb).symm
          subst this
          exact Classical.byContradiction (fun hn => broken_gone (I.path hp) (bad _ hn) hr he hm)
      · intro D' f now hb
        rcases List.mem_append.mp hb with hb | hb
        · exact e5 D' f now hb
        · have : e = .giveUp D' f now a := (List.mem_singleton.mp hb).symm
          subst this
          exact Classical.byContradiction (fun hn => giveUp_gone (I.path hp) (bad _ hn) he hm)
    · exact ⟨es, D, c, p, [], rfl, h1, h2, (fun _ _ _ hb => by cases hb), (fun _ _ _ hb => by cases hb)⟩

end Verif.Services.Fine
