import Verif.Services.Traffic
/-
Closed connections are not pinged, with failing reads and with the loader at work: lemmas for property C136.
-/

set_option autoImplicit false

namespace Verif.Services.Fine

open Verif
open Verif.Chains (Addr)
open Verif.Peers (Conn Lib Registry Event)
open Verif.Loading (Ctx)
open Verif.Loading.Fine (World Disk Other)
open Verif.KV (Fate)

variable {lib : Lib}

/-- What the network library guarantees: a connection comes up once, does not change its address, and is reported broken only after it came
up. -/
structure Orderly (es : List Ev) : Prop where
  once : (joins es).Nodup
  address : ∀ D c p D' c' p', Ev.connected D c p ∈ es → Ev.broken D' c' p' ∈ es → p.conn = p'.conn → p.remote = p'.remote
  after : ∀ pre D c p post, es = pre ++ .broken D c p :: post → p.conn ∉ joins post

/-- When a connection breaks, the record of its peer can be read. -/
def Legible (es : List Ev) : Prop := ∀ D c p, Ev.broken D c p ∈ es → ∀ k, D.peers.bad k = false

theorem joins_append (a b : List Ev) : joins (a ++ b) = joins a ++ joins b := List.filterMap_append

theorem mem_joins {es : List Ev} {D : Disk} {c : Ctx} {p : Sender} (h : Ev.connected D c p ∈ es) : p.conn ∈ joins es :=
  List.mem_filterMap.mpr ⟨_, h, rfl⟩

theorem Orderly.init {es es' : List Ev} (h : Orderly (es ++ es')) : Orderly es := by
  refine ⟨?_, fun D c p D' c' p' h1 h2 => h.address D c p D' c' p' (List.mem_append_left _ h1) (List.mem_append_left _ h2), ?_⟩
  · have := h.once
    rw [joins_append] at this
    exact (List.nodup_append.mp this).1
  · intro pre D c p post e hm
    refine h.after pre D c p (post ++ es') (by rw [e]; simp) ?_
    rw [joins_append]
    exact List.mem_append_left _ hm

/-! ### the registry in one event -/

/-- what an event does to the registry -/
inductive RegCase (lib : Lib) (s : Sys) (e : Ev) (s' : Sys) : Prop where
  | same (h : s'.world.sh.reg = s.world.sh.reg)
  | call (D : Disk) (ev : Event) (h : s'.world.sh.reg = Peers.Rd.step D.peers lib s.world.sh.reg ev)
      (hr : ∀ f a np hs, ev.op = .register f a np hs → ∃ c p, e = .connected D c p ∧ p.remote = some a ∧ p.conn = np ∧ a ∈ s.joined)

theorem regCase {s s' : Sys} {e : Ev} (h : s.step lib e = some (.ok s')) : RegCase lib s e s' := by
  obtain ⟨_, hc⟩ := step_case h
  cases hc with
  | @handled _ r x hd hr hx =>
    obtain ⟨e1, e2⟩ := hr.effect hx
    have key : x.sh = done e.disk lib s.world.sh (handlerCall e) := by rw [e2, e1]
    cases hc : handlerCall e with
    | none => rw [hc] at key; exact .same (by show x.sh.reg = _; rw [key]; rfl)
    | some o =>
      rw [hc] at key
      cases o with
      | registry ev =>
        refine .call e.disk ev (by show x.sh.reg = _; rw [key]; rfl) (fun f a np hs ho => ?_)
        have hj := handlerCall_register hc ho
        cases hr with
        | connected D c p hj' =>
          simp only [handlerCall] at hc
          cases hr : p.remote with
          | none => rw [hr] at hc; cases hc
          | some a' =>
            rw [hr] at hc
            cases hc
            cases ho
            exact ⟨c, p, rfl, hr, rfl, hj' _ hr⟩
        | _ => cases hj
      | putBlock b a f1 f2 => exact .same (by show x.sh.reg = _; rw [key]; rfl)
      | putMicro inv a f1 f2 => exact .same (by show x.sh.reg = _; rw [key]; rfl)
  | call D c k ht hk =>
    refine .same ?_
    show (c.effectRd D s.world.sh).reg = _
    unfold Loading.Fine.Call.effectRd
    split <;> rfl
  | respawn D now failed hu ha =>
    unfold Sys.respawn
    split
    · exact .same rfl
    · dsimp only
      split <;> exact .call D ⟨now, .take⟩ rfl (fun f a np hs ho => by cases ho)
  | refused D f now a e hw => exact .call D ⟨now, .suggest f a⟩ rfl (fun f a np hs ho => by cases ho)
  | suggested D f now a v hw => exact .call D ⟨now, .suggest f a⟩ rfl (fun f a np hs ho => by cases ho)
  | giveUp D f now a hd => exact .call D ⟨now, .unregister f a⟩ rfl (fun f a np hs ho => by cases ho)
  | _ => exact .same rfl

/-- every listed connection, and everyone who may connect, has a record -/
structure Recorded (lib : Lib) (s : Sys) : Prop where
  reg : Peers.Reachable lib s.world.sh.reg
  joined : ∀ b, Addr.v4 b ∈ s.joined → Peers.view s.world.sh.reg.db b ≠ none
  covered : Peers.Covered s.world.sh.reg

theorem Recorded.step {s s' : Sys} {e : Ev} (I : Recorded lib s) (h : s.step lib e = some (.ok s')) : Recorded lib s' := by
  have C := regCase h
  have hreg : Peers.Reachable lib s'.world.sh.reg := by
    cases C with
    | same h => rw [h]; exact I.reg
    | call D ev h _ => rw [h]; exact Peers.Rd.exec_reachable [(D.peers, ev)] I.reg
  have hview : ∀ b, Peers.view s.world.sh.reg.db b ≠ none → Peers.view s'.world.sh.reg.db b ≠ none := by
    intro b hb
    cases C with
    | same h => rw [h]; exact hb
    | call D ev h _ =>
      rw [h]
      obtain ⟨es, e⟩ := Peers.Rd.step_exec D.peers lib I.reg.inv ev
      rw [e]
      exact Peers.exec_known I.reg.inv hb es
  refine ⟨hreg, ?_, ?_⟩
  · intro b hb
    obtain ⟨_, hc⟩ := step_case h
    have old : Addr.v4 b ∈ s.joined → Peers.view s'.world.sh.reg.db b ≠ none := fun hj => hview b (I.joined b hj)
    cases hc with
    | suggested D f now a v hw =>
      rcases List.mem_cons.mp hb with rfl | hb
      · rcases Peers.Rd.suggest_safe D.peers f now s.world.sh.reg (.v4 b) with e | e
        · show Peers.view (Peers.Rd.SuggestVersion D.peers f now s.world.sh.reg (.v4 b)).1.db b ≠ none
          rw [e] at hw ⊢
          exact Peers.suggest_known I.reg.inv hw
        · rw [e] at hw; cases hw
      · exact old hb
    | respawn D now rf hu ha =>
      apply old
      revert hb
      unfold Sys.respawn
      split
      · exact id
      · simp only; split <;> exact id
    | _ => exact old hb
  · intro b c hm
    cases C with
    | same h => rw [h] at hm ⊢; exact I.covered b c hm
    | call D ev h hr =>
      have hm' := hm
      rw [h] at hm'
      rcases rd_connections D.peers lib s.world.sh.reg ev with ⟨f, a, np, hs, h1, h2⟩ | h2
      · rw [h2] at hm'
        rcases Peers.mem_setConn.mp hm' with e' | ⟨hm', _⟩
        · cases e'
          obtain ⟨_, _, _, _, _, hj⟩ := hr f _ _ hs h1
          exact hview b (I.joined b hj)
        · exact hview b (I.covered b c hm')
      · exact hview b (I.covered b c (h2.mem hm'))

theorem Recorded.start {r : Registry} (R : Peers.Reachable lib r) (D : Disk) (cfg : Peers.Config) (fs : Nat → Fate)
    (seeds : List (Option Peers.AddrPort)) (lk : Chains.Linkage) (listener : Bool) :
    Recorded lib (Sys.start D cfg r.db fs seeds lk listener) := by
  refine ⟨start_reachable R D cfg fs seeds, (fun b hb => by cases hb), ?_⟩
  intro b c hm
  have k : (Sys.start D cfg r.db fs seeds lk listener).world.sh.reg.connections = [] := appendLoop_connections fs _ _ _
  rw [k] at hm
  cases hm

/-! ### connections and output in one event -/

theorem listed_step {s s' : Sys} {e : Ev} {a : Addr} {cn : Conn} (h : s.step lib e = some (.ok s'))
    (hm : (a, cn) ∈ s'.world.sh.reg.connections) :
    (a, cn) ∈ s.world.sh.reg.connections ∨ ∃ D c p, e = .connected D c p ∧ p.remote = some a ∧ p.conn = cn := by
  cases regCase h with
  | same h => rw [h] at hm; exact Or.inl hm
  | call D ev h hr =>
    rw [h] at hm
    rcases rd_connections D.peers lib s.world.sh.reg ev with ⟨f, a', np, hs, h1, h2⟩ | h2
    · rw [h2] at hm
      rcases Peers.mem_setConn.mp hm with e' | ⟨hm, _⟩
      · cases e'
        obtain ⟨c, p, h3, h4, h5, _⟩ := hr f _ _ hs h1
        exact Or.inr ⟨D, c, p, h3, h4, h5⟩
      · exact Or.inl hm
    · exact Or.inl (h2.mem hm)

/-- a refused connection is not listed -/
theorem refused_connections {F : Chains.Rd.Faults} {f : Fate} {now : Int} {r : Registry} {a : Addr} {np : Conn} {h : Peers.Handshake}
    (R : Peers.Reachable lib r) (hc : (Peers.Rd.RegisterPeer F lib f now r a np h).2.1 = true) :
    (Peers.Rd.RegisterPeer F lib f now r a np h).1.connections = r.connections := by
  rcases Peers.Rd.register_safe F lib f now r a np h with e | e
  · rw [e] at hc ⊢
    cases Peers.register_outcome (lib := lib) (f := f) (now := now) (a := a) (np := np) (h := h) R.inv.good with
    | accepted acc eq => rw [eq] at hc; cases hc
    | hostile rej v4 eq => rw [eq]
    | refused rej cl e eq => rw [eq]
  · rw [e]

/-- the ways in which a connection is closed -/
inductive Closing (s : Sys) (e : Ev) (s' : Sys) (cn : Conn) : Prop where
  | before (h : Out.close cn ∈ s.out)
  | broken (D : Disk) (c : Ctx) (p : Sender) (a : Addr) (he : e = .broken D c p) (hr : p.remote = some a) (hc : p.conn = cn)
  | refused (D : Disk) (c : Ctx) (p : Sender) (he : e = .connected D c p) (hc : p.conn = cn)
      (hs : s'.world.sh.reg.connections = s.world.sh.reg.connections)

/-- what is sent in one event -/
theorem sent_step {s s' : Sys} {e : Ev} (I : Recorded lib s) (h : s.step lib e = some (.ok s')) : ∃ more, s'.out = s.out ++ more ∧
    (∀ cn, Out.close cn ∈ more → Closing s e s' cn) ∧
    ((∀ cn, Out.ping cn ∉ more) ∨ ((∀ cn, Out.close cn ∉ more) ∧ ∀ cn, Out.ping cn ∈ more → ∃ a, (a, cn) ∈ s.world.sh.reg.connections)) := by
  obtain ⟨_, hc⟩ := step_case h
  have none : s'.out = s.out → ∃ more, s'.out = s.out ++ more ∧ (∀ cn, Out.close cn ∈ more → Closing s e s' cn) ∧
      ((∀ cn, Out.ping cn ∉ more) ∨ ((∀ cn, Out.close cn ∉ more) ∧ ∀ cn, Out.ping cn ∈ more → ∃ a, (a, cn) ∈ s.world.sh.reg.connections)) :=
    fun ho => ⟨[], by rw [ho, List.append_nil], (fun cn hm => by cases hm), Or.inl (fun cn hm => by cases hm)⟩
  cases hc with
  | @handled _ r x hd hr hx =>
    refine ⟨x.out, rfl, ?_⟩
    have quiet : ∀ t : Sys, x.out = [] → (∀ cn, Out.close cn ∈ x.out → Closing s e t cn) ∧
        ((∀ cn, Out.ping cn ∉ x.out) ∨ ((∀ cn, Out.close cn ∉ x.out) ∧ ∀ cn, Out.ping cn ∈ x.out → ∃ a, (a, cn) ∈ s.world.sh.reg.connections)) :=
      fun t ho => by rw [ho]; exact ⟨(fun cn hm => by cases hm), Or.inl (fun cn hm => by cases hm)⟩
    have hout := hr.output hx
    cases hr with
    | message D c p m =>
      refine ⟨fun cn hm => ?_, ?_⟩
      · exfalso
        have h1 : Act.close cn ∈ acts x.out := List.mem_filterMap.mpr ⟨_, hm, rfl⟩
        have h2 := hout.1.mem h1
        cases m <;> simp [Ev.cause] at h2
      · left
        intro cn hm
        have h1 : cn ∈ pings x.out := List.mem_filterMap.mpr ⟨_, hm, rfl⟩
        rcases hout.2 with h2 | ⟨h2, _⟩
        · rw [h2] at h1; cases h1
        · cases h2
    | connected D c p hj =>
      unfold handleConnected at hx
      split at hx
      · cases hx; exact quiet _ rfl
      · rename_i a ha
        obtain ⟨rfl, _⟩ := noPanic_eq hx
        dsimp only
        split
        · rename_i hcl
          refine ⟨fun cn hm => ?_, Or.inl (fun cn hm => by simp at hm)⟩
          have : cn = p.conn := by simpa using hm
          exact .refused D c p rfl this.symm (refused_connections I.reg hcl)
        · exact ⟨(fun cn hm => by cases hm), Or.inl (fun cn hm => by cases hm)⟩
    | broken D c p =>
      unfold handleInternalError at hx
      split at hx
      · cases hx; exact quiet _ rfl
      · rename_i a ha
        obtain ⟨rfl, _⟩ := noPanic_eq hx
        refine ⟨fun cn hm => ?_, Or.inl (fun cn hm => by simp at hm)⟩
        have : cn = p.conn := by simpa using hm
        exact .broken D c p a rfl ha this.symm
    | ping c =>
      cases hx
      refine ⟨fun cn hm => by simp [pingConnections] at hm, Or.inr ⟨fun cn hm => by simp [pingConnections] at hm, fun cn hm => ?_⟩⟩
      obtain ⟨cn', hm, e⟩ := List.mem_map.mp hm
      cases e
      unfold Peers.Broadcast at hm
      obtain ⟨x, hx, rfl⟩ := List.mem_map.mp hm
      exact ⟨x.1, (c.env.mapOrder_perm _).mem_iff.mp hx⟩
  | respawn D now failed hu ha =>
    refine none ?_
    unfold Sys.respawn
    split
    · rfl
    · simp only
      split <;> rfl
  | _ => exact none rfl

/-- a connection that breaks leaves the list, if the record of its peer can be read -/
theorem broken_gone {s s' : Sys} {D : Disk} {c : Ctx} {p : Sender} {a : Addr} {cn : Conn} (I : Recorded lib s)
    (hg : ∀ k, D.peers.bad k = false) (hr : p.remote = some a) (h : s.step lib (.broken D c p) = some (.ok s')) :
    (a, cn) ∉ s'.world.sh.reg.connections := by
  obtain ⟨_, hc⟩ := step_case h
  cases hc with
  | @handled _ r x hd hh hx =>
    cases hh with
    | broken _ _ _ =>
      unfold handleInternalError at hx
      rw [hr] at hx
      obtain ⟨rfl, _⟩ := noPanic_eq hx
      show (a, cn) ∉ (Peers.Rd.UnregisterPeer D.peers (c.fates 0) c.now s.world.sh.reg a).1.connections
      intro hm
      unfold Peers.Rd.UnregisterPeer at hm
      have hp : Peers.Rd.peer D.peers s.world.sh.reg.db a = Peers.peer s.world.sh.reg.db a := by
        rcases Peers.Rd.peer_safe D.peers s.world.sh.reg.db a with e | ⟨⟨k, _, hk⟩, _⟩
        · exact e
        · rw [hg k] at hk; cases hk
      rw [hp] at hm
      cases hpe : Peers.peer s.world.sh.reg.db a with
      | ok q =>
        rw [hpe] at hm
        have := (List.mem_filter.mp hm).2
        simp at this
      | error e =>
        rw [hpe] at hm
        have hm : (a, cn) ∈ s.world.sh.reg.connections := hm
        obtain ⟨b, rfl⟩ := Peers.is4_iff.mp (I.reg.inv.ipv4 _ _ hm).1
        obtain ⟨v, hv⟩ := Option.ne_none_iff_exists'.mp (I.covered b _ hm)
        rw [I.reg.inv.good.peer_v4, hv] at hpe
        cases hpe

/-! ### all events -/

/-- the listed connections are open, and no ping went to a closed one -/
structure Apart (es : List Ev) (s : Sys) : Prop where
  listed : ∀ a cn, (a, cn) ∈ s.world.sh.reg.connections → ∃ D c p, Ev.connected D c p ∈ es ∧ p.conn = cn ∧ p.remote = some a
  told : ∀ cn, Out.close cn ∈ s.out → cn ∈ joins es ∨ ∃ D c p, Ev.broken D c p ∈ es ∧ p.conn = cn
  listedOpen : ∀ a cn, (a, cn) ∈ s.world.sh.reg.connections → Out.close cn ∉ s.out
  spared : ∀ o1 cn o2, s.out = o1 ++ .close cn :: o2 → Out.ping cn ∉ o2

theorem Apart.step {es : List Ev} {s s' : Sys} {e : Ev} (A : Apart es s) (I : Recorded lib s) (O : Orderly (es ++ [e])) (G : Legible (es ++ [e]))
    (h : s.step lib e = some (.ok s')) : Apart (es ++ [e]) s' := by
  have old : ∀ x, x ∈ es → x ∈ es ++ [e] := fun x hx => List.mem_append_left _ hx
  have last : e ∈ es ++ [e] := by simp
  have fresh : ∀ D c p, e = .connected D c p → p.conn ∉ joins es := by
    rintro D c p rfl hm
    have := O.once
    rw [joins_append] at this
    exact (List.nodup_append.mp this).2.2 _ hm p.conn (by simp [joins, Ev.joins]) rfl
  obtain ⟨more, hm, hcl, hk⟩ := sent_step I h
  have closing : ∀ cn, Out.close cn ∈ s'.out → Closing s e s' cn := by
    intro cn hc
    rw [hm] at hc
    rcases List.mem_append.mp hc with hc | hc
    · exact .before hc
    · exact hcl cn hc
  refine ⟨?_, ?_, ?_, ?_⟩
  · intro a cn hm
    rcases listed_step h hm with hm | ⟨D, c, p, rfl, h1, h2⟩
    · obtain ⟨D, c, p, h1, h2⟩ := A.listed a cn hm
      exact ⟨D, c, p, old _ h1, h2⟩
    · exact ⟨D, c, p, last, h2, h1⟩
  · intro cn hc
    cases closing cn hc with
    | before hc =>
      rcases A.told cn hc with hc | ⟨D, c, p, h1, h2⟩
      · left; rw [joins_append]; exact List.mem_append_left _ hc
      · exact Or.inr ⟨D, c, p, old _ h1, h2⟩
    | broken D c p a he hr hc => exact Or.inr ⟨D, c, p, he ▸ last, hc⟩
    | refused D c p he hc hs => left; rw [← hc]; exact mem_joins (D := D) (c := c) (he ▸ last)
  · intro a cn hm hc
    have came : (a, cn) ∈ s.world.sh.reg.connections → cn ∈ joins es := by
      intro hm
      obtain ⟨D, c, p, g1, g2, _⟩ := A.listed a cn hm
      rw [← g2]; exact mem_joins g1
    rcases listed_step h hm with hm0 | ⟨D, c, p, rfl, h1, h2⟩
    · cases closing cn hc with
      | before hc => exact A.listedOpen a cn hm0 hc
      | broken D c p a' he hr hc =>
        obtain ⟨D0, c0, p0, g1, g2, g3⟩ := A.listed a cn hm0
        have := O.address D0 c0 p0 D c p (old _ g1) (he ▸ last) (by rw [g2, hc])
        rw [g3, hr] at this
        cases this
        subst he
        exact broken_gone I (G D c p last) hr h hm
      | refused D c p he hc hs => exact fresh D c p he (by rw [hc]; exact came hm0)
    · cases closing cn hc with
      | before hc =>
        rcases A.told _ hc with hc | ⟨D', c', p', h3, h4⟩
        · exact fresh D c p rfl (by rw [h2]; exact hc)
        · obtain ⟨pre, post, e1⟩ := List.append_of_mem h3
          refine O.after pre D' c' p' (post ++ [.connected D c p]) (by rw [e1]; simp) ?_
          rw [h4, ← h2]
          exact mem_joins (D := D) (c := c) (by simp)
      | broken D' c' p' a' he hr hc => cases he
      | refused D' c' p' he hc hs => rw [hs] at hm; exact fresh D c p rfl (by rw [h2]; exact came hm)
  · intro o1 cn o2 ho hp
    rw [hm] at ho
    have new : ∀ l, more = l ++ .close cn :: o2 → False := by
      intro l h2
      have hin : Out.close cn ∈ more := by rw [h2]; simp
      have hpi : Out.ping cn ∈ more := by rw [h2]; simp [hp]
      rcases hk with hk | ⟨hk, _⟩
      · exact hk cn hpi
      · exact hk cn hin
    rcases List.append_eq_append_iff.mp ho with ⟨b, h1, h2⟩ | ⟨b, h1, h2⟩
    · exact new b h2
    · cases b with
      | nil => exact new [] h2.symm
      | cons y b =>
        rw [List.cons_append] at h2
        cases h2
        rcases List.mem_append.mp hp with hp | hp
        · exact A.spared o1 cn b h1 hp
        · rcases hk with hk | ⟨_, hk⟩
          · exact hk cn hp
          · obtain ⟨a, ha⟩ := hk cn hp
            exact A.listedOpen a cn ha (by rw [h1]; simp)

theorem apart {r : Registry} {D : Disk} {cfg : Peers.Config} {fs : Nat → Fate} {seeds : List (Option Peers.AddrPort)} {lk : Chains.Linkage}
    {listener : Bool} {es : List Ev} {tr : List Loading.Fine.Answer} {s : Sys} (R : Peers.Reachable lib r)
    (h : Path lib (Sys.start D cfg r.db fs seeds lk listener) es tr s) (O : Orderly es) (G : Legible es) : Apart es s ∧ Recorded lib s := by
  induction h with
  | nil =>
    have k : (Sys.start D cfg r.db fs seeds lk listener).world.sh.reg.connections = [] := appendLoop_connections fs _ _ _
    have ko : (Sys.start D cfg r.db fs seeds lk listener).out = [] := rfl
    refine ⟨⟨?_, ?_, ?_, ?_⟩, Recorded.start R D cfg fs seeds lk listener⟩
    · intro a cn hm; rw [k] at hm; cases hm
    · intro cn hm; rw [ko] at hm; cases hm
    · intro a cn hm; rw [k] at hm; cases hm
    · intro o1 cn o2 h; rw [ko] at h; simp at h
  | snoc hp e he ih =>
    obtain ⟨A, I⟩ := ih O.init (fun D c p hm => G D c p (List.mem_append_left _ hm))
    exact ⟨A.step I O G he, I.step he⟩

end Verif.Services.Fine
