import Verif.Services.Conns
import Verif.Services.Examples
/-
Property C93: what becomes of the connections that the program is told of.
-/

set_option autoImplicit false

namespace Verif.Props

open Verif
open Verif.Chains (Addr)
open Verif.Peers (Conn Lib Accepted second)
open Verif.Services

variable {lib : Lib} {s0 s1 s : Prog}

/-- The list of connections is exact at every moment of every run: a connection is listed for an address if and only if it
qualified when its notice came, and since then nothing took the connection of that address away: no connection from the
address broke, no dial of the address failed, no other connection from the address qualified. -/
theorem C93_listed (R : Reached lib s0) (h0 : s0.l.reg.connections = []) {es : List Ev} (h : Path lib s0 es s) (a : Addr) (cn : Conn) :
    (a, cn) ∈ s.l.reg.connections ↔
      ∃ pre e post s1, es = pre ++ e :: post ∧ Path lib s0 pre s1 ∧ Joins lib s1 e a cn ∧
        ∀ post1 e' post2 s2, post = post1 ++ e' :: post2 → Path lib s0 (pre ++ e :: post1) s2 →
          ¬ e'.Drops a ∧ ∀ cn', ¬ Joins lib s2 e' a cn' := by
  induction h with
  | nil =>
    rw [h0]
    constructor
    · intro hm; cases hm
    · rintro ⟨pre, e, post, _, he, _⟩; simp at he
  | @snoc es s1 s2 hp e he ih =>
    rw [conn_step (R.reaches hp.reaches) he]
    constructor
    · rintro (hj | ⟨hm, hd, hj⟩)
      · exact ⟨es, e, [], s1, rfl, hp, hj, fun post1 e' post2 s2 h => by simp at h⟩
      · obtain ⟨pre, e1, post, t1, hes, hp1, hj1, hkeep⟩ := ih.mp hm
        refine ⟨pre, e1, post ++ [e], t1, by rw [hes]; simp, hp1, hj1, ?_⟩
        intro post1 e' post2 t2 hsplit hp2
        rcases post2.eq_nil_or_concat with rfl | ⟨post2', x, rfl⟩
        · have := List.append_inj' hsplit (by simp)
          have e2 : e = e' := by simpa using this.2
          subst e2
          have hes' : pre ++ e1 :: post1 = es := by rw [hes, this.1]
          rw [hes'] at hp2
          have : t2 = s1 := hp2.unique hp
          subst this
          exact ⟨hd, hj⟩
        · have h3 : post ++ [e] = (post1 ++ e' :: post2') ++ [x] := by rw [hsplit]; simp
          have := List.append_inj' h3 (by simp)
          exact hkeep post1 e' post2' t2 this.1 hp2
    · rintro ⟨pre, e1, post, t1, hes, hp1, hj1, hkeep⟩
      rcases post.eq_nil_or_concat with rfl | ⟨post', x, rfl⟩
      · have := List.append_inj' hes (by simp)
        have e2 : e = e1 := by simpa using this.2
        subst e2
        rw [← this.1] at hp1
        have : t1 = s1 := hp1.unique hp
        subst this
        exact Or.inl hj1
      · have h3 : es ++ [e] = (pre ++ e1 :: post') ++ [x] := by rw [hes]; simp
        have hsp := List.append_inj' h3 (by simp)
        have e2 : e = x := by simpa using hsp.2
        subst e2
        have hlast := hkeep post' e [] s1 (by simp) (by rw [← hsp.1]; exact hp)
        refine Or.inr ⟨ih.mpr ⟨pre, e1, post', t1, hsp.1, hp1, hj1, ?_⟩, hlast.1, hlast.2⟩
        intro post1 e' post2 t2 hsplit hp2
        exact hkeep post1 e' (post2 ++ [e]) t2 (by rw [hsplit]; simp) hp2

/-- Every connection that the program is told of is listed for its address, or was closed, or is lost in one of the ways of
`Lost`.

Missing: that no connection is lost; there the claim is false (`C93_lost`, `C67_replaced`, `C78_own_address`, `C78_unparsable`,
`C83_lost`). -/
theorem C93_accounted_partial (R : Reached lib s0) {pre post : List Ev} {c : Loading.Ctx} {p : Sender}
    (hp : Path lib s0 pre s1) (h : Path lib s1 (.connected c p :: post) s) :
    Out.close p.conn ∈ s.out ∨ (∃ a, p.remote = some a ∧ (a, p.conn) ∈ s.l.reg.connections) ∨ Lost s1 p post := by
  have R1 := R.reaches hp.reaches
  generalize hes : Ev.connected c p :: post = es at h
  induction h generalizing post with
  | nil => cases hes
  | @snoc es t t' ht e he ih =>
    have Rt := R1.reaches ht.reaches
    rcases post.eq_nil_or_concat with rfl | ⟨post', x, rfl⟩
    · have h1 : [Ev.connected c p] = es ++ [e] := hes
      have hes0 : es = [] := by
        have := congrArg List.length h1
        simp at this
        exact this
      subst hes0
      have he1 : Ev.connected c p = e := by simpa using h1
      subst he1
      have ht1 : s1 = t := Path.unique .nil ht
      subst ht1
      cases hr : p.remote with
      | none => exact Or.inr (Or.inr (.nameless hr))
      | some a =>
        by_cases acc : Accepted lib s1.l.reg a p.conn p.conn.handshake
        · exact Or.inr (Or.inl ⟨a, rfl, (conn_step R1 he).mpr (Or.inl ⟨c, p, rfl, hr, rfl, acc⟩)⟩)
        · by_cases hown : a = s1.l.reg.declared
          · exact Or.inr (Or.inr (.own (by rw [hr, hown])))
          · by_cases hde : p.conn.handshake.declared = .unparsable
            · exact Or.inr (Or.inr (.undeclared hde))
            · left
              obtain ⟨_, hc⟩ := step_case he
              cases hc with
              | handled hd hh hx =>
                cases hh with
                | connected _ _ hj =>
                  unfold handleConnected at hx
                  rw [hr] at hx
                  simp only at hx
                  obtain ⟨rfl, hnp⟩ := noPanic_eq hx
                  simp only [refused_closes R1.inv.loader.inv.reg.inv.good acc hown hde hnp, if_true]
                  simp
    · have h1 : (Ev.connected c p :: post') ++ [x] = es ++ [e] := by rw [← hes]; simp
      have hsp := List.append_inj' h1 (by simp)
      have hx : x = e := by simpa using hsp.2
      subst hx
      have widen : ∀ y, y ∈ post' → y ∈ post' ++ [x] := fun y hy => by simp [hy]
      have last : x ∈ post' ++ [x] := by simp
      rw [List.concat_eq_append]
      rcases ih hsp.1 with hc | ⟨a, ha, hm⟩ | hl
      · obtain ⟨more, hmore⟩ := out_step he
        exact Or.inl (by rw [hmore]; simp [hc])
      · by_cases hd : x.Drops a
        · cases x with
          | broken c' p' =>
            simp only [Ev.Drops] at hd
            by_cases hcn : p'.conn = p.conn
            · left
              obtain ⟨_, hcase⟩ := step_case he
              cases hcase with
              | handled hd' hh hx =>
                cases hh with
                | broken _ _ =>
                  unfold handleInternalError at hx
                  rw [hd] at hx
                  simp only at hx
                  obtain ⟨rfl, hnp⟩ := noPanic_eq hx
                  simp [hcn]
            · exact Or.inr (Or.inr (.shared c' p' last (by rw [hd, ha]) hcn))
          | giveUp f now a' =>
            simp only [Ev.Drops] at hd
            subst hd
            exact Or.inr (Or.inr (.dialled f now _ last ha))
          | _ => exact hd.elim
        · by_cases hj : ∃ cn', Joins lib t x a cn'
          · obtain ⟨cn', hj⟩ := hj
            by_cases hcn : cn' = p.conn
            · subst hcn
              exact Or.inr (Or.inl ⟨a, ha, (conn_step Rt he).mpr (Or.inl hj)⟩)
            · obtain ⟨c', p', rfl, hr', rfl, _⟩ := hj
              exact Or.inr (Or.inr (.replaced c' p' last (by rw [hr', ha]) hcn))
          · exact Or.inr (Or.inl ⟨a, ha, (conn_step Rt he).mpr (Or.inr ⟨hm, hd, fun cn' hc => hj ⟨cn', hc⟩⟩)⟩)
      · refine Or.inr (Or.inr ?_)
        cases hl with
        | nameless h => exact .nameless h
        | own h => exact .own h
        | undeclared h => exact .undeclared h
        | replaced c' p' hm hr hne => exact .replaced c' p' (widen _ hm) hr hne
        | shared c' p' hm hr hne => exact .shared c' p' (widen _ hm) hr hne
        | dialled f now a hm hr => exact .dialled f now a (widen _ hm) hr

/-- The program closes a connection only when it refuses it or is told that it broke. -/
theorem C93_closed (R : Reached lib s0) {es : List Ev} (h : Path lib s0 es s) (h0 : s0.out = []) {cn : Conn} (hc : Out.close cn ∈ s.out) :
    ∃ pre e post t c p a, es = pre ++ e :: post ∧ Path lib s0 pre t ∧ p.conn = cn ∧ p.remote = some a ∧
      (e = .broken c p ∨ (e = .connected c p ∧ ¬ Accepted lib t.l.reg a cn cn.handshake)) := by
  induction h with
  | nil => rw [h0] at hc; cases hc
  | @snoc es s1 s2 hp e he ih =>
    rcases close_step (R.reaches hp.reaches) he hc with hc | ⟨c, p, a, h1, h2, h3⟩
    · obtain ⟨pre, e1, post, t, c, p, a, hes, rest⟩ := ih hc
      exact ⟨pre, e1, post ++ [e], t, c, p, a, by rw [hes]; simp, rest⟩
    · exact ⟨es, e, [], s1, c, p, a, rfl, hp, h1, h2, h3⟩

/-- The claim that no connection is lost is false: 10.0.0.2 connects twice; the first connection is neither closed nor listed. -/
theorem C93_lost :
    let p' : Sender := ⟨⟨99, Ex.p2.conn.handshake⟩, some Loading.Ex.peer⟩
    let es := Ex.joined ++ [.suggest .ok (5 * second) Loading.Ex.peer, .connected (Loading.Ex.ctx 6) p']
    (Loading.Ex.peer, Ex.p2.conn) ∈ (Ex.after Ex.joined).l.reg.connections ∧
    (Ex.after es).l.reg.connections = [(Loading.Ex.peer, p'.conn), (Loading.Ex.peer3, Ex.p3.conn)] ∧ (Ex.after es).out = [] := by decide +kernel

/-- the program has been told of two connections, lists both, and one of them breaks -/
example : Reached Peers.Ex.lib Ex.start ∧ Ex.start.l.reg.connections = [] ∧ Ex.start.out = [] ∧
    Path Peers.Ex.lib Ex.start (Ex.joined ++ [.broken (Loading.Ex.ctx 5) Ex.p2]) (Ex.after (Ex.joined ++ [.broken (Loading.Ex.ctx 5) Ex.p2])) ∧
    (Ex.after (Ex.joined ++ [.broken (Loading.Ex.ctx 5) Ex.p2])).l.reg.connections = [(Loading.Ex.peer3, Ex.p3.conn)] ∧
    (Ex.after (Ex.joined ++ [.broken (Loading.Ex.ctx 5) Ex.p2])).out = [.close Ex.p2.conn] := by
  refine ⟨Ex.reached_start, by decide +kernel, by decide +kernel, ?_, by decide +kernel, by decide +kernel⟩
  unfold Ex.after
  cases h : Ex.run Peers.Ex.lib Ex.start (Ex.joined ++ [.broken (Loading.Ex.ctx 5) Ex.p2]) with
  | none => exact absurd h (by decide +kernel)
  | some s => exact Ex.run_path h

end Verif.Props
