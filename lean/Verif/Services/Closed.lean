import Verif.Services.Conns
/-
Closed connections are not pinged: vocabulary and lemmas for property C136.
-/

set_option autoImplicit false

namespace Verif.Services

open Verif
open Verif.Chains (Addr)
open Verif.Peers (Conn Lib Accepted)

variable {lib : Lib}

/-- the connection that came up -/
def Ev.up : Ev → Option Conn
  | .connected _ p => some p.conn
  | _ => none

/-- the connections that came up -/
def ups (es : List Ev) : List Conn := es.filterMap Ev.up

/-- What the network library guarantees: a connection comes up once, does not change its address, and is reported broken only after it came
up. -/
structure Orderly (es : List Ev) : Prop where
  once : (ups es).Nodup
  address : ∀ c p c' p', Ev.connected c p ∈ es → Ev.broken c' p' ∈ es → p.conn = p'.conn → p.remote = p'.remote
  after : ∀ pre c p post, es = pre ++ .broken c p :: post → p.conn ∉ ups post

theorem ups_append (a b : List Ev) : ups (a ++ b) = ups a ++ ups b := List.filterMap_append

theorem mem_ups {es : List Ev} {c : Loading.Ctx} {p : Sender} (h : Ev.connected c p ∈ es) : p.conn ∈ ups es :=
  List.mem_filterMap.mpr ⟨_, h, rfl⟩

theorem Orderly.init {es es' : List Ev} (h : Orderly (es ++ es')) : Orderly es := by
  refine ⟨?_, fun c p c' p' h1 h2 => h.address c p c' p' (List.mem_append_left _ h1) (List.mem_append_left _ h2), ?_⟩
  · have := h.once
    rw [ups_append] at this
    exact (List.nodup_append.mp this).1
  · intro pre c p post e hm
    refine h.after pre c p (post ++ es') (by rw [e]; simp) ?_
    rw [ups_append]
    exact List.mem_append_left _ hm

/-! ### one event -/

/-- messages bring no pings -/
theorem handleMessage_ping {c : Loading.Ctx} {l : Loading.Loader} {p : Sender} {m : Message} {x : Handled}
    (h : handleMessage lib c l p m = .ok x) (cn : Conn) : Out.ping cn ∉ x.out := by
  intro hm
  cases m with
  | getPeers =>
    simp only [handleMessage, handleGetPeers] at h
    split at h
    · cases h
    · cases h; cases hm
    · obtain ⟨i, _, h⟩ := go_bind_eq_ok.mp h
      cases h
      simp at hm
  | peers ps => obtain ⟨rfl, _⟩ := noPanic_eq h; cases hm
  | signatures l' =>
    simp only [handleMessage, handleSignatures] at h
    split at h <;> cases h <;> cases hm
  | block b =>
    simp only [handleMessage, handleBlock] at h
    split at h
    · cases h; cases hm
    · cases h; cases hm
    · split at h <;> cases h <;> cases hm
  | pbBlock b =>
    simp only [handleMessage, handleBlock] at h
    split at h
    · cases h; cases hm
    · cases h; cases hm
    · split at h <;> cases h <;> cases hm
  | score b =>
    simp only [handleMessage, handleScore] at h
    split at h
    · cases h; cases hm
    · obtain ⟨rfl, _⟩ := noPanic_eq h; cases hm
  | microBlockInv inv =>
    simp only [handleMessage, handleMicroBlockInv] at h
    split at h
    · cases h; cases hm
    · cases h; cases hm
    · obtain ⟨rfl, _⟩ := noPanic_eq h; cases hm
  | blockIds ids =>
    simp only [handleMessage, handleBlockIDs] at h
    split at h
    · cases h; cases hm
    · split at h <;> cases h <;> cases hm
  | _ => cases h; cases hm

/-- the pings go to the connections on the list, and nothing is closed together with them -/
theorem ping_step {s s' : Prog} {e : Ev} (h : s.step lib e = some (.ok s')) : ∃ more, s'.out = s.out ++ more ∧
    ((∀ cn, Out.ping cn ∉ more) ∨ ((∀ cn, Out.close cn ∉ more) ∧ ∀ cn, Out.ping cn ∈ more → ∃ a, (a, cn) ∈ s.l.reg.connections)) := by
  obtain ⟨_, hc⟩ := step_case h
  cases hc with
  | handled hd hh hx =>
    refine ⟨_, rfl, ?_⟩
    cases hh with
    | message c p m => rw [receive_eq] at hx; exact Or.inl (handleMessage_ping hx)
    | connected c p hj =>
      left
      unfold handleConnected at hx
      split at hx
      · cases hx; intro cn hm; cases hm
      · obtain ⟨rfl, _⟩ := noPanic_eq hx
        intro cn hm
        dsimp only at hm
        split at hm
        · simp at hm
        · cases hm
    | broken c p =>
      left
      unfold handleInternalError at hx
      split at hx
      · cases hx; intro cn hm; cases hm
      · obtain ⟨rfl, _⟩ := noPanic_eq hx
        intro cn hm
        simp at hm
    | ping c =>
      cases hx
      refine Or.inr ⟨fun cn hm => by simp [pingConnections] at hm, fun cn hm => ?_⟩
      obtain ⟨cn', hm, e⟩ := List.mem_map.mp hm
      cases e
      unfold Peers.Broadcast at hm
      obtain ⟨x, hx, rfl⟩ := List.mem_map.mp hm
      exact ⟨x.1, (c.env.mapOrder_perm _).mem_iff.mp hx⟩
  | respawn now rf hu ha =>
    refine ⟨[], ?_, Or.inl (fun cn hm => by cases hm)⟩
    unfold Prog.respawn
    split
    · simp
    · simp only
      split <;> simp
  | _ => exact ⟨[], by simp, Or.inl (fun cn hm => by cases hm)⟩

/-! ### all events -/

/-- the listed connections are open, and no ping went to a closed one -/
structure Apart (es : List Ev) (s : Prog) : Prop where
  listed : ∀ a cn, (a, cn) ∈ s.l.reg.connections → ∃ c p, Ev.connected c p ∈ es ∧ p.conn = cn ∧ p.remote = some a
  told : ∀ cn, Out.close cn ∈ s.out → cn ∈ ups es ∨ ∃ c p, Ev.broken c p ∈ es ∧ p.conn = cn
  listedOpen : ∀ a cn, (a, cn) ∈ s.l.reg.connections → Out.close cn ∉ s.out
  spared : ∀ o1 cn o2, s.out = o1 ++ .close cn :: o2 → Out.ping cn ∉ o2

theorem Apart.step {es : List Ev} {s s' : Prog} {e : Ev} (A : Apart es s) (R : Reached lib s) (O : Orderly (es ++ [e]))
    (h : s.step lib e = some (.ok s')) : Apart (es ++ [e]) s' := by
  have old : ∀ x, x ∈ es → x ∈ es ++ [e] := fun x hx => List.mem_append_left _ hx
  have last : e ∈ es ++ [e] := by simp
  /- a connection that comes up now did not come up before -/
  have fresh : ∀ c p, e = .connected c p → p.conn ∉ ups es := by
    rintro c p rfl hm
    have := O.once
    rw [ups_append] at this
    exact (List.nodup_append.mp this).2.2 _ hm p.conn (by simp [ups, Ev.up]) rfl
  refine ⟨?_, ?_, ?_, ?_⟩
  · intro a cn hm
    rcases (conn_step R h).mp hm with ⟨c, p, rfl, h1, h2, _⟩ | ⟨hm, _⟩
    · exact ⟨c, p, last, h2, h1⟩
    · obtain ⟨c, p, h1, h2⟩ := A.listed a cn hm
      exact ⟨c, p, old _ h1, h2⟩
  · intro cn hc
    rcases close_step R h hc with hc | ⟨c, p, a, rfl, _, rfl | ⟨rfl, _⟩⟩
    · rcases A.told cn hc with hc | ⟨c, p, h1, h2⟩
      · left; rw [ups_append]; exact List.mem_append_left _ hc
      · exact Or.inr ⟨c, p, old _ h1, h2⟩
    · exact Or.inr ⟨c, p, last, rfl⟩
    · exact Or.inl (mem_ups last)
  · intro a cn hm hc
    rcases (conn_step R h).mp hm with ⟨c, p, rfl, h1, rfl, acc⟩ | ⟨hm, hd, hj⟩
    · rcases close_step R h hc with hc | ⟨c', p', a', h3, h4, h5 | ⟨h5, h6⟩⟩
      · rcases A.told _ hc with hc | ⟨c', p', h2, h3⟩
        · exact fresh c p rfl hc
        · obtain ⟨pre, post, e1⟩ := List.append_of_mem h2
          refine O.after pre c' p' (post ++ [.connected c p]) (by rw [e1]; simp) ?_
          rw [h3]
          exact mem_ups (c := c) (by simp)
      · cases h5
      · cases h5
        rw [h1] at h4
        cases h4
        exact h6 acc
    · obtain ⟨c0, p0, g1, g2, g3⟩ := A.listed a cn hm
      rcases close_step R h hc with hc | ⟨c, p, a', h3, h4, rfl | ⟨rfl, _⟩⟩
      · exact A.listedOpen a cn hm hc
      · have := O.address c0 p0 c p (old _ g1) last (by rw [g2, h3])
        exact hd (by show p.remote = some a; rw [← this, g3])
      · exact fresh c p rfl (by rw [h3, ← g2]; exact mem_ups g1)
  · intro o1 cn o2 ho hp
    obtain ⟨more, hm, hk⟩ := ping_step h
    rw [hm] at ho
    rcases List.append_eq_append_iff.mp ho with ⟨b, h1, h2⟩ | ⟨b, h1, h2⟩
    · -- the closing is new
      have hin : Out.close cn ∈ more := by rw [h2]; simp
      have hpi : Out.ping cn ∈ more := by rw [h2]; simp [hp]
      rcases hk with hk | ⟨hk, _⟩
      · exact hk cn hpi
      · exact hk cn hin
    · cases b with
      | nil =>
        have hin : Out.close cn ∈ more := by rw [List.nil_append] at h2; rw [← h2]; simp
        have hpi : Out.ping cn ∈ more := by rw [List.nil_append] at h2; rw [← h2]; simp [hp]
        rcases hk with hk | ⟨hk, _⟩
        · exact hk cn hpi
        · exact hk cn hin
      | cons y b =>
        rw [List.cons_append] at h2
        cases h2
        rcases List.mem_append.mp hp with hp | hp
        · exact A.spared o1 cn b h1 hp
        · rcases hk with hk | ⟨_, hk⟩
          · exact hk cn hp
          · obtain ⟨a, ha⟩ := hk cn hp
            exact A.listedOpen a cn ha (by rw [h1]; simp)

theorem apart {es : List Ev} {s0 s : Prog} (R : Reached lib s0) (h0 : s0.l.reg.connections = []) (ho : s0.out = []) (h : Path lib s0 es s)
    (O : Orderly es) : Apart es s := by
  induction h with
  | nil =>
    refine ⟨?_, ?_, ?_, ?_⟩
    · intro a cn hm; rw [h0] at hm; cases hm
    · intro cn hm; rw [ho] at hm; cases hm
    · intro a cn hm; rw [h0] at hm; cases hm
    · intro o1 cn o2 h; rw [ho] at h; simp at h
  | snoc hp e he ih => exact (ih O.init).step (R.reaches hp.reaches) O he

end Verif.Services
