import Verif.Peers.Append
/-
Invariant of the registry over histories.
-/

set_option autoImplicit false

namespace Verif.Peers

open Verif
open Verif.Chains (Addr BytesN Env)
open Verif.KV (Fate)

theorem append_good {fs : Nat → Fate} {r : Registry} {l : List (Option AddrPort)} (G : Good r.db) :
    Good (AppendAddresses fs r l).1.db ∧
    ∃ db', (AppendAddresses fs r l).1 = { r with db := db' } := by
  obtain ⟨db', added, k, h, A⟩ := append_spec fs l r 0 G
  unfold AppendAddresses
  rw [h]
  exact ⟨A.good, db', rfl⟩

theorem step_good {lib : Lib} {r : Registry} {e : Event} (G : Good r.db) : Good (step lib r e).db := by
  by_cases hop : ∃ fs l, e.op = .append fs l
  · obtain ⟨fs, l, h⟩ := hop
    simp only [step, h]
    exact (append_good G).1
  · rcases step_db (lib := lib) (e := e) G (fun fs l h => hop ⟨fs, l, h⟩) with h | ⟨b, v, h, _⟩
    · rw [h]; exact G
    · rw [h]; exact G.put b v

/-- Any change of a record is one of the listed writes. -/
theorem step_view {lib : Lib} {r : Registry} {e : Event} (G : Good r.db) (b : BytesN 4) :
    view (step lib r e).db b = view r.db b ∨
    ∃ v, view (step lib r e).db b = some v ∧ Write lib r e b v := by
  by_cases hop : ∃ fs l, e.op = .append fs l
  · obtain ⟨fs, l, h⟩ := hop
    simp only [step, h]
    rcases append_view (fs := fs) (l := l) G b with h' | ⟨h1, port, h2, h3, h4⟩
    · exact Or.inl h'
    · exact Or.inr ⟨_, h4, .added fs l h h1 port h2 h3 rfl⟩
  · rcases step_db (lib := lib) (e := e) G (fun fs l h => hop ⟨fs, l, h⟩) with h | ⟨b', v, h, w⟩
    · rw [h]; exact Or.inl rfl
    · rw [h, view_put]
      by_cases hb : b = b'
      · subst hb; rw [if_pos rfl]; exact Or.inr ⟨v, rfl, w⟩
      · rw [if_neg hb]; exact Or.inl rfl

/-- records are never removed -/
theorem step_known {lib : Lib} {r : Registry} {e : Event} (G : Good r.db) {b : BytesN 4}
    (h : view r.db b ≠ none) : view (step lib r e).db b ≠ none := by
  rcases step_view (lib := lib) (e := e) G b with h' | ⟨v, h', _⟩
  · rw [h']; exact h
  · rw [h']; simp

/-- the configuration after a call -/
theorem step_config {lib : Lib} {r : Registry} {e : Event} (G : Good r.db) (hop : ∀ c, e.op ≠ .reopen c) :
    (step lib r e).declared = r.declared ∧ (step lib r e).versions = r.versions ∧
    (step lib r e).scheme = r.scheme := by
  obtain ⟨now, op⟩ := e
  cases op with
  | reopen c => exact absurd rfl (hop c)
  | append fs l =>
    obtain ⟨_, db', h⟩ := append_good (fs := fs) (l := l) G
    simp only [step, h, and_self]
  | take =>
    simp only [step, TakeAvailableAddresses]
    cases peers r.db <;> simp
  | register f a np h =>
    simp only [step]
    cases register_outcome (lib := lib) (f := f) (now := now) (a := a) (np := np) (h := h) G with
    | accepted _ eq => rw [eq]; simp
    | hostile _ _ eq => rw [eq]; simp
    | refused _ _ _ eq => rw [eq]; simp
  | unregister f a => simp only [step, UnregisterPeer]; cases peer r.db a <;> simp
  | updateScore f a s => simp only [step, UpdatePeerScore]; cases peer r.db a <;> simp
  | markHostile f arg =>
    cases arg with
    | none => simp [step, MarkAsHostile]
    | some a => simp only [step, MarkAsHostile]; split <;> simp
  | suggest f a =>
    simp only [step, SuggestVersion]
    split
    · split <;> simp
    · simp
    · split
      · split <;> simp
      · simp
      · simp

/-- the connections after a call -/
theorem step_connections {lib : Lib} {r : Registry} {e : Event} (G : Good r.db) :
    (step lib r e).connections = match e.op with
      | .register f a np h => (RegisterPeer lib f e.now r a np h).1.connections
      | .unregister _ a => if (peer r.db a).isOk then delConn r.connections a else r.connections
      | .reopen _ => []
      | _ => r.connections := by
  obtain ⟨now, op⟩ := e
  cases op with
  | reopen c => rfl
  | append fs l =>
    obtain ⟨_, db', h⟩ := append_good (fs := fs) (l := l) G
    simp only [step, h]
  | take =>
    simp only [step, TakeAvailableAddresses]
    cases peers r.db <;> simp
  | register f a np h => rfl
  | unregister f a => simp only [step, UnregisterPeer]; cases peer r.db a <;> simp [Except.isOk, Except.toBool]
  | updateScore f a s => simp only [step, UpdatePeerScore]; cases peer r.db a <;> simp
  | markHostile f arg =>
    cases arg with
    | none => simp [step, MarkAsHostile]
    | some a => simp only [step, MarkAsHostile]; split <;> simp
  | suggest f a =>
    simp only [step, SuggestVersion]
    split
    · split <;> simp
    · simp
    · split
      · split <;> simp
      · simp
      · simp

theorem mem_delConn {l : List (Addr × Conn)} {a : Addr} {x : Addr × Conn} :
    x ∈ delConn l a ↔ x ∈ l ∧ x.1 ≠ a := by simp [delConn]

theorem mem_setConn {l : List (Addr × Conn)} {a : Addr} {c : Conn} {x : Addr × Conn} :
    x ∈ setConn l a c ↔ x = (a, c) ∨ (x ∈ l ∧ x.1 ≠ a) := by simp [setConn, mem_delConn]

theorem nodup_delConn {l : List (Addr × Conn)} (h : (l.map (·.1)).Nodup) (a : Addr) :
    ((delConn l a).map (·.1)).Nodup :=
  List.Nodup.sublist (List.Sublist.map _ List.filter_sublist) h

theorem nodup_setConn {l : List (Addr × Conn)} (h : (l.map (·.1)).Nodup) (a : Addr) (c : Conn) :
    ((setConn l a c).map (·.1)).Nodup := by
  unfold setConn
  rw [List.map_cons, List.nodup_cons]
  refine ⟨?_, nodup_delConn h a⟩
  intro hm
  obtain ⟨x, hx, e⟩ := List.mem_map.mp hm
  exact (mem_delConn.mp hx).2 e

theorem hasConn_iff {l : List (Addr × Conn)} {a : Addr} : hasConn l a = true ↔ ∃ c, (a, c) ∈ l := by
  simp only [hasConn, List.any_eq_true, decide_eq_true_eq]
  constructor
  · rintro ⟨⟨x, c⟩, hm, e⟩; cases e; exact ⟨c, hm⟩
  · rintro ⟨c, hm⟩; exact ⟨(a, c), hm, rfl⟩

/-- the invariant -/
structure Inv (r : Registry) : Prop where
  good : Good r.db
  names : ∀ b v, view r.db b = some v → validUTF8 v.name = true
  nodup : (r.connections.map (·.1)).Nodup
  ipv4 : ∀ a c, (a, c) ∈ r.connections → is4 a = true ∧ a ≠ r.declared

theorem validUTF8_nil : validUTF8 [] = true := by unfold validUTF8; rfl

theorem Write.name {lib : Lib} {r : Registry} {e : Event} {b : BytesN 4} {v : Value} (w : Write lib r e b v)
    (hn : ∀ b v, view r.db b = some v → validUTF8 v.name = true) : validUTF8 v.name = true := by
  cases w with
  | connected f np h op acc name applied eq => subst eq; exact name
  | shut f np h op rej v0 old name eq => exact name
  | left f op v0 old eq => subst eq; exact hn b v0 old
  | marked f op name eq => exact name
  | scored f s op v0 old eq => subst eq; exact hn b v0 old
  | first f op old ver best eq => subst eq; exact validUTF8_nil
  | again f op v0 old st ver next eq => subst eq; exact hn b v0 old
  | added fs l op old port acc mem eq => subst eq; exact validUTF8_nil

theorem Inv.step {lib : Lib} {r : Registry} {e : Event} (I : Inv r) : Inv (step lib r e) := by
  refine ⟨step_good I.good, ?_, ?_, ?_⟩
  · intro b v hv
    rcases step_view (lib := lib) (e := e) I.good b with h | ⟨v', h, w⟩
    · exact I.names b v (h ▸ hv)
    · rw [h] at hv; cases hv
      exact w.name I.names
  · rw [step_connections I.good]
    split
    · rename_i f a np h _
      cases register_outcome (lib := lib) (f := f) (now := e.now) (a := a) (np := np) (h := h) I.good with
      | accepted _ eq => rw [eq]; exact nodup_setConn I.nodup a np
      | hostile _ _ eq => rw [eq]; exact I.nodup
      | refused _ _ _ eq => rw [eq]; exact I.nodup
    · split
      · exact nodup_delConn I.nodup _
      · exact I.nodup
    · simp
    · exact I.nodup
  · intro a c hm
    by_cases hop : ∃ cf, e.op = .reopen cf
    · obtain ⟨cf, h⟩ := hop
      rw [step_connections I.good, h] at hm
      simp at hm
    · rw [(step_config (lib := lib) I.good (fun cf h => hop ⟨cf, h⟩)).1]
      rw [step_connections I.good] at hm
      split at hm
      · rename_i f a' np h _
        cases register_outcome (lib := lib) (f := f) (now := e.now) (a := a') (np := np) (h := h) I.good with
        | accepted acc eq =>
          rw [eq] at hm
          rcases mem_setConn.mp hm with e | ⟨hm, _⟩
          · cases e; exact ⟨acc.ipv4, acc.other⟩
          · exact I.ipv4 a c hm
        | hostile _ _ eq => rw [eq] at hm; exact I.ipv4 a c hm
        | refused _ _ _ eq => rw [eq] at hm; exact I.ipv4 a c hm
      · split at hm
        · exact I.ipv4 a c (mem_delConn.mp hm).1
        · exact I.ipv4 a c hm
      · simp at hm
      · exact I.ipv4 a c hm

theorem Inv.start (c : Config) : Inv (NewRegistry c []) :=
  ⟨Good.nil, by intro b v h; simp [NewRegistry, view, KV.get] at h, by simp [NewRegistry],
    by intro a c h; simp [NewRegistry] at h⟩

theorem Inv.exec {lib : Lib} {r : Registry} (I : Inv r) (es : List Event) : Inv (exec lib r es) := by
  induction es generalizing r with
  | nil => exact I
  | cons e es ih => exact ih I.step

theorem Reachable.inv {lib : Lib} {r : Registry} (h : Reachable lib r) : Inv r := by
  obtain ⟨c, es, rfl⟩ := h
  exact (Inv.start c).exec es

theorem Reachable.step {lib : Lib} {r : Registry} (h : Reachable lib r) (e : Event) : Reachable lib (step lib r e) := by
  obtain ⟨c, es, rfl⟩ := h
  exact ⟨c, es ++ [e], by simp [Peers.exec, List.foldl_append]⟩

theorem Reachable.exec {lib : Lib} {r : Registry} (h : Reachable lib r) (es : List Event) :
    Reachable lib (exec lib r es) := by
  obtain ⟨c, es', rfl⟩ := h
  exact ⟨c, es' ++ es, by simp [Peers.exec, List.foldl_append]⟩

theorem exec_append (lib : Lib) (r : Registry) (es es' : List Event) :
    Peers.exec lib r (es ++ es') = Peers.exec lib (Peers.exec lib r es) es' := by
  simp [Peers.exec, List.foldl_append]

theorem exec_cons (lib : Lib) (r : Registry) (e : Event) (es : List Event) :
    Peers.exec lib r (e :: es) = Peers.exec lib (Peers.step lib r e) es := rfl

/-- the pending set after a call other than `TakeAvailableAddresses`: an address leaves it only
by one of the releasing calls -/
theorem step_pending {lib : Lib} {r : Registry} {e : Event} (G : Good r.db) {a : Addr} (hm : a ∈ r.pending)
    (hrel : e.releases a = false) : a ∈ (step lib r e).pending := by
  obtain ⟨now, op⟩ := e
  have mem_del : ∀ a', a' ≠ a → a ∈ delPending r.pending a' := by
    intro a' hne; simp [delPending, hm]; exact fun e => hne e.symm
  cases op with
  | reopen c => simp [Event.releases] at hrel
  | append fs l =>
    obtain ⟨_, db', h⟩ := append_good (fs := fs) (l := l) G
    simp only [Peers.step, h]; exact hm
  | take =>
    simp only [Peers.step, TakeAvailableAddresses]
    have key : ∀ (ps : List Peer) (pend : List Addr), a ∈ pend → a ∈ (takeLoop r now ps pend).2 := by
      intro ps
      induction ps with
      | nil => exact fun pend h => h
      | cons p ps ih =>
        intro pend h
        rw [takeLoop]
        split
        · exact ih _ (List.mem_cons_of_mem _ h)
        · exact ih _ h
    cases peers r.db with
    | error e => exact hm
    | ok ps => exact key ps _ hm
  | register f a' np h =>
    have hne : a' ≠ a := by simpa [Event.releases] using hrel
    simp only [Peers.step]
    cases register_outcome (lib := lib) (f := f) (now := now) (a := a') (np := np) (h := h) G with
    | accepted _ eq => rw [eq]; exact mem_del a' hne
    | hostile _ _ eq => rw [eq]; exact mem_del a' hne
    | refused _ _ _ eq => rw [eq]; exact mem_del a' hne
  | unregister f a' =>
    have hne : a' ≠ a := by simpa [Event.releases] using hrel
    simp only [Peers.step, UnregisterPeer]
    cases peer r.db a' with
    | error e => exact hm
    | ok p => exact mem_del a' hne
  | updateScore f a' s => simp only [Peers.step, UpdatePeerScore]; cases peer r.db a' <;> exact hm
  | markHostile f arg =>
    cases arg with
    | none => exact hm
    | some a' =>
      have hne : a' ≠ a := by simpa [Event.releases] using hrel
      simp only [Peers.step, MarkAsHostile]
      split <;> exact mem_del a' hne
  | suggest f a' =>
    simp only [Peers.step, SuggestVersion]
    split
    · split <;> exact hm
    · exact hm
    · split
      · split <;> exact hm
      · exact hm
      · exact hm

end Verif.Peers
