import Verif.Peers.Versions
/-
Connections over histories, and the sequence of suggested versions.
-/

set_option autoImplicit false

namespace Verif.Peers

open Verif
open Verif.Chains (Addr BytesN Env)
open Verif.KV (Fate)

variable {lib : Lib} {r : Registry}

theorem snoc_induction {α : Type} {P : List α → Prop} (nil : P []) (snoc : ∀ l a, P l → P (l ++ [a])) :
    ∀ l, P l := by
  have : ∀ n (l : List α), l.length = n → P l := by
    intro n
    induction n with
    | zero => intro l h; rw [List.length_eq_zero_iff.mp h]; exact nil
    | succ n ih =>
      intro l h
      have hne : l ≠ [] := by intro e; rw [e] at h; simp at h
      have := List.dropLast_concat_getLast hne
      rw [← this]
      exact snoc _ _ (ih _ (by simp [h]))
  exact fun l => this l.length l rfl

theorem exec_snoc (lib : Lib) (r : Registry) (es : List Event) (e : Event) :
    exec lib r (es ++ [e]) = step lib (exec lib r es) e := by simp [exec, List.foldl_append]

theorem live_snoc {r0 : Registry} {es : List Event} {e : Event} {a : Addr} {c : Conn} :
    Live lib r0 (es ++ [e]) a c ↔
      (∃ f h, e.op = .register f a c h ∧ Accepted lib (exec lib r0 es) a c h) ∨
      (Live lib r0 es a c ∧ ¬ Ends lib (exec lib r0 es) e a) := by
  constructor
  · rintro ⟨es1, e1, es2, f, h, hes, hop, hacc, hno⟩
    rcases es2.eq_nil_or_concat with rfl | ⟨es2', x, rfl⟩
    · have : es = es1 ∧ e = e1 := by
        have := List.append_inj' hes (by simp)
        exact ⟨this.1, by simpa using this.2⟩
      obtain ⟨rfl, rfl⟩ := this
      exact Or.inl ⟨f, h, hop, hacc⟩
    · have : es = es1 ++ e1 :: es2' ∧ e = x := by
        have h' : es ++ [e] = (es1 ++ e1 :: es2') ++ [x] := by rw [hes]; simp
        have := List.append_inj' h' (by simp)
        exact ⟨this.1, by simpa using this.2⟩
      obtain ⟨rfl, rfl⟩ := this
      refine Or.inr ⟨⟨es1, e1, es2', f, h, rfl, hop, hacc, ?_⟩, ?_⟩
      · intro es3 e' es4 h2
        exact hno es3 e' (es4 ++ [e]) (by simp [h2])
      · exact hno es2' e [] (by simp)
  · rintro (⟨f, h, hop, hacc⟩ | ⟨⟨es1, e1, es2, f, h, rfl, hop, hacc, hno⟩, hend⟩)
    · exact ⟨es, e, [], f, h, rfl, hop, hacc, by simp⟩
    · refine ⟨es1, e1, es2 ++ [e], f, h, by simp, hop, hacc, ?_⟩
      intro es3 e' es4 h2
      rcases es4.eq_nil_or_concat with rfl | ⟨es4', x, rfl⟩
      · have := List.append_inj' h2 (by simp)
        have e2 : e = e' := by simpa using this.2
        rw [← this.1, ← e2]
        exact hend
      · have h3 : es2 ++ [e] = (es3 ++ e' :: es4') ++ [x] := by rw [h2]; simp
        have := List.append_inj' h3 (by simp)
        exact hno es3 e' es4' this.1

theorem step_conn_iff (I : Inv r) {e : Event} {a : Addr} {c : Conn} :
    (a, c) ∈ (step lib r e).connections ↔
      (∃ f h, e.op = .register f a c h ∧ Accepted lib r a c h) ∨ ((a, c) ∈ r.connections ∧ ¬ Ends lib r e a) := by
  obtain ⟨now, op⟩ := e
  rw [step_connections I.good]
  cases op with
  | register f a' np h =>
    have noEnd : a' ≠ a ∨ ¬ Accepted lib r a' np h → ¬ Ends lib r ⟨now, .register f a' np h⟩ a := by
      rintro hc (⟨f', np', h', e, acc⟩ | ⟨f', p, e, _⟩ | ⟨c', e⟩)
      · cases e; rcases hc with hc | hc
        · exact hc rfl
        · exact hc acc
      · cases e
      · cases e
    simp only
    cases register_outcome (lib := lib) (f := f) (now := now) (a := a') (np := np) (h := h) I.good with
    | accepted acc eq =>
      rw [eq, mem_setConn]
      constructor
      · rintro (e | ⟨hm, hne⟩)
        · cases e; exact Or.inl ⟨f, h, rfl, acc⟩
        · exact Or.inr ⟨hm, noEnd (Or.inl (Ne.symm hne))⟩
      · rintro (⟨f', h', e, acc'⟩ | ⟨hm, hend⟩)
        · cases e; exact Or.inl rfl
        · refine Or.inr ⟨hm, fun e => hend (Or.inl ⟨f, np, h, ?_, ?_⟩)⟩
          · have e : a = a' := e
            rw [e]
          · have e : a = a' := e
            rw [e]; exact acc
    | hostile rej _ eq =>
      rw [eq]
      constructor
      · exact fun hm => Or.inr ⟨hm, noEnd (Or.inr rej)⟩
      · rintro (⟨f', h', e, acc'⟩ | ⟨hm, _⟩)
        · cases e; exact absurd acc' rej
        · exact hm
    | refused rej _ _ eq =>
      rw [eq]
      constructor
      · exact fun hm => Or.inr ⟨hm, noEnd (Or.inr rej)⟩
      · rintro (⟨f', h', e, acc'⟩ | ⟨hm, _⟩)
        · cases e; exact absurd acc' rej
        · exact hm
  | unregister f a' =>
    simp only
    cases hp : peer r.db a' with
    | error er =>
      simp only [Except.isOk, Except.toBool, Bool.false_eq_true, if_false]
      constructor
      · refine fun hm => Or.inr ⟨hm, ?_⟩
        rintro (⟨f', np', h', e, _⟩ | ⟨f', p, e, hpo⟩ | ⟨c', e⟩)
        · cases e
        · cases e
          have : peer r.db a = .ok p := hpo
          rw [hp] at this; cases this
        · cases e
      · rintro (⟨f', h', e, _⟩ | ⟨hm, _⟩)
        · cases e
        · exact hm
    | ok p =>
      simp only [Except.isOk, Except.toBool, if_true, mem_delConn]
      constructor
      · rintro ⟨hm, hne⟩
        refine Or.inr ⟨hm, ?_⟩
        rintro (⟨f', np', h', e, _⟩ | ⟨f', p, e, hpo⟩ | ⟨c', e⟩)
        · cases e
        · cases e; exact hne rfl
        · cases e
      · rintro (⟨f', h', e, _⟩ | ⟨hm, hend⟩)
        · cases e
        · refine ⟨hm, fun e => hend (Or.inr (Or.inl ⟨f, p, ?_, ?_⟩))⟩
          · have e : a = a' := e
            rw [e]
          · have e : a = a' := e
            rw [e]; exact hp
  | reopen c' =>
    simp only [List.not_mem_nil, false_iff]
    rintro (⟨f', h', e, _⟩ | ⟨_, hend⟩)
    · cases e
    · exact hend (Or.inr (Or.inr ⟨c', rfl⟩))
  | markHostile f arg =>
    constructor
    · refine fun hm => Or.inr ⟨hm, ?_⟩
      rintro (⟨_, _, _, e, _⟩ | ⟨_, _, e, _⟩ | ⟨_, e⟩) <;> cases e
    · rintro (⟨_, _, e, _⟩ | ⟨hm, _⟩)
      · cases e
      · exact hm
  | updateScore f a' s =>
    constructor
    · refine fun hm => Or.inr ⟨hm, ?_⟩
      rintro (⟨_, _, _, e, _⟩ | ⟨_, _, e, _⟩ | ⟨_, e⟩) <;> cases e
    · rintro (⟨_, _, e, _⟩ | ⟨hm, _⟩)
      · cases e
      · exact hm
  | append fs l =>
    constructor
    · refine fun hm => Or.inr ⟨hm, ?_⟩
      rintro (⟨_, _, _, e, _⟩ | ⟨_, _, e, _⟩ | ⟨_, e⟩) <;> cases e
    · rintro (⟨_, _, e, _⟩ | ⟨hm, _⟩)
      · cases e
      · exact hm
  | take =>
    constructor
    · refine fun hm => Or.inr ⟨hm, ?_⟩
      rintro (⟨_, _, _, e, _⟩ | ⟨_, _, e, _⟩ | ⟨_, e⟩) <;> cases e
    · rintro (⟨_, _, e, _⟩ | ⟨hm, _⟩)
      · cases e
      · exact hm
  | suggest f a' =>
    constructor
    · refine fun hm => Or.inr ⟨hm, ?_⟩
      rintro (⟨_, _, _, e, _⟩ | ⟨_, _, e, _⟩ | ⟨_, e⟩) <;> cases e
    · rintro (⟨_, _, e, _⟩ | ⟨hm, _⟩)
      · cases e
      · exact hm

/-- the connection map is what the history says -/
theorem conn_live (c0 : Config) (es : List Event) {a : Addr} {c : Conn} :
    (a, c) ∈ (exec lib (NewRegistry c0 []) es).connections ↔ Live lib (NewRegistry c0 []) es a c := by
  revert a c
  refine snoc_induction (P := fun es => ∀ {a : Addr} {c : Conn},
    (a, c) ∈ (exec lib (NewRegistry c0 []) es).connections ↔ Live lib (NewRegistry c0 []) es a c) ?_ ?_ es
  · intro a c
    simp only [exec, List.foldl_nil, NewRegistry, List.not_mem_nil, false_iff]
    rintro ⟨es1, e, es2, f, h, e', _⟩
    simp at e'
  · intro es e ih a c
    rw [exec_snoc, step_conn_iff ((Inv.start c0).exec es), live_snoc, ih]

theorem exec_known (I : Inv r) {b : BytesN 4} (h : view r.db b ≠ none) (es : List Event) :
    view (exec lib r es).db b ≠ none := by
  induction es generalizing r with
  | nil => exact h
  | cons e es ih => exact ih I.step (step_known I.good h)

theorem suggest_known (I : Inv r) {f : Fate} {now : Int} {b : BytesN 4} {ver : Version}
    (h : (SuggestVersion f now r (.v4 b)).2 = .ok ver) : view (SuggestVersion f now r (.v4 b)).1.db b ≠ none := by
  have G : Good (SuggestVersion f now r (.v4 b)).1.db := step_good (lib := ⟨fun _ _ => 0, id⟩) (e := ⟨now, .suggest f (.v4 b)⟩) I.good
  cases hv : view r.db b with
  | some v =>
    exact step_known (lib := ⟨fun _ _ => 0, id⟩) (e := ⟨now, .suggest f (.v4 b)⟩) I.good (by rw [hv]; simp)
  | none =>
    have hp := I.good.peer_v4 b
    rw [hv] at hp
    revert h
    simp only [SuggestVersion, hp, fail]
    cases bestVersion r.versions with
    | error e => intro h; simp at h
    | ok ver' =>
      intro h
      obtain ⟨u, hu, _⟩ := go_bind_eq_ok.mp h
      obtain ⟨b', ha, _, _, hdb⟩ := putPeer_ok hu
      cases ha
      simp only [hdb, view_put, if_true]
      simp

/-- With `SuggestVersion` before every registration, every connection has a record. -/
theorem managed_covered (c0 : Config) (es : List Event) (hm : ∀ a, Managed lib (NewRegistry c0 []) es a) :
    Covered (exec lib (NewRegistry c0 []) es) := by
  revert hm
  refine snoc_induction (P := fun es => (∀ a, Managed lib (NewRegistry c0 []) es a) →
    Covered (exec lib (NewRegistry c0 []) es)) ?_ ?_ es
  · intro _ b c h; simp [exec, NewRegistry] at h
  · intro es e ih hm b c hmem
    have I : Inv (exec lib (NewRegistry c0 []) es) := (Inv.start c0).exec es
    rw [exec_snoc] at hmem ⊢
    refine step_known I.good ?_
    rcases (step_conn_iff I).mp hmem with ⟨f, h, hop, _⟩ | ⟨hmem, _⟩
    · obtain ⟨es3, e', es4, f', ver, h3, hop', hok⟩ := hm (.v4 b) es e [] rfl (by simp [Event.registers, hop])
      have I3 : Inv (exec lib (NewRegistry c0 []) es3) := (Inv.start c0).exec es3
      have hk := suggest_known I3 hok
      have hstep : step lib (exec lib (NewRegistry c0 []) es3) e' =
          (SuggestVersion f' e'.now (exec lib (NewRegistry c0 []) es3) (.v4 b)).1 := by
        simp [step, hop']
      have : exec lib (NewRegistry c0 []) es = exec lib (step lib (exec lib (NewRegistry c0 []) es3) e') es4 := by
        rw [h3, exec_append, exec_cons]
      rw [this]
      exact exec_known I3.step (by rw [hstep]; exact hk) es4
    · refine ih ?_ b c hmem
      intro a es1 e1 es2 hes hreg
      exact hm a es1 e1 (es2 ++ [e]) (by rw [hes]; simp) hreg

/-- the suggestion counter is not moved by other quiet calls -/
theorem Pos.step (I : Inv r) {b : BytesN 4} {k : Nat} {e : Event} (P : Pos r.versions (view r.db b) k)
    (hz : Version.zero.mm ∉ r.versions.map Version.mm) (hq : e.quiet (.v4 b) = true)
    (hns : ∀ f, e.op ≠ .suggest f (.v4 b)) : Pos r.versions (view (Peers.step lib r e).db b) k := by
  rcases step_view (lib := lib) (e := e) I.good b with h | ⟨v', h, w⟩
  · rw [h]; exact P
  · rw [h]
    have same : ∀ v0 v1 : Value, view r.db b = some v0 → v1.state = v0.state → v1.version = v0.version →
        Pos r.versions (some v1) k := by
      intro v0 v1 h0 hs hv
      rw [h0] at P
      cases P with
      | seed _ st ver => exact .seed _ (hs.trans st) (by rw [hv]; exact ver)
      | tried _ j st hne ver => exact .tried _ j (hs.trans st) hne (hv.trans ver)
    cases w with
    | connected f np h op => simp [Event.quiet, op] at hq
    | shut f np h op => simp [Event.quiet, op] at hq
    | left f op v0 old eq => subst eq; exact same v0 _ old rfl rfl
    | marked f op => simp [Event.quiet, op] at hq
    | scored f s op v0 old eq => subst eq; exact same v0 _ old rfl rfl
    | first f op => exact absurd op (hns f)
    | again f op => exact absurd op (hns f)
    | added fs l op old port acc mem eq =>
      subst eq
      rw [old] at P
      cases P
      exact .seed _ rfl hz

theorem suggestions_pos (hn : (r.versions.map Version.mm).Nodup) (hne : 0 < r.versions.length)
    (hz : Version.zero.mm ∉ r.versions.map Version.mm) {b : BytesN 4} (es : List Event) :
    ∀ (r' : Registry) (k : Nat), Inv r' → r'.versions = r.versions → Pos r.versions (view r'.db b) k →
      (∀ e, e ∈ es → e.quiet (.v4 b) = true) →
      ∃ n, suggestions lib (.v4 b) r' es =
        (List.range n).map (fun i => .ok (r.versions[(k + i) % r.versions.length]'(Nat.mod_lt _ hne))) := by
  induction es with
  | nil => intro r' k _ _ _ _; exact ⟨0, rfl⟩
  | cons e es ih =>
    intro r' k I hvs P hq
    have hnr : ∀ c, e.op ≠ .reopen c := by
      intro c h
      have := hq e (by simp)
      simp [Event.quiet, h] at this
    have hvs' : (Peers.step lib r' e).versions = r.versions := by
      rw [(step_config (lib := lib) I.good hnr).2.1, hvs]
    by_cases hs : ∃ f, e.op = .suggest f (.v4 b)
    · obtain ⟨f, hop⟩ := hs
      have hf : f = .ok := by
        have := hq e (by simp)
        simpa [Event.quiet, hop] using this
      subst hf
      have hstep : Peers.step lib r' e = (SuggestVersion .ok e.now r' (.v4 b)).1 := by simp [Peers.step, hop]
      obtain ⟨h1, h2⟩ := suggest_pos I (by rw [hvs]; exact hn) (by rw [hvs]; exact hne) (by rw [hvs]; exact P) e.now
      rw [← hstep, hvs] at h2
      obtain ⟨n, hih⟩ := ih _ (k + 1) I.step hvs' h2 (fun e' h => hq e' (List.mem_cons_of_mem _ h))
      refine ⟨n + 1, ?_⟩
      have : suggestions lib (.v4 b) r' (e :: es) =
          (SuggestVersion .ok e.now r' (.v4 b)).2 :: suggestions lib (.v4 b) (Peers.step lib r' e) es := by
        rw [suggestions, hop]; simp
      rw [this, h1, hih, List.range_succ_eq_map, List.map_cons, List.map_map]
      congr 1
      · simp [hvs]
      · refine List.map_congr_left (fun i _ => ?_)
        simp only [Function.comp, Nat.succ_eq_add_one]
        congr 2
        rw [Nat.add_assoc, Nat.add_comm 1 i]
    · have hns : ∀ f, e.op ≠ .suggest f (.v4 b) := fun f h => hs ⟨f, h⟩
      have P' := P
      rw [← hvs] at P'
      have h2 := P'.step (lib := lib) I (by rw [hvs]; exact hz) (hq e (by simp)) hns
      rw [hvs] at h2
      obtain ⟨n, hih⟩ := ih _ k I.step hvs' h2 (fun e' h => hq e' (List.mem_cons_of_mem _ h))
      refine ⟨n, ?_⟩
      rw [← hih]
      rw [suggestions]
      split
      · rename_i f a' hop
        by_cases ha : a' = .v4 b
        · subst ha; exact absurd hop (hns f)
        · simp [ha]
      · rfl

end Verif.Peers
