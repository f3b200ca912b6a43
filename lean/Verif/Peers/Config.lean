import Verif.Peers.Versions
/-
What the configuration of the registry and the clock lead to, over histories.
-/

set_option autoImplicit false

namespace Verif.Peers

open Verif
open Verif.Chains (Addr BytesN Env)
open Verif.KV (Fate)

variable {lib : Lib} {r : Registry}

/-- where the time of the next attempt of a record comes from -/
theorem step_attempt {e : Event} (G : Good r.db) {b : BytesN 4} {v : Value} (h : view (step lib r e).db b = some v) :
    v.nextAttempt = zeroTime ∨ v.nextAttempt = roundSec e.now ∨ v.nextAttempt = roundSec (e.now + delay) ∨
    ∃ v0, view r.db b = some v0 ∧ v.nextAttempt = v0.nextAttempt := by
  rcases step_view (lib := lib) (e := e) G b with hv | ⟨v', hv, w⟩
  · rw [hv] at h; exact Or.inr (Or.inr (Or.inr ⟨v, h, rfl⟩))
  · rw [hv] at h
    cases h
    cases w with
    | connected f np hs op acc name applied eq => subst eq; exact Or.inr (Or.inl rfl)
    | shut f np hs op rej v0 old name eq => subst eq; exact Or.inr (Or.inr (Or.inr ⟨v0, old, rfl⟩))
    | left f op v0 old eq => subst eq; exact Or.inr (Or.inr (Or.inl rfl))
    | marked f op name eq =>
      subst eq
      cases hvw : view r.db b with
      | none => left; show (onFile r (.v4 b)).toValue.nextAttempt = _; rw [onFile_v4 G, hvw]; rfl
      | some v0 =>
        refine Or.inr (Or.inr (Or.inr ⟨v0, rfl, ?_⟩))
        show (onFile r (.v4 b)).toValue.nextAttempt = _; rw [onFile_v4 G, hvw]; rfl
    | scored f s op v0 old eq => subst eq; exact Or.inr (Or.inr (Or.inr ⟨v0, old, rfl⟩))
    | first f op old ver best eq => subst eq; exact Or.inr (Or.inr (Or.inl rfl))
    | again f op v0 old st ver next eq => subst eq; exact Or.inr (Or.inr (Or.inl rfl))
    | added fs l op old port acc mem eq => subst eq; exact Or.inl rfl

/-- a reading of the clock between the years 1970 and 9999, two days before the end -/
def Near (now : Int) : Prop := 0 ≤ now ∧ now < 253402128000 * second

/-- the times on record lie between the years 1 and 9999 -/
def OnTime (db : DB) : Prop := ∀ b v, view db b = some v → zeroTime ≤ v.nextAttempt ∧ v.nextAttempt < 253402214400

theorem OnTime.step {e : Event} (G : Good r.db) (h : OnTime r.db) (he : Near e.now) : OnTime (step lib r e).db := by
  intro b v hv
  obtain ⟨h1, h2⟩ := he
  simp only [second] at h2
  rcases step_attempt G hv with h' | h' | h' | ⟨v0, h0, h'⟩
  · rw [h']; decide
  · rw [h']; simp only [zeroTime, roundSec, second]; omega
  · rw [h']; simp only [zeroTime, roundSec, second, delay]; omega
  · rw [h']; exact h b v0 h0

theorem OnTime.exec (I : Inv r) (h : OnTime r.db) (es : List Event) (he : ∀ e, e ∈ es → Near e.now) : OnTime (Peers.exec lib r es).db := by
  induction es generalizing r with
  | nil => exact h
  | cons e es ih => exact ih I.step (h.step I.good (he e (by simp))) (fun x hx => he x (by simp [hx]))

/-- every connection is with a peer of the configured network -/
def SameNetwork (r : Registry) : Prop := ∀ a c, (a, c) ∈ r.connections → c.handshake.appName.getLast? = some r.scheme

theorem SameNetwork.step (I : Inv r) (h : SameNetwork r) (e : Event) : SameNetwork (step lib r e) := by
  intro a c hm
  by_cases hop : ∃ cf, e.op = .reopen cf
  · obtain ⟨cf, h'⟩ := hop
    rw [step_connections I.good, h'] at hm
    simp at hm
  · rw [(step_config (lib := lib) I.good (fun cf h' => hop ⟨cf, h'⟩)).2.2]
    rw [step_connections I.good] at hm
    split at hm
    · rename_i f a' np hs _
      cases register_outcome (lib := lib) (f := f) (now := e.now) (a := a') (np := np) (h := hs) I.good with
      | accepted acc eq =>
        rw [eq] at hm
        rcases mem_setConn.mp hm with e | ⟨hm, _⟩
        · cases e; exact acc.network
        · exact h a c hm
      | hostile _ _ eq => rw [eq] at hm; exact h a c hm
      | refused _ _ _ eq => rw [eq] at hm; exact h a c hm
    · split at hm
      · exact h a c (mem_delConn.mp hm).1
      · exact h a c hm
    · simp at hm
    · exact h a c hm

theorem ins_newest {v : Version} {l : List Version} (h : l.Pairwise (fun a b => a.lt b = false)) :
    (insVersion v l).Pairwise (fun a b => a.lt b = false) := by
  have n : ∀ a b : Version, a.lt b = false ↔ ¬ (a.lt b = true) := fun a b => by cases a.lt b <;> simp
  simp only [n, lt_iff] at h ⊢
  induction l with
  | nil => simp [insVersion]
  | cons w l ih =>
    have hh := List.pairwise_cons.mp h
    rw [insVersion]
    split
    · rename_i hlt
      rw [lt_iff] at hlt
      refine List.pairwise_cons.mpr ⟨fun x hx => ?_, h⟩
      rcases List.mem_cons.mp hx with rfl | hx
      · omega
      · have := hh.1 x hx; omega
    · rename_i hlt
      rw [lt_iff] at hlt
      refine List.pairwise_cons.mpr ⟨fun x hx => ?_, ih hh.2⟩
      rcases List.mem_cons.mp ((ins_perm v l).mem_iff.mp hx) with rfl | hx
      · omega
      · exact hh.1 x hx

theorem sortVersions_newest (l : List Version) : (sortVersions l).Pairwise (fun a b => a.lt b = false) := by
  induction l with
  | nil => exact List.Pairwise.nil
  | cons v l ih => exact ins_newest ih

/-- the first of the prepared versions is the newest of the configured ones, without its patch number -/
theorem newVersions_head {vs : List Version} {ver : Version} (h : (newVersions vs)[0]? = some ver) :
    (∃ v, v ∈ vs ∧ ver = v.base) ∧ ∀ v, v ∈ vs → ver.lt v.base = false := by
  unfold newVersions at h
  have hp := sortVersions_perm vs
  have hs := sortVersions_newest vs
  cases hl : sortVersions vs with
  | nil => rw [hl] at h; simp at h
  | cons x l =>
    rw [hl] at h hp hs
    simp only [List.map_cons, List.getElem?_cons_zero, Option.some.injEq] at h
    subst h
    refine ⟨⟨x, hp.mem_iff.mp (by simp), rfl⟩, fun v hv => ?_⟩
    have n : ∀ a b : Version, a.lt b = false ↔ ¬ (a.lt b = true) := fun a b => by cases a.lt b <;> simp
    have h0 : x.lt v = false := by
      rcases List.mem_cons.mp (hp.mem_iff.mpr hv) with rfl | h
      · rw [n, lt_iff]; omega
      · exact (List.pairwise_cons.mp hs).1 v h
    rw [n, lt_iff] at h0 ⊢
    simp only [Version.base]
    omega

theorem mem_of_goIndex {α : Type} {l : List α} {i : Nat} {a : α} (h : goIndex l i = .ok a) : a ∈ l :=
  List.mem_of_getElem? (getElem?_of_goIndex h)

theorem mem_nextVersion {vs : List Version} {v w : Version} (h : nextVersion vs v = .ok w) : w ∈ vs := by
  unfold nextVersion at h
  dsimp only at h
  split at h <;> exact mem_of_goIndex h

/-- what `SuggestVersion` answers -/
theorem suggest_answer {f : Fate} {now : Int} {a : Addr} {ver : Version} (h : (SuggestVersion f now r a).2 = .ok ver) :
    (PeerOf r a = fail .notFound ∧ r.versions[0]? = some ver) ∨
    (∃ p, PeerOf r a = .ok p ∧ p.state = .unknown ∧ nextVersion r.versions p.version = .ok ver) ∨
    ∃ p, PeerOf r a = .ok p ∧ p.state = .connected ∧ ver = p.version := by
  unfold SuggestVersion at h
  unfold PeerOf
  split at h
  · rename_i hp
    split at h
    · cases h
    · rename_i v hb
      dsimp only at h
      obtain ⟨_, _, h⟩ := go_bind_eq_ok.mp h
      cases h
      exact Or.inl ⟨hp, getElem?_of_goIndex hb⟩
  · cases h
  · rename_i p hp
    split at h
    · rename_i hst
      split at h
      · cases h
      · rename_i v hb
        dsimp only at h
        obtain ⟨_, _, h⟩ := go_bind_eq_ok.mp h
        cases h
        exact Or.inr (Or.inl ⟨p, hp, hst, hb⟩)
    · rename_i hst
      cases h
      exact Or.inr (Or.inr ⟨p, hp, hst, rfl⟩)
    · cases h

end Verif.Peers
