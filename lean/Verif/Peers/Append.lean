import Verif.Peers.Steps
/-
Effect of `AppendAddresses`.
-/

set_option autoImplicit false

namespace Verif.Peers

open Verif
open Verif.Chains (Addr BytesN Env)
open Verif.KV (Fate)

theorem First.cons_none {l : List (Option AddrPort)} {ap : AddrPort} : First (none :: l) ap ↔ First l ap := by
  constructor
  · rintro ⟨l1, l2, e, h⟩
    cases l1 with
    | nil => simp at e
    | cons x l1 =>
      simp at e
      exact ⟨l1, l2, e.2, fun ap' hm => h ap' (List.mem_cons_of_mem _ hm)⟩
  · rintro ⟨l1, l2, rfl, h⟩
    refine ⟨none :: l1, l2, rfl, fun ap' hm => h ap' ?_⟩
    simpa using hm

theorem First.cons_some {l : List (Option AddrPort)} {ap x : AddrPort} :
    First (some x :: l) ap ↔ ap = x ∨ (x.addr ≠ ap.addr ∧ First l ap) := by
  constructor
  · rintro ⟨l1, l2, e, h⟩
    cases l1 with
    | nil => simp at e; exact Or.inl e.1.symm
    | cons y l1 =>
      simp at e
      refine Or.inr ⟨h x (by simp [e.1]), l1, l2, e.2, fun ap' hm => h ap' (List.mem_cons_of_mem _ hm)⟩
  · rintro (rfl | ⟨hne, l1, l2, rfl, h⟩)
    · exact ⟨[], l, rfl, by simp⟩
    · refine ⟨some x :: l1, l2, rfl, fun ap' hm => ?_⟩
      rcases List.mem_cons.mp hm with e | hm
      · cases e; exact hne
      · exact h ap' hm

/-- the address is not in the store -/
def Unknown (db : DB) (a : Addr) : Prop := ∀ b, a = .v4 b → view db b = none

/-- what `AppendAddresses` did -/
structure Appended (fs : Nat → Fate) (r : Registry) (l : List (Option AddrPort)) (db' : DB) (added : List AddrPort)
    (k : Nat) : Prop where
  good : Good db'
  nodup : (added.map (·.addr)).Nodup
  sound : ∀ ap, ap ∈ added → First l ap ∧ acceptable r ap = true ∧ Unknown r.db ap.addr
  new : ∀ ap, ap ∈ added → ∀ b, ap.addr = .v4 b → view db' b = some (newPeer ap).toValue
  same : ∀ b : BytesN 4, (∀ ap, ap ∈ added → ap.addr ≠ .v4 b) → view db' b = view r.db b
  size : db'.length = r.db.length + added.length
  count : added.length = k ∨ (added.length = k + 1 ∧ ∃ i, fs i = .lostAck)
  complete : (∀ i, fs i = .ok) → ∀ ap, First l ap → acceptable r ap = true → Unknown r.db ap.addr → ap ∈ added

theorem length_put_new {V : Type} {db : KV.DB V} {k : Bytes} {v : V} (h : KV.get db k = none) :
    (KV.put db k v).length = db.length + 1 := by
  induction db with
  | nil => rfl
  | cons p db ih =>
    obtain ⟨a, b⟩ := p
    by_cases h1 : k = a
    · subst h1; simp [KV.get] at h
    · simp [KV.get, h1] at h
      by_cases h2 : bytesLt k a = true
      · simp [KV.put, h1, h2]
      · simp [KV.put, h1, h2, ih h]

theorem Appended.nothing {fs : Nat → Fate} {r : Registry} (G : Good r.db) {l : List (Option AddrPort)}
    (h : (∀ i, fs i = .ok) → ∀ ap, First l ap → acceptable r ap = true → Unknown r.db ap.addr → False) :
    Appended fs r l r.db [] 0 :=
  ⟨G, by simp, by simp, by simp, fun _ _ => rfl, by simp, Or.inl rfl, fun hf ap h1 h2 h3 => (h hf ap h1 h2 h3).elim⟩

theorem append_spec (fs : Nat → Fate) (l : List (Option AddrPort)) : ∀ (r : Registry) (c : Nat), Good r.db →
    ∃ db' added k, appendLoop fs r l c = ({ r with db := db' }, .ok (c + k)) ∧ Appended fs r l db' added k := by
  induction l with
  | nil =>
    intro r c G
    refine ⟨r.db, [], 0, rfl, .nothing G ?_⟩
    rintro _ ap ⟨l1, l2, e, _⟩
    simp at e
  | cons x l ih =>
    intro r c G
    cases x with
    | none =>
      obtain ⟨db', added, k, h, A⟩ := ih r c G
      refine ⟨db', added, k, by rw [appendLoop]; exact h, ?_⟩
      exact ⟨A.good, A.nodup, fun ap hm => ⟨First.cons_none.mpr (A.sound ap hm).1, (A.sound ap hm).2⟩, A.new, A.same,
        A.size, A.count, fun hf ap h1 h2 h3 => A.complete hf ap (First.cons_none.mp h1) h2 h3⟩
    | some x =>
      -- the element is skipped and no later element can be at fault
      have skip : (acceptable r x = true → ¬ Unknown r.db x.addr) → appendLoop fs r (some x :: l) c = appendLoop fs r l c →
          ∃ db' added k, appendLoop fs r (some x :: l) c = ({ r with db := db' }, .ok (c + k)) ∧
            Appended fs r (some x :: l) db' added k := by
        intro hx he
        obtain ⟨db', added, k, h, A⟩ := ih r c G
        refine ⟨db', added, k, he.trans h, A.good, A.nodup, fun ap hm => ?_, A.new, A.same, A.size, A.count,
          fun hf ap h1 h2 h3 => ?_⟩
        · obtain ⟨h1, h2, h3⟩ := A.sound ap hm
          refine ⟨First.cons_some.mpr (Or.inr ⟨fun e => ?_, h1⟩), h2, h3⟩
          have hax : acceptable r x = true := by unfold acceptable at h2 ⊢; rw [e]; exact h2
          exact hx hax (e ▸ h3)
        · rcases First.cons_some.mp h1 with rfl | ⟨_, h1⟩
          · exact absurd h3 (hx h2)
          · exact A.complete hf ap h1 h2 h3
      by_cases hacc : acceptable r x = true
      · obtain ⟨xa, xp⟩ := x
        have h4 : ∃ b, xa = .v4 b := by
          cases xa with
          | v4 b => exact ⟨b, rfl⟩
          | _ => simp [acceptable, is4] at hacc
        obtain ⟨b, rfl⟩ := h4
        cases hv : view r.db b with
        | some v0 =>
          refine skip (fun _ hu => ?_) ?_
          · rw [hu b rfl] at hv; cases hv
          · rw [appendLoop]; simp [hacc, G.hasPeer_v4, hv]
        | none =>
          have hun : Unknown r.db (.v4 b) := by intro b' e; cases e; exact hv
          have hget : KV.get r.db b.1 = none := by rw [G.get, hv]; rfl
          have hstep : appendLoop fs r (some ⟨.v4 b, xp⟩ :: l) c =
              match putPeer (fs c) r.db (newPeer ⟨.v4 b, xp⟩) with
              | (db', .ok ()) => appendLoop fs { r with db := db' } l (c + 1)
              | (db', .error .panic) => ({ r with db := db' }, .error .panic)
              | (db', .error (.err _)) => ({ r with db := db' }, .ok c) := by
            rw [appendLoop]; simp [hacc, G.hasPeer_v4, hv]
            rcases putPeer (fs c) r.db (newPeer ⟨.v4 b, xp⟩) with ⟨d, ((_ | _) | _)⟩ <;> rfl
          have hput : putPeer (fs c) r.db (newPeer ⟨.v4 b, xp⟩) =
              KV.write (fs c) r.db [.put b.1 (.record (newPeer ⟨.v4 b, xp⟩).toValue)] := by
            have hn : validUTF8 (newPeer ⟨.v4 b, xp⟩).name = true := by
              show validUTF8 [] = true
              unfold validUTF8; rfl
            have ha : (newPeer ⟨.v4 b, xp⟩).addr = .v4 b := rfl
            simp [putPeer, hn, ha, is4, keyBytes]
          rw [hput] at hstep
          -- the database with the new record, and one element
          have one : ∀ (hf : fs c = .lostAck),
              Appended fs r (some ⟨.v4 b, xp⟩ :: l) (KV.put r.db b.1 (.record (newPeer ⟨.v4 b, xp⟩).toValue))
                [⟨.v4 b, xp⟩] 0 := by
            intro hf
            refine ⟨G.put b _, by simp, ?_, ?_, ?_, ?_, Or.inr ⟨rfl, c, hf⟩, ?_⟩
            · intro ap hm
              simp at hm; subst hm
              exact ⟨First.cons_some.mpr (Or.inl rfl), hacc, hun⟩
            · intro ap hm b' e
              simp at hm; subst hm
              cases e
              rw [view_put, if_pos rfl]
            · intro b' hb'
              rw [view_put, if_neg]
              intro e
              exact hb' ⟨.v4 b, xp⟩ (by simp) (by rw [e])
            · simp [length_put_new hget]
            · intro hok; rw [hok c] at hf; cases hf
          cases hf : fs c with
          | fail =>
            rw [hf] at hstep
            refine ⟨r.db, [], 0, by rw [hstep]; rfl, .nothing G ?_⟩
            intro hok; rw [hok c] at hf; cases hf
          | lostAck =>
            rw [hf] at hstep
            exact ⟨_, _, 0, by rw [hstep]; rfl, one hf⟩
          | ok =>
            rw [hf] at hstep
            obtain ⟨db', added, k, h, A⟩ := ih { r with db := KV.put r.db b.1 (.record (newPeer ⟨.v4 b, xp⟩).toValue) } (c + 1)
              (G.put b _)
            have hnb : ∀ ap, ap ∈ added → ap.addr ≠ .v4 b := by
              intro ap hm e
              have := (A.sound ap hm).2.2 b e
              simp [view_put] at this
            refine ⟨db', ⟨.v4 b, xp⟩ :: added, k + 1, ?_, A.good, ?_, ?_, ?_, ?_, ?_, ?_, ?_⟩
            · rw [hstep]
              refine Eq.trans h ?_
              simp [Nat.add_assoc, Nat.add_comm 1 k]
            · rw [List.map_cons, List.nodup_cons]
              refine ⟨?_, A.nodup⟩
              intro hm
              obtain ⟨ap, hm, e⟩ := List.mem_map.mp hm
              exact hnb ap hm e
            · intro ap hm
              rcases List.mem_cons.mp hm with rfl | hm
              · exact ⟨First.cons_some.mpr (Or.inl rfl), hacc, hun⟩
              · obtain ⟨h1, h2, h3⟩ := A.sound ap hm
                refine ⟨First.cons_some.mpr (Or.inr ⟨fun e => hnb ap hm e.symm, h1⟩), h2, ?_⟩
                intro b' e
                have := h3 b' e
                simp only [view_put] at this
                split at this
                · cases this
                · exact this
            · intro ap hm b' e
              rcases List.mem_cons.mp hm with rfl | hm
              · cases e
                rw [A.same b hnb]
                simp [view_put]
              · exact A.new ap hm b' e
            · intro b' hb'
              rw [A.same b' (fun ap hm => hb' ap (List.mem_cons_of_mem _ hm))]
              simp only [view_put]
              rw [if_neg]
              intro e
              exact hb' ⟨.v4 b, xp⟩ (by simp) (by rw [e])
            · have := A.size
              simp only [length_put_new hget] at this
              simp only [List.length_cons]; omega
            · rcases A.count with hc | ⟨hc, hl⟩
              · exact Or.inl (by simp [hc])
              · exact Or.inr ⟨by simp [hc], hl⟩
            · intro hok ap h1 h2 h3
              rcases First.cons_some.mp h1 with rfl | ⟨hne, h1⟩
              · simp
              · refine List.mem_cons_of_mem _ (A.complete hok ap h1 h2 ?_)
                intro b' e
                simp only [view_put]
                rw [if_neg]
                · exact h3 b' e
                · rintro rfl; exact hne e.symm
      · refine skip (fun h => absurd h hacc) ?_
        rw [appendLoop]; simp [hacc]

/-- the effect of `AppendAddresses` on one record -/
theorem append_view {fs : Nat → Fate} {r : Registry} {l : List (Option AddrPort)} (G : Good r.db) (b : BytesN 4) :
    view (AppendAddresses fs r l).1.db b = view r.db b ∨
    (view r.db b = none ∧ ∃ port, acceptable r ⟨.v4 b, port⟩ = true ∧ some ⟨.v4 b, port⟩ ∈ l ∧
      view (AppendAddresses fs r l).1.db b = some (newPeer ⟨.v4 b, port⟩).toValue) := by
  obtain ⟨db', added, k, h, A⟩ := append_spec fs l r 0 G
  unfold AppendAddresses
  rw [h]
  by_cases hm : ∃ ap, ap ∈ added ∧ ap.addr = .v4 b
  · obtain ⟨⟨a, p⟩, hm, e⟩ := hm
    cases e
    obtain ⟨⟨l1, l2, hl, _⟩, h2, h3⟩ := A.sound _ hm
    exact Or.inr ⟨h3 b rfl, p, h2, by rw [hl]; simp, A.new _ hm b rfl⟩
  · exact Or.inl (A.same b (fun ap hm' e => hm ⟨ap, hm', e⟩))

end Verif.Peers
