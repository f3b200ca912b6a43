import Verif.Peers.Queries
/-
Version lists and the order in which `SuggestVersion` goes through them.
-/

set_option autoImplicit false

namespace Verif.Peers

open Verif
open Verif.Chains (Addr BytesN Env)
open Verif.KV (Fate)

/-- the part of a version that `nextVersion` compares -/
def Version.mm (v : Version) : UInt32 × UInt32 := (v.major, v.minor)

/-- the version with its patch number dropped -/
def Version.base (v : Version) : Version := ⟨v.major, v.minor, 0⟩

theorem ins_perm (v : Version) (l : List Version) : (insVersion v l).Perm (v :: l) := by
  induction l with
  | nil => exact List.Perm.refl _
  | cons w l ih =>
    rw [insVersion]
    split
    · exact List.Perm.refl _
    · exact (List.Perm.cons w ih).trans (List.Perm.swap v w l)

theorem sortVersions_perm (l : List Version) : (sortVersions l).Perm l := by
  induction l with
  | nil => exact List.Perm.refl _
  | cons v l ih => exact (ins_perm v _).trans (List.Perm.cons v ih)

theorem lt_iff (a b : Version) : a.lt b = true ↔
    a.major.toNat < b.major.toNat ∨ (a.major.toNat = b.major.toNat ∧
      (a.minor.toNat < b.minor.toNat ∨ (a.minor.toNat = b.minor.toNat ∧ a.patch.toNat < b.patch.toNat))) := by
  have e : ∀ x y : UInt32, x = y ↔ x.toNat = y.toNat := fun x y => UInt32.toNat_inj.symm
  unfold Version.lt
  simp only [ne_eq, e, UInt32.lt_iff_toNat_lt]
  split
  · simp; omega
  · split <;> simp <;> omega

theorem lt_total {a b : Version} (h : a.mm ≠ b.mm) (hlt : a.lt b = false) : b.lt a = true := by
  have e : ∀ x y : UInt32, x = y ↔ x.toNat = y.toNat := fun x y => UInt32.toNat_inj.symm
  have h1 : ¬ (a.lt b = true) := by rw [hlt]; simp
  rw [lt_iff] at h1
  rw [lt_iff]
  simp only [Version.mm, ne_eq, Prod.mk.injEq, e] at h
  omega

theorem lt_trans {a b c : Version} (h1 : a.lt b = true) (h2 : b.lt c = true) : a.lt c = true := by
  rw [lt_iff] at *
  omega

/-- dropping the patch keeps the order of versions that differ in major or minor -/
theorem lt_base {a b : Version} (h : a.mm ≠ b.mm) : a.base.lt b.base = a.lt b := by
  have e : ∀ x y : UInt32, x = y ↔ x.toNat = y.toNat := fun x y => UInt32.toNat_inj.symm
  simp only [Version.mm, ne_eq, Prod.mk.injEq, e] at h
  rw [Bool.eq_iff_iff, lt_iff, lt_iff]
  simp only [Version.base]
  omega

theorem ins_sorted {v : Version} {l : List Version} (h : l.Pairwise (fun a b => b.lt a = true))
    (hne : ∀ w, w ∈ l → w.mm ≠ v.mm) : (insVersion v l).Pairwise (fun a b => b.lt a = true) := by
  induction l with
  | nil => simp [insVersion]
  | cons w l ih =>
    have hh := List.pairwise_cons.mp h
    rw [insVersion]
    split
    · rename_i hlt
      refine List.pairwise_cons.mpr ⟨fun x hx => ?_, h⟩
      rcases List.mem_cons.mp hx with rfl | hx
      · exact hlt
      · exact lt_trans (hh.1 x hx) hlt
    · rename_i hlt
      refine List.pairwise_cons.mpr ⟨fun x hx => ?_, ih hh.2 (fun w' hw => hne w' (List.mem_cons_of_mem _ hw))⟩
      rcases List.mem_cons.mp ((ins_perm v l).mem_iff.mp hx) with rfl | hx
      · exact lt_total (hne w (by simp)) (by simpa using hlt)
      · exact hh.1 x hx

theorem sortVersions_sorted {l : List Version} (h : (l.map Version.mm).Nodup) :
    (sortVersions l).Pairwise (fun a b => b.lt a = true) := by
  induction l with
  | nil => exact List.Pairwise.nil
  | cons v l ih =>
    rw [List.map_cons, List.nodup_cons] at h
    refine ins_sorted (ih h.2) (fun w hw e => h.1 ?_)
    exact List.mem_map.mpr ⟨w, (sortVersions_perm l).mem_iff.mp hw, e⟩

theorem newVersions_perm (l : List Version) : (newVersions l).Perm (l.map Version.base) :=
  (sortVersions_perm l).map _

theorem newVersions_mm (l : List Version) : ((newVersions l).map Version.mm).Perm (l.map Version.mm) := by
  have := (newVersions_perm l).map Version.mm
  rw [List.map_map] at this
  exact this

theorem newVersions_sorted {l : List Version} (h : (l.map Version.mm).Nodup) :
    (newVersions l).Pairwise (fun a b => b.lt a = true) := by
  have hs := sortVersions_sorted h
  have hn : ((sortVersions l).map Version.mm).Nodup := ((sortVersions_perm l).map _).nodup_iff.mpr h
  unfold newVersions
  refine List.pairwise_map.mpr ?_
  have hn' : (sortVersions l).Pairwise (fun a b => a.mm ≠ b.mm) := List.pairwise_map.mp hn
  exact List.Pairwise.imp₂ (fun a b h1 h2 => (lt_base (Ne.symm h2)).trans h1) hs hn'

theorem findVersion_get {vs : List Version} (hn : (vs.map Version.mm).Nodup) {i : Nat} (hi : i < vs.length) :
    findVersion vs[i] vs = i := by
  induction vs generalizing i with
  | nil => simp at hi
  | cons x vs ih =>
    rw [List.map_cons, List.nodup_cons] at hn
    cases i with
    | zero => simp [findVersion]
    | succ i =>
      have hi' : i < vs.length := by simpa using hi
      have hne : ¬ (vs[i].major = x.major ∧ vs[i].minor = x.minor) := by
        rintro ⟨h1, h2⟩
        refine hn.1 (List.mem_map.mpr ⟨vs[i], List.getElem_mem hi', ?_⟩)
        simp [Version.mm, h1, h2]
      simp [findVersion, hne, ih hn.2 hi']

theorem findVersion_none {vs : List Version} {v : Version} (h : v.mm ∉ vs.map Version.mm) :
    findVersion v vs = vs.length := by
  induction vs with
  | nil => rfl
  | cons x vs ih =>
    simp only [List.map_cons, List.mem_cons, not_or] at h
    have hne : ¬ (v.major = x.major ∧ v.minor = x.minor) := by
      rintro ⟨h1, h2⟩
      exact h.1 (by simp [Version.mm, h1, h2])
    simp [findVersion, hne, ih h.2]

theorem nextVersion_get {vs : List Version} (hn : (vs.map Version.mm).Nodup) {i : Nat} (hi : i < vs.length) :
    nextVersion vs vs[i] = .ok (vs[(i + 1) % vs.length]'(Nat.mod_lt _ (by omega))) := by
  unfold nextVersion
  simp only [findVersion_get hn hi]
  split
  · rename_i h
    have hlast : i + 1 = vs.length := by omega
    have h0 : (i + 1) % vs.length = 0 := by rw [hlast]; simp
    rw [goIndex_of_lt (by omega)]
    simp [h0]
  · rename_i h
    have hlt : i + 1 < vs.length := by omega
    rw [goIndex_of_lt hlt]
    simp [Nat.mod_eq_of_lt hlt]

theorem nextVersion_unseen {vs : List Version} {v : Version} (h : v.mm ∉ vs.map Version.mm) (hne : 0 < vs.length) :
    nextVersion vs v = .ok vs[0] := by
  unfold nextVersion
  simp only [findVersion_none h]
  rw [if_pos (by omega), goIndex_of_lt hne]

/-- how far `SuggestVersion` has gone for a record: `k` is the number of suggestions made -/
inductive Pos (vs : List Version) : Option Value → Nat → Prop where
  | unseen : Pos vs none 0
  | seed (v : Value) (st : v.state = .unknown) (ver : v.version.mm ∉ vs.map Version.mm) : Pos vs (some v) 0
  | tried (v : Value) (k : Nat) (st : v.state = .unknown) (hne : 0 < vs.length)
      (ver : v.version = vs[k % vs.length]'(Nat.mod_lt _ hne)) : Pos vs (some v) (k + 1)

theorem suggest_first {r : Registry} (I : Inv r) {b : BytesN 4} (hv : view r.db b = none) {ver : Version}
    (hb : bestVersion r.versions = .ok ver) (now : Int) :
    ∃ v : Value, v.version = ver ∧ v.state = .unknown ∧ v.nextAttempt = roundSec (now + delay) ∧
      SuggestVersion .ok now r (.v4 b) = ({ r with db := KV.put r.db b.1 (.record v) }, .ok ver) := by
  have hp := I.good.peer_v4 b
  rw [hv] at hp
  have hput := putPeer_valid (db := r.db) (p := { Peer.zero with
    addr := .v4 b, port := 0, version := ver, nextAttempt := roundSec (now + delay), state := .unknown })
    (b := b) rfl validUTF8_nil
  refine ⟨⟨0, 0, [], ver, .unknown, roundSec (now + delay), none⟩, rfl, rfl, rfl, ?_⟩
  simp only [SuggestVersion, hp, fail, hb]
  exact congrArg (fun w => (({ r with db := w.1 } : Registry), (do let _ ← w.2; .ok ver : Go Version))) hput

theorem suggest_again {r : Registry} (I : Inv r) {b : BytesN 4} {v : Value} (hv : view r.db b = some v)
    (st : v.state = .unknown) {ver : Version} (hb : nextVersion r.versions v.version = .ok ver) (now : Int) :
    SuggestVersion .ok now r (.v4 b) =
      ({ r with db := KV.put r.db b.1 (.record { v with version := ver, nextAttempt := roundSec (now + delay) }) },
        .ok ver) := by
  have hp := I.good.peer_v4 b
  rw [hv] at hp
  have hput := putPeer_valid (db := r.db) (p := { v.toPeer (.v4 b) with
    version := ver, nextAttempt := roundSec (now + delay) }) (b := b) rfl (I.names b v hv)
  have st' : (v.toPeer (.v4 b)).state = .unknown := st
  have hb' : nextVersion r.versions (v.toPeer (.v4 b)).version = .ok ver := hb
  simp only [SuggestVersion, hp]
  split
  · simp only [hb', hput]; rfl
  · rename_i h; rw [st'] at h; cases h
  · rename_i h; rw [st'] at h; cases h

theorem suggest_pos {r : Registry} (I : Inv r) (hn : (r.versions.map Version.mm).Nodup) (hne : 0 < r.versions.length)
    {b : BytesN 4} {k : Nat} (P : Pos r.versions (view r.db b) k) (now : Int) :
    (SuggestVersion .ok now r (.v4 b)).2 = .ok (r.versions[k % r.versions.length]'(Nat.mod_lt _ hne)) ∧
    Pos r.versions (view (SuggestVersion .ok now r (.v4 b)).1.db b) (k + 1) := by
  generalize hv : view r.db b = x at P
  cases P with
  | unseen =>
    obtain ⟨v, h1, h2, _, he⟩ := suggest_first I hv (ver := r.versions[0]) (goIndex_of_lt hne) now
    rw [he]
    refine ⟨by simp, ?_⟩
    simp only [view_put, if_true]
    exact .tried _ 0 h2 hne (by simp [h1])
  | seed v st ver =>
    rw [suggest_again I hv st (nextVersion_unseen ver hne) now]
    refine ⟨by simp, ?_⟩
    simp only [view_put, if_true]
    exact .tried _ 0 st hne (by simp)
  | tried v j st hne' ver =>
    have hmod : (j % r.versions.length + 1) % r.versions.length = (j + 1) % r.versions.length := by
      simp [Nat.add_mod]
    have hnv : nextVersion r.versions v.version = .ok (r.versions[(j + 1) % r.versions.length]'(Nat.mod_lt _ hne)) := by
      rw [ver, nextVersion_get hn (Nat.mod_lt _ hne)]
      simp [hmod]
    rw [suggest_again I hv st hnv now]
    refine ⟨by simp, ?_⟩
    simp only [view_put, if_true]
    exact .tried _ (j + 1) st hne (by simp)

end Verif.Peers
