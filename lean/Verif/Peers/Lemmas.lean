import Verif.Peers.Spec
/-
The peer database seen as a map from IPv4 addresses to records, and the effect
of each registry call on it.
-/

set_option autoImplicit false

namespace Verif.Peers

open Verif
open Verif.Chains (Addr BytesN Env)
open Verif.KV (Fate)

/-- the record stored for an IPv4 address -/
def view (db : DB) (b : BytesN 4) : Option Value :=
  match KV.get db b.1 with
  | some (.record v) => some v
  | _ => none

/-- the databases the program produces -/
structure Good (db : DB) : Prop where
  sorted : KV.Sorted db
  shape : ∀ k v, (k, v) ∈ db → k.length = 4 ∧ ∃ x, v = .record x

theorem Good.nil : Good [] := ⟨List.Pairwise.nil, by simp⟩

theorem Good.put {db : DB} (G : Good db) (b : BytesN 4) (v : Value) : Good (KV.put db b.1 (.record v)) := by
  refine ⟨KV.sorted_put G.sorted _ _, fun k w h => ?_⟩
  rcases KV.mem_put_of_mem h with e | h
  · cases e; exact ⟨b.2, v, rfl⟩
  · exact G.shape k w h

theorem Good.get {db : DB} (G : Good db) (b : BytesN 4) :
    KV.get db b.1 = (view db b).map Val.record := by
  unfold view
  cases h : KV.get db b.1 with
  | none => rfl
  | some v =>
    obtain ⟨_, x, rfl⟩ := G.shape _ _ (KV.mem_of_get h)
    rfl

theorem view_put (db : DB) (b b' : BytesN 4) (v : Value) :
    view (KV.put db b.1 (.record v)) b' = if b' = b then some v else view db b' := by
  unfold view
  rw [KV.get_put]
  by_cases h : b' = b
  · subst h; simp
  · have : b'.1 ≠ b.1 := fun e => h (Subtype.ext e)
    simp [h, this]

theorem Good.peer_v4 {db : DB} (G : Good db) (b : BytesN 4) :
    peer db (.v4 b) = match view db b with
      | none => fail .notFound
      | some v => .ok (v.toPeer (.v4 b)) := by
  simp only [peer, keyBytes, go_bind_ok, G.get]
  cases view db b <;> rfl

theorem Good.hasPeer_v4 {db : DB} (G : Good db) (b : BytesN 4) : hasPeer db (.v4 b) = .ok (view db b).isSome := by
  simp only [hasPeer, keyBytes, go_bind_ok, G.get]
  cases view db b <;> rfl

/-- what a lookup can find -/
theorem Good.peer_ok {db : DB} (G : Good db) {a : Addr} {p : Peer} (h : peer db a = .ok p) :
    p.addr = a ∧ p.conn = none ∧ (∀ b, a = .v4 b → view db b = some p.toValue) := by
  cases a with
  | zero => simp [peer, keyBytes, goPanic] at h
  | v4 b =>
    rw [G.peer_v4] at h
    cases hv : view db b with
    | none => rw [hv] at h; simp [fail] at h
    | some v =>
      rw [hv] at h; simp at h; subst h
      refine ⟨rfl, rfl, fun b' e => ?_⟩
      cases e; rw [hv]; rfl
  | v6 b z =>
    simp only [peer, keyBytes, go_bind_ok] at h
    cases hg : KV.get db (b.1.take 4) with
    | none => rw [hg] at h; simp [fail] at h
    | some v =>
      obtain ⟨_, x, rfl⟩ := G.shape _ _ (KV.mem_of_get hg)
      rw [hg] at h; simp at h; subst h
      exact ⟨rfl, rfl, fun b' e => by cases e⟩

theorem peer_zero (db : DB) : peer db .zero = goPanic := rfl

/-- the two things a write can do to the database -/
theorem putPeer_db (f : Fate) (db : DB) (p : Peer) :
    (putPeer f db p).1 = db ∨
    ∃ b : BytesN 4, p.addr = .v4 b ∧ validUTF8 p.name = true ∧ f ≠ .fail ∧
      (putPeer f db p).1 = KV.put db b.1 (.record p.toValue) := by
  unfold putPeer
  cases ha : p.addr with
  | zero => simp [is4]
  | v6 b z => simp [is4]
  | v4 b =>
    simp only [is4, if_true, keyBytes]
    by_cases hn : validUTF8 p.name = true
    · rw [if_pos hn]
      cases f with
      | ok => exact Or.inr ⟨b, rfl, hn, by simp, rfl⟩
      | fail => exact Or.inl rfl
      | lostAck => exact Or.inr ⟨b, rfl, hn, by simp, rfl⟩
    · simp [hn]

/-- a write that reported success happened -/
theorem putPeer_ok {f : Fate} {db : DB} {p : Peer} (h : (putPeer f db p).2 = .ok ()) :
    ∃ b : BytesN 4, p.addr = .v4 b ∧ validUTF8 p.name = true ∧ f = .ok ∧
      (putPeer f db p).1 = KV.put db b.1 (.record p.toValue) := by
  revert h
  unfold putPeer
  cases ha : p.addr with
  | zero => simp [is4, fail]
  | v6 b z => simp [is4, fail]
  | v4 b =>
    simp only [is4, if_true, keyBytes]
    by_cases hn : validUTF8 p.name = true
    · rw [if_pos hn]
      cases f with
      | ok => exact fun _ => ⟨b, rfl, hn, rfl, rfl⟩
      | fail => intro h; simp [KV.write, Verif.fail] at h
      | lostAck => intro h; simp [KV.write, Verif.fail] at h
    · simp [hn, fail]

/-- a valid record with a working database is stored -/
theorem putPeer_valid {db : DB} {p : Peer} {b : BytesN 4} (ha : p.addr = .v4 b) (hn : validUTF8 p.name = true) :
    putPeer .ok db p = (KV.put db b.1 (.record p.toValue), .ok ()) := by
  simp [putPeer, ha, is4, hn, keyBytes, KV.write, KV.applyBatch, KV.applyOp]

theorem putPeer_not_panic (f : Fate) (db : DB) (p : Peer) : (putPeer f db p).2 ≠ .error .panic := by
  unfold putPeer
  cases ha : p.addr with
  | zero => simp [is4, fail]
  | v6 b z => simp [is4, fail]
  | v4 b =>
    simp only [is4, if_true, keyBytes]
    by_cases hn : validUTF8 p.name = true
    · simp only [hn, if_true]; cases f <;> simp [KV.write, Verif.fail]
    · simp [hn, fail]

theorem peers_good {db : DB} (G : Good db) :
    ∃ ps, peers db = .ok ps ∧
      ps.length = db.length ∧
      (∀ p, p ∈ ps ↔ ∃ b v, view db b = some v ∧ p = v.toPeer (.v4 b)) ∧
      (ps.map (·.addr)).Nodup := by
  obtain ⟨hs, hg⟩ := G
  induction db with
  | nil => exact ⟨[], rfl, rfl, by simp [view, KV.get], by simp⟩
  | cons kv db ih =>
    obtain ⟨k, v⟩ := kv
    obtain ⟨hk, x, rfl⟩ := hg k v (by simp)
    have hs' := List.pairwise_cons.mp hs
    obtain ⟨ps, h1, h2, h3, h4⟩ := ih hs'.2 (fun k v h => hg k v (List.mem_cons_of_mem _ h))
    have hnot : view db ⟨k, hk⟩ = none := by
      unfold view
      cases hgk : KV.get db k with
      | none => rfl
      | some w => exact absurd rfl (bytesLt_ne (hs'.1 (k, w) (KV.mem_of_get hgk)))
    have hview : ∀ b : BytesN 4, view ((k, .record x) :: db) b = if b = ⟨k, hk⟩ then some x else view db b := by
      intro b
      by_cases e : b = ⟨k, hk⟩
      · subst e; simp [view, KV.get]
      · have : b.1 ≠ k := fun e' => e (Subtype.ext e')
        simp [view, KV.get, e, this]
    refine ⟨x.toPeer (.v4 ⟨k, hk⟩) :: ps, ?_, ?_, ?_, ?_⟩
    · simp [peers, keyFrom, hk, h1]
    · simp [h2]
    · intro p
      rw [List.mem_cons, h3]
      constructor
      · rintro (rfl | ⟨b, v, hv, rfl⟩)
        · exact ⟨_, _, by rw [hview]; simp, rfl⟩
        · refine ⟨b, v, ?_, rfl⟩
          rw [hview, if_neg]
          · exact hv
          · rintro rfl; rw [hnot] at hv; cases hv
      · rintro ⟨b, v, hv, rfl⟩
        rw [hview] at hv
        by_cases e : b = ⟨k, hk⟩
        · subst e; simp at hv; subst hv; exact Or.inl rfl
        · rw [if_neg e] at hv; exact Or.inr ⟨b, v, hv, rfl⟩
    · rw [List.map_cons, List.nodup_cons]
      refine ⟨?_, h4⟩
      intro hm
      obtain ⟨p, hp, e⟩ := List.mem_map.mp hm
      obtain ⟨b, v, hv, rfl⟩ := (h3 p).mp hp
      simp [Value.toPeer] at e
      subst e
      rw [hnot] at hv; cases hv

end Verif.Peers
