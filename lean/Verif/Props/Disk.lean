import Verif.Cbor.PeersDisk
import Verif.Props.Size
import Verif.Props.PeersSize
import Verif.Props.Cbor
/-
Property C127: how many bytes the two databases hold.
-/

set_option autoImplicit false

namespace Verif.Props

open Verif Verif.Cbor

/-- the bytes of the keys and values of a database -/
def bytesOf (db : KV.DB Bytes) : Nat := (db.map (fun p => p.1.length + p.2.length)).sum

theorem bytesOf_le {n : Nat} : ∀ {db : KV.DB Bytes}, (∀ k v, (k, v) ∈ db → k.length + v.length ≤ n) → bytesOf db ≤ n * db.length
  | [], _ => by simp [bytesOf]
  | p :: db, h => by
    have h1 := h p.1 p.2 (by simp)
    have h2 := bytesOf_le (db := db) (fun k v hm => h k v (List.mem_cons_of_mem _ hm))
    have e : bytesOf (p :: db) = p.1.length + p.2.length + bytesOf db := rfl
    rw [e, List.length_cons, Nat.mul_succ]
    omega

/-! ## C127: the bytes on disk are bounded by what the peers talk about -/

section
open Verif.Chains Verif.Chains.Spec

/-- No record of the database of blocks has more than 374 bytes, its key included. -/
theorem C127_record {g : ProtoBlock} {l : Linkage} (h : Reachable g l) {k v : Bytes} (hm : (k, v) ∈ encDB l.db) : k.length + v.length ≤ 374 := by
  unfold encDB KV.DB at hm
  obtain ⟨⟨k', v'⟩, hm', e⟩ := List.mem_map.mp hm
  cases e
  exact small_bytes (reachable_small h) (reachable_scores h) hm'

/-- The database of blocks has at most 1870 bytes for every block and 374 for every peer ever named, and 748 more, however often
the peers repeat themselves. -/
theorem C127_blocks {g : ProtoBlock} {l0 : Linkage} (hf : Fresh g l0) (ops : List Op) (hb : inserts ops + 2 < 2 ^ 32)
    (I : List BlockID) (P : List Addr) (hg : g.id ∈ I) (hI : ∀ o a id, o ∈ ops → target o = some (a, id) → id ∈ I)
    (hP : ∀ o a id, o ∈ ops → target o = some (a, id) → a.plain ∈ P) :
    bytesOf (encDB (exec l0 ops).db) ≤ 748 + 1870 * I.length + 374 * P.length := by
  have h1 := C120_bound hf ops hb I P hg hI hP
  have h2 := bytesOf_le (n := 374) (db := encDB (exec l0 ops).db) (fun k v hm => C127_record ⟨l0, ops, hf, hb, rfl⟩ hm)
  have h3 : (encDB (exec l0 ops).db).length = (exec l0 ops).db.length := List.length_map ..
  rw [h3] at h2
  omega

/-- two branches: three blocks with 32-byte identifiers, two peers -/
example : Fresh Ex.g0 Ex.l0 ∧ bytesOf (encDB (exec Ex.l0 [Ex.pb 1 0 1, Ex.pb 1 0 1, Ex.pb 2 0 2, Ex.pb 2 0 1]).db) = 776 ∧
    776 ≤ 748 + 1870 * [Ex.bid 0, Ex.bid 1, Ex.bid 2].length + 374 * [Ex.ip 1, Ex.ip 2].length :=
  ⟨Ex.fresh, by decide +kernel, by decide⟩

end

section
open Verif.Peers
open Verif.Chains (Addr BytesN)
open Verif.Cbor.Peers (Modest encValue)

/-- The database of peers: at most 87 bytes for every address ever named, and the longest name and the longest score that any
peer ever sent. -/
theorem C127_peers {lib : Lib} (c : Config) (es : List Event) {N S : Nat} (hm : ∀ e, e ∈ es → Modest N S e)
    (P : List Addr) (hP : ∀ e a, e ∈ es → a ∈ named e.op → a ∈ P) :
    bytesOf (Cbor.Peers.encDB (exec lib (NewRegistry c []) es).db) ≤ (87 + N + S) * P.length := by
  have I : Inv (exec lib (NewRegistry c []) es) := (Inv.start c).exec es
  have hf := Cbor.Peers.exec_bounded (lib := lib) es (Inv.start c) (fun b v h => by simp [NewRegistry, view, KV.get] at h) hm
  have h2 : bytesOf (Cbor.Peers.encDB (exec lib (NewRegistry c []) es).db) ≤ (87 + N + S) * (Cbor.Peers.encDB (exec lib (NewRegistry c []) es).db).length := by
    refine bytesOf_le (fun k v hkv => ?_)
    unfold Cbor.Peers.encDB KV.DB at hkv
    obtain ⟨⟨k', v'⟩, hm', e⟩ := List.mem_map.mp hkv
    cases e
    obtain ⟨hk, x, hx⟩ := I.good.shape _ _ hm'
    subst hx
    have hv : view (exec lib (NewRegistry c []) es).db ⟨k', hk⟩ = some x := by
      simp [view, KV.get_of_mem I.good.sorted hm']
    have := Cbor.Peers.encValue_length (hf _ _ hv)
    simp only [Cbor.Peers.encVal]
    omega
  have h3 : (Cbor.Peers.encDB (exec lib (NewRegistry c []) es).db).length = (exec lib (NewRegistry c []) es).db.length := List.length_map ..
  rw [h3] at h2
  exact Nat.le_trans h2 (Nat.mul_le_mul_left _ (C121_bound c es P hP))

/-- There is no bound that does not depend on scores: in every state, every peer on record can make its record as large as it likes by
announcing one score. -/
theorem C127_unlimited {lib : Lib} {r : Registry} (R : Reachable lib r) {b : BytesN 4} (hb : hasPeer r.db (.v4 b) = .ok true) (n : Nat) :
    n ≤ bytesOf (Cbor.Peers.encDB (UpdatePeerScore .ok r (.v4 b) (256 ^ n)).1.db) := by
  have I := R.inv
  obtain ⟨v, hv⟩ : ∃ v, view r.db b = some v := by
    have := I.good.peer_v4 b
    cases h : view r.db b with
    | some v => exact ⟨v, rfl⟩
    | none =>
      exfalso
      simp only [hasPeer, keyBytes, go_bind_ok] at hb
      cases hg : KV.get r.db b.1 with
      | none => rw [hg] at hb; cases hb
      | some x =>
        obtain ⟨_, y, rfl⟩ := I.good.shape _ _ (KV.mem_of_get hg)
        simp [view, hg] at h
  have hp : peer r.db (.v4 b) = .ok (v.toPeer (.v4 b)) := by rw [I.good.peer_v4, hv]
  have hput := putPeer_valid (db := r.db) (p := { v.toPeer (.v4 b) with score := some (256 ^ n) }) (b := b) rfl (I.names _ _ hv)
  have e : (UpdatePeerScore .ok r (.v4 b) (256 ^ n)).1.db =
      KV.put r.db b.1 (.record ({ v.toPeer (.v4 b) with score := some (256 ^ n) } : Peer).toValue) := by
    unfold UpdatePeerScore
    rw [hp]
    simp only [hput]
  rw [e]
  have hm : (b.1, Val.record ({ v.toPeer (.v4 b) with score := some (256 ^ n) } : Peer).toValue) ∈
      KV.put r.db b.1 (.record ({ v.toPeer (.v4 b) with score := some (256 ^ n) } : Peer).toValue) :=
    KV.mem_of_get (by rw [KV.get_put, if_pos rfl])
  have hl : n ≤ (encValue ({ v.toPeer (.v4 b) with score := some (256 ^ n) } : Peer).toValue).length := by
    have hn : n ≤ 8 + (encBigPtr (some (256 ^ n))).length := by
      have hlog : Nat.log2 (256 ^ n) = 8 * n := by
        rw [show (256 : Nat) ^ n = 2 ^ (8 * n) by rw [Nat.pow_mul]]
        exact Nat.log2_two_pow
      have hne : (256 : Nat) ^ n ≠ 0 := Nat.pos_iff_ne_zero.mp (Nat.pow_pos (by decide))
      have hlen : (natBytes (256 ^ n)).length = n + 1 := by
        rw [natBytes, if_neg hne, be_length, hlog]; omega
      simp only [encBigPtr, encBig]
      split
      · next h =>
        have h8 : n < 9 := by
          rcases Nat.lt_or_ge n 9 with h8 | h8
          · exact h8
          · have := Nat.pow_le_pow_right (n := 256) (by decide) h8
            omega
        omega
      · simp only [List.length_append, hlen]; omega
    unfold encValue
    rw [encStruct_length (by simp) (by simp)]
    simp only [List.map_cons, List.map_nil, List.sum_cons, List.sum_nil]
    have he : ({ v.toPeer (.v4 b) with score := some (256 ^ n) } : Peer).toValue.score = some (256 ^ n) := rfl
    rw [he]
    omega
  refine Nat.le_trans hl ?_
  have key : ∀ (db : Peers.DB) (k : Bytes) (x : Value), (k, Val.record x) ∈ db → (encValue x).length ≤ bytesOf (Cbor.Peers.encDB db) := by
    intro db
    induction db with
    | nil => intro k x h; simp at h
    | cons q db ih =>
      intro k x h
      have e : bytesOf (Cbor.Peers.encDB (q :: db)) = q.1.length + (Cbor.Peers.encVal q.2).length + bytesOf (Cbor.Peers.encDB db) := rfl
      rw [e]
      rcases List.mem_cons.mp h with rfl | h
      · simp only [Cbor.Peers.encVal]; omega
      · have := ih k x h; omega
  exact key _ _ _ hm

/-- a peer that has connected and one that has not -/
example : (∀ e, e ∈ [Peers.Ex.seeds, Peers.Ex.at_ 5 (.register .ok (Peers.Ex.ip 1 1 1 1) (Peers.Ex.conn 97) (Peers.Ex.hs 97))] → Modest 9 0 e) ∧
    bytesOf (Cbor.Peers.encDB (Peers.Ex.run [Peers.Ex.seeds, Peers.Ex.at_ 5 (.register .ok (Peers.Ex.ip 1 1 1 1) (Peers.Ex.conn 97) (Peers.Ex.hs 97))]).db) = 61 := by
  refine ⟨?_, by decide +kernel⟩
  intro e he
  simp only [List.mem_cons, List.not_mem_nil, or_false] at he
  rcases he with rfl | rfl
  · trivial
  · exact ⟨by decide, by decide⟩

end

end Verif.Props
