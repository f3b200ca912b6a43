import Verif.Cbor.ChainsLemmas
import Verif.Cbor.PeersLemmas
import Verif.Chains.Examples
import Verif.Peers.Queries
import Verif.Peers.Examples
/-
Properties C125 and C126: what is read from the bytes of the two databases is what was stored.
-/

set_option autoImplicit false

namespace Verif.Props

open Verif Verif.Cbor

/-! ## C125: the bytes of the chains database stand for the records -/

section
open Verif.Chains Verif.Chains.Spec
open Verif.KV (Fate)

/-- Whatever blocks have been stored: every function that reads from the database gets from the bytes on disk
exactly what the records are, no record is ever refused, and there is nothing else that could be read. -/
theorem C125_read {g : ProtoBlock} {l : Linkage} (h : Reachable g l) :
    (∀ n, Cbor.getBlock (encDB l.db) n = Chains.getBlock l.db n) ∧
    (∀ n, Cbor.getLink (encDB l.db) n = Chains.getLink l.db n) ∧
    (∀ id, Cbor.getNumOfBlockID (encDB l.db) id = Chains.getNumOfBlockID l.db id) ∧
    (∀ c, c = blocksCounter ∨ c = headsCounter → Cbor.getCounter (encDB l.db) c = Chains.getCounter l.db c) ∧
    (∀ n, Cbor.getHeadByBlockNum (encDB l.db) n = Chains.getHeadByBlockNum l.db n) ∧
    (∀ a, Cbor.getLeash (encDB l.db) a = Chains.getLeash l.db a) ∧
    Cbor.leashes (encDB l.db) = Chains.leashes l.db ∧
    Cbor.getHeads (encDB l.db) = Chains.getHeads l.db := by
  obtain ⟨ns, hs, R, _⟩ := reachable_rep h
  exact ⟨Rep.getBlock_enc R (reachable_scores h), Rep.getLink_enc R, Rep.getNum_enc R, Rep.getCounter_enc R, Rep.getHead_enc R,
    Rep.getLeash_enc R, Rep.leashes_enc R, Rep.getHeads_enc R⟩

/-- Writing records and writing their bytes come to the same, whatever happens to the write. -/
theorem C125_write (f : Fate) (db : Chains.DB) (b : Chains.Batch) :
    KV.write f (encDB db) (encBatch b) = (encDB (KV.write f db b).1, (KV.write f db b).2) := write_enc f db b

/-- A record of a block is read back from its bytes alone, whatever its numbers are: heights and times up to the
largest, scores of any size that memory can hold, ids of any length. -/
theorem C125_block (b : BlockRec) (h1 : (natBytes b.score).length < 2 ^ 64) (h2 : b.id.length < 2 ^ 64) (h3 : b.parent.length < 2 ^ 64) :
    decBlock (encBlock b) = some b := decBlock_enc ⟨h1, h2, h3⟩

/-- A record of a link is read back from its bytes alone, up to the number of elements that the library takes. -/
theorem C125_link (l : LinkRec) (h1 : l.blockID.length < 2 ^ 64) (h2 : l.parents.length ≤ 131072) :
    decLink (encLink l) = some l := decLink_enc ⟨h1, h2⟩

/-- Different records have different bytes. -/
theorem C125_distinct {g : ProtoBlock} {l : Linkage} (h : Reachable g l) {n m : UInt64} {a b : BlockRec}
    (ha : Chains.getBlock l.db n = .ok a) (hb : Chains.getBlock l.db m = .ok b) (e : encBlock a = encBlock b) : n = m := by
  obtain ⟨ns, hs, R, _⟩ := reachable_rep h
  have key : ∀ {n : UInt64} {a : BlockRec}, Chains.getBlock l.db n = .ok a → ∃ x, at1 ns n.toNat = some x ∧ x.br = a := by
    intro n a ha
    unfold Chains.getBlock at ha
    rw [R.blocks] at ha
    cases hx : at1 ns n.toNat with
    | none => rw [hx] at ha; cases ha
    | some x => rw [hx] at ha; cases ha; exact ⟨x, rfl, rfl⟩
  obtain ⟨x, hx, rfl⟩ := key ha
  obtain ⟨y, hy, rfl⟩ := key hb
  have S := reachable_scores h
  have e1 := decBlock_enc (Rep.blockFits R S hx)
  rw [e, decBlock_enc (Rep.blockFits R S hy)] at e1
  have e2 : y.br = x.br := Option.some.inj e1
  exact UInt64.toNat_inj.mp (R.tree.inj _ _ x y hx hy (by rw [e2]))

/-- Whether an empty slice is nil makes no difference: null and the empty byte string are read alike, and so are null
and the empty array. -/
theorem C125_empty (b : BlockRec) (h1 : (natBytes b.score).length < 2 ^ 64) (h2 : b.id.length < 2 ^ 64) (h3 : b.parent = [])
    (l : LinkRec) (h4 : l.blockID.length < 2 ^ 64) (h5 : l.parents = []) :
    decBlock (encStruct [(0, encUint b.height.toNat), (1, encUint b.timestamp.toNat), (2, encBigPtr (some b.score)), (3, encBytes b.id),
      (4, [0x40]), (5, encBytes b.generator.1)]) = some b ∧
    decLink (encStruct [(0, encUint l.height.toNat), (1, encBytes l.blockID), (2, [0x80])]) = some l := by
  have r1 : Reads [0x40] (.bytes []) := fun d r => by
    have h : readHead ([0x40] ++ r) = some (2, 0, r) := rfl
    rw [readItem, h]; simp [takeN]
  have r2 : Reads [0x80] (.arr []) := fun d r => by
    have h : readHead ([0x80] ++ r) = some (4, 0, r) := rfl
    rw [readItem, h]; simp [itemsN]
  have hh := b.height.toNat_lt
  have ht := b.timestamp.toNat_lt
  have hg : b.generator.1.length < 2 ^ 64 := by rw [b.generator.2]; omega
  have hl := l.height.toNat_lt
  constructor
  · have e := readStruct_fields [(0, encUint b.height.toNat, .uint b.height.toNat), (1, encUint b.timestamp.toNat, .uint b.timestamp.toNat),
      (2, encBigPtr (some b.score), bigPtrItem (some b.score)), (3, encBytes b.id, bytesItem b.id), (4, [0x40], .bytes []),
      (5, encBytes b.generator.1, bytesItem b.generator.1)] (by simp [maxElements]) (by
        intro p hp
        simp only [List.mem_cons, List.not_mem_nil, or_false] at hp
        rcases hp with rfl | rfl | rfl | rfl | rfl | rfl
        · exact ⟨by omega, reads_uint (by omega)⟩
        · exact ⟨by omega, reads_uint (by omega)⟩
        · exact ⟨by omega, reads_bigPtr (fun n hn => by rw [← Option.some.inj hn]; exact h1)⟩
        · exact ⟨by omega, reads_bytes h2⟩
        · exact ⟨by omega, r1⟩
        · exact ⟨by omega, reads_bytes hg⟩)
    simp only [List.map_cons, List.map_nil] at e
    simp only [decBlock, e, lookup]
    simp only [Nat.reduceEqDiff, ↓reduceIte, asUint_uint (show b.height.toNat ≤ 2 ^ 32 - 1 by omega),
      asUint_uint (show b.timestamp.toNat ≤ 2 ^ 64 - 1 by omega), asBig_item, asBytes_item]
    simp [asBytes, b.generator.2, ← h3]
  · have e := readStruct_fields [(0, encUint l.height.toNat, .uint l.height.toNat), (1, encBytes l.blockID, bytesItem l.blockID),
      (2, [0x80], .arr [])] (by simp [maxElements]) (by
        intro p hp'
        simp only [List.mem_cons, List.not_mem_nil, or_false] at hp'
        rcases hp' with rfl | rfl | rfl
        · exact ⟨by omega, reads_uint (by omega)⟩
        · exact ⟨by omega, reads_bytes h4⟩
        · exact ⟨by omega, r2⟩)
    simp only [List.map_cons, List.map_nil] at e
    simp only [decLink, e, lookup]
    simp only [Nat.reduceEqDiff, ↓reduceIte, asUint_uint (show l.height.toNat ≤ 2 ^ 32 - 1 by omega), asBytes_item]
    simp [asNums, allOf, ← h5]

/-- The store of the examples on disk: the link of the genesis block, and the record of the first block. -/
example : Reachable Ex.g0 Ex.l1 ∧
    KV.get (encDB Ex.l1.db) (numKey chainPrefix 1) = some ([0xa3, 0x00, 0x01, 0x01, 0x58, 0x20] ++ (Ex.bid 0).1 ++ [0x02, 0xf6]) ∧
    KV.get (encDB Ex.l1.db) (numKey chainPrefix 3) = some ([0xa3, 0x00, 0x03, 0x01, 0x58, 0x20] ++ (Ex.bid 2).1 ++ [0x02, 0x82, 0x02, 0x01]) ∧
    KV.get (encDB Ex.l1.db) (numKey blockPrefix 2) = some ([0xa6, 0x00, 0x02, 0x01, 0x19, 0x03, 0xe9, 0x02, 0x1b, 0x05, 0x1e, 0xb8, 0x51, 0xeb, 0x85,
      0x1e, 0xb8, 0x03, 0x58, 0x20] ++ (Ex.bid 1).1 ++ [0x04, 0x58, 0x20] ++ (Ex.bid 0).1 ++ [0x05, 0x58, 0x1a] ++ (Ex.gen 1).1) := by
  refine ⟨Ex.reach1, by decide +kernel, by decide +kernel, by decide +kernel⟩

/-- A score that is no longer a `uint64` is written with the tag of big numbers. -/
example : encBig (2 ^ 64 + 5) = [0xc2, 0x49, 1, 0, 0, 0, 0, 0, 0, 0, 5] ∧ (natBytes (2 ^ 64 + 5)).length < 2 ^ 64 := by decide +kernel

end

/-! ## C126: the bytes of the peers database stand for the records -/

section
open Verif.Peers
open Verif.Chains (Addr BytesN)
open Verif.KV (Fate)
open Verif.Cbor.Peers (Ordinary encValue decValue Fits)

/-- Whatever the peers call themselves: everything stored about them can be read back from the bytes on disk.  The list
of all peers is never refused, and every lookup finds what was stored. -/
theorem C126_read {lib : Lib} (c : Config) (es : List Event) (ho : ∀ e, e ∈ es → Ordinary e) {r : Registry}
    (hr : r = exec lib (NewRegistry c []) es) :
    Cbor.Peers.peers (Cbor.Peers.encDB r.db) = Peers.peers r.db ∧
    (∀ a, Cbor.Peers.peer (Cbor.Peers.encDB r.db) a = Peers.peer r.db a) ∧
    (∀ a, Cbor.Peers.hasPeer (Cbor.Peers.encDB r.db) a = Peers.hasPeer r.db a) ∧
    ∃ ps, Cbor.Peers.peers (Cbor.Peers.encDB r.db) = .ok ps ∧ ps.length = r.db.length := by
  subst hr
  obtain ⟨I, F⟩ := Cbor.Peers.history_fits (lib := lib) c es ho
  have hs := fun k v h => (I.good.shape k v h).2
  obtain ⟨ps, h1, h2, _, _⟩ := peers_good I.good
  have e := Cbor.Peers.peers_enc hs F
  exact ⟨e, Cbor.Peers.peer_enc hs F, Cbor.Peers.hasPeer_enc _, ps, e.trans h1, h2⟩

/-- Writing records and writing their bytes come to the same, whatever happens to the write. -/
theorem C126_write (f : Fate) (db : Peers.DB) (b : KV.Batch Peers.Val) :
    KV.write f (Cbor.Peers.encDB db) (Cbor.Peers.encBatch b) = (Cbor.Peers.encDB (KV.write f db b).1, (KV.write f db b).2) :=
  Cbor.Peers.write_enc f db b

/-- The check of names is exactly what is needed: a record can be read back if and only if its name is UTF-8. -/
theorem C126_name {v : Value} (h : Fits v) : decValue (encValue v) = .record v ↔ validUTF8 v.name = true := by
  rw [Cbor.Peers.decValue_enc h]
  constructor
  · intro e
    by_cases hu : validUTF8 v.name = true
    · exact hu
    · rw [if_neg hu] at e; cases e
  · intro hu; rw [if_pos hu]

/-- `putPeer` stores nothing that could not be read back. -/
theorem C126_put (f : Fate) (db : Peers.DB) (p : Peer) (h : Fits p.toValue) :
    (putPeer f db p).1 = db ∨ decValue (encValue p.toValue) = .record p.toValue := by
  by_cases hu : validUTF8 p.name = true
  · exact Or.inr ((C126_name h).mpr hu)
  · left
    unfold putPeer
    split
    · rfl
    · rfl

/-- Without the check one name would be enough to hide all peers: if one record has a name that is not UTF-8, the whole list is
refused, and looking that peer up gives an empty peer without an error. -/
theorem C126_spoilt {db : Peers.DB} (hk : ∀ k v, (k, v) ∈ db → k.length = 4 ∧ ∃ x, v = Val.record x ∧ Fits x)
    {b : BytesN 4} {v : Value} (hm : KV.get db b.1 = some (.record v)) (hu : validUTF8 v.name = false) :
    (∃ e, Cbor.Peers.peers (Cbor.Peers.encDB db) = .error e) ∧
    Cbor.Peers.peer (Cbor.Peers.encDB db) (.v4 b) = .ok Peer.zero := by
  have hbad : ∀ {x : Value}, Fits x → validUTF8 x.name = false → decValue (encValue x) = .badCbor := by
    intro x hx h
    rw [Cbor.Peers.decValue_enc hx, h]; rfl
  have hv : Fits v := by
    obtain ⟨x, e, hx⟩ := (hk _ _ (KV.mem_of_get hm)).2
    cases e; exact hx
  constructor
  · have hm' := KV.mem_of_get hm
    clear hm
    induction db with
    | nil => simp at hm'
    | cons q db ih =>
      obtain ⟨k, w⟩ := q
      obtain ⟨h4, x, rfl, hx⟩ := hk k w (by simp)
      show ∃ e, Cbor.Peers.peers ((k, encValue x) :: Cbor.Peers.encDB db) = .error e
      rw [Cbor.Peers.peers]
      have hkf : keyFrom k = .ok (.v4 ⟨k, h4⟩) := by simp [keyFrom, h4]
      rw [hkf, go_bind_ok]
      by_cases hux : validUTF8 x.name = true
      · have hm2 : (b.1, Val.record v) ∈ db := by
          rcases List.mem_cons.mp hm' with e | h
          · cases e; rw [hu] at hux; cases hux
          · exact h
        obtain ⟨e, he⟩ := ih (fun k v h => hk k v (List.mem_cons_of_mem _ h)) hm2
        rw [(C126_name hx).mpr hux]
        exact ⟨e, by simp only [he, go_bind_error]⟩
      · rw [hbad hx (by simpa using hux)]
        exact ⟨_, rfl⟩
  · unfold Cbor.Peers.peer
    have hkb : keyBytes (.v4 b) = .ok b.1 := rfl
    rw [hkb, go_bind_ok, Cbor.Peers.get_enc, hm]
    simp only [Option.map_some, Cbor.Peers.encVal, hbad hv hu]

/-- The version on record is read back from its text. -/
theorem C126_version (v : Version) : Cbor.Peers.readVersion (Cbor.Peers.versionText v) = some v := Cbor.Peers.readVersion_text v

/-- A peer that has connected, on disk. -/
example : (∀ e, e ∈ [Peers.Ex.seeds, Peers.Ex.at_ 5 (.register .ok (Peers.Ex.ip 1 1 1 1) (Peers.Ex.conn 97) (Peers.Ex.hs 97))] → Ordinary e) ∧
    (Cbor.Peers.encDB (Peers.Ex.run [Peers.Ex.seeds, Peers.Ex.at_ 5 (.register .ok (Peers.Ex.ip 1 1 1 1) (Peers.Ex.conn 97) (Peers.Ex.hs 97))]).db) =
      [([1, 1, 1, 1], [0xa7, 0, 0x19, 0x1a, 0xd4, 1, 0, 2, 0x69, 97, 40, 119, 97, 118, 101, 115, 87, 41, 3, 0x65, 49, 46, 53, 46, 48, 4, 2, 5, 0xf6,
        6, 0xf6]),
       ([2, 2, 2, 2], [0xa7, 0, 0x19, 0x1a, 0xd4, 1, 0, 2, 0x60, 3, 0x65, 48, 46, 48, 46, 48, 4, 0, 5, 0xf6, 6, 0xf6])] := by
  refine ⟨?_, by decide +kernel⟩
  intro e he
  simp only [List.mem_cons, List.not_mem_nil, or_false] at he
  rcases he with rfl | rfl
  · exact ⟨by decide, by decide, trivial⟩
  · exact ⟨by decide, by decide, by decide, by decide, by decide⟩

/-- A record with the name `0xff`: its bytes are refused. -/
example : decValue (encValue { port := 1, nonce := 2, name := [0xff], version := Peers.Ex.v15, state := .connected, nextAttempt := 5, score := none }) = .badCbor := by
  decide +kernel

end

end Verif.Props
