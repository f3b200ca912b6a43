import Verif.Chains.Edges
import Verif.Chains.Examples
/-
Properties C10-C12: heads and chains of ids.
-/
set_option autoImplicit false

namespace Verif.Props

open Verif KV Chains Spec

/-! ## C10: heads are exactly the blocks nothing was built on -/

/-- After every history (with write failures, crash points and reopenings) `Heads()` answers; the head
numbers are 1..N in order; no block is listed twice; and the listed blocks are exactly the
stored blocks that no block stored during the history extends. -/
theorem C10_heads {g : ProtoBlock} {l0 : Linkage} (hf : Fresh g l0) (ops : List Op) (hb : inserts ops + 2 < 2 ^ 32) :
    ∃ hd, Heads (exec l0 ops).db = .ok hd ∧
      hd.map (fun h => h.num.toNat) = (List.range hd.length).map (· + 1) ∧
      (hd.map (·.blockID)).Nodup ∧
      ∀ id, id ∈ hd.map (·.blockID) ↔ Stored (exec l0 ops).db id ∧ ∀ i, (i, id) ∉ edges l0 ops := by
  obtain ⟨ga, sc, _, _, _, R0⟩ := fresh_rep hf
  obtain ⟨ns, hs, R, E, _⟩ := R0.exec_edges edgesOK_genesis ops (by simp; omega)
  simp only [List.nil_append] at E
  obtain ⟨hd, hh, hnum, hid⟩ := R.heads
  have hlen : hd.length = hs.length := by simpa using congrArg List.length hid
  have hids : ∀ id : BlockID, id ∈ hd.map (·.blockID) ↔ ∃ n, n ∈ hs ∧ idOf ns n = id.1 := by
    intro id
    have : id ∈ hd.map (·.blockID) ↔ id.1 ∈ hd.map (fun h => h.blockID.1) := by
      simp only [List.mem_map]
      constructor
      · rintro ⟨h, hm, rfl⟩; exact ⟨h, hm, rfl⟩
      · rintro ⟨h, hm, he⟩; exact ⟨h, hm, Subtype.ext he⟩
    rw [this, hid, List.mem_map]
  refine ⟨hd, hh, ?_, ?_, ?_⟩
  · have : hd.map (fun h => h.num.toNat) = (hd.map (·.num)).map UInt64.toNat := by rw [List.map_map]; rfl
    rw [this, hnum, List.map_map, hlen]
    apply List.map_congr_left
    intro i hi
    have h1 := R.hbound
    have h2 := R.bound
    simp only [List.mem_range] at hi
    simp only [Function.comp]
    rw [UInt64.toNat_ofNat_of_lt' (by simp [UInt64.size]; omega)]
  · have hnd : (hs.map (idOf ns)).Nodup := by
      refine List.pairwise_map.mpr (List.Pairwise.imp_of_mem ?_ R.hok.nodup)
      intro n m hn hm hne he
      apply hne
      obtain ⟨⟨x, hx⟩, _⟩ := (R.hok.mem n).mp hn
      obtain ⟨⟨y, hy⟩, _⟩ := (R.hok.mem m).mp hm
      rw [idOf_some hx, idOf_some hy] at he
      exact R.tree.inj n m x y hx hy he
    rw [← hid] at hnd
    have : hd.map (fun h => h.blockID.1) = (hd.map (·.blockID)).map Subtype.val := by rw [List.map_map]; rfl
    rw [this] at hnd
    exact hnd.of_map _ (fun a b hab => fun e => hab (congrArg _ e))
  · intro id
    rw [hids, R.stored_iff]
    constructor
    · rintro ⟨n, hn, he⟩
      obtain ⟨⟨x, hx⟩, hno⟩ := (R.hok.mem n).mp hn
      rw [idOf_some hx] at he
      have hnum := R.tree.numOf_eq hx he
      refine ⟨⟨n, hnum⟩, ?_⟩
      intro i hi
      obtain ⟨m, y, hy, _, _, hj⟩ := (E i id).mp hi
      rw [hnum] at hj
      exact hno m y hy (Option.some.inj hj).symm
    · rintro ⟨⟨n, hn⟩, hno⟩
      obtain ⟨x, hx, hxe⟩ := numOf_some hn
      refine ⟨n, (R.hok.mem n).mpr ⟨⟨x, hx⟩, ?_⟩, by rw [idOf_some hx, hxe]⟩
      intro m y hy he
      by_cases h1 : m = 1
      · subst h1
        obtain ⟨gg, hg, _, hext, _⟩ := R.tree.genesis
        rw [hy] at hg; cases hg
        have := (at1_le hx).1; omega
      · obtain ⟨i, hi, _⟩ := newID_of_node R.tree hy
        exact hno i ((E i id).mpr ⟨m, y, hy, h1, hi.symm, by rw [he]; exact hn⟩)

/-- The number of heads never decreases. -/
theorem C10_heads_grow {g : ProtoBlock} {l0 : Linkage} (hf : Fresh g l0) (ops1 ops2 : List Op)
    (hb : inserts (ops1 ++ ops2) + 2 < 2 ^ 32) (h1 h2 : List Head) (e1 : Heads (exec l0 ops1).db = .ok h1)
    (e2 : Heads (exec l0 (ops1 ++ ops2)).db = .ok h2) : h1.length ≤ h2.length := by
  obtain ⟨ga, sc, _, _, _, R0⟩ := fresh_rep hf
  rw [inserts_append] at hb
  obtain ⟨ns1, hs1, R1, HE, _, _, hl⟩ := R0.exec_edges edgesOK_genesis ops1 (by simp; omega)
  obtain ⟨ns2, hs2, R2, _, hle, _⟩ := R1.exec_edges HE ops2 (by simp at hl; omega)
  rw [exec_append] at e2
  obtain ⟨hd1, hh1, hn1, _⟩ := R1.heads
  obtain ⟨hd2, hh2, hn2, _⟩ := R2.heads
  unfold Heads at e1 e2
  rw [hh1] at e1; cases e1
  rw [hh2] at e2; cases e2
  have l1 := congrArg List.length hn1
  have l2 := congrArg List.length hn2
  simp at l1 l2
  omega

-- in the example the heads are block 5 (on 2) and micro-block 4 (which took over from block 3)
example : Fresh Ex.g0 Ex.l0 ∧ (Heads Ex.l1.db).map (·.map (fun h => (h.num, h.blockID))) = .ok [(1, Ex.bid 5), (2, Ex.bid 4)] ∧
    edges Ex.l0 Ex.ops1 = [(Ex.bid 1, Ex.bid 0), (Ex.bid 2, Ex.bid 1), (Ex.bid 3, Ex.bid 1), (Ex.bid 4, Ex.bid 3), (Ex.bid 5, Ex.bid 2)] :=
  ⟨Ex.fresh, by decide +kernel, by decide +kernel⟩

/-! ## C11: ActiveHeads -/

/-- `ActiveHeads()` answers with those entries of `Heads()`, in order, whose block some listed peer is
leashed to. -/
theorem C11_active_heads {g : ProtoBlock} {l : Linkage} (h : Reachable g l) :
    ∃ hd ls ah, Heads l.db = .ok hd ∧ Leashes l.db = .ok ls ∧ ActiveHeads l.db = .ok ah ∧ ah.Sublist hd ∧
      ∀ x, x ∈ ah ↔ x ∈ hd ∧ ∃ p, { addr := p, blockID := x.blockID } ∈ ls := by
  obtain ⟨ns, hs, R, _⟩ := reachable_rep h
  obtain ⟨hd, hh, _⟩ := R.heads
  obtain ⟨ls, hl, _⟩ := R.leashes
  refine ⟨hd, ls, _, hh, hl, by simp only [ActiveHeads, hh, hl, go_bind_ok]; rfl, List.filter_sublist, ?_⟩
  intro x
  simp only [List.mem_filter, List.contains_iff_mem, List.mem_map]
  constructor
  · rintro ⟨h1, ⟨p, i⟩, h2, rfl⟩; exact ⟨h1, p, h2⟩
  · rintro ⟨h1, p, h2⟩; exact ⟨h1, _, h2, rfl⟩

example : (ActiveHeads Ex.l1.db).map (·.map (·.blockID)) = .ok [Ex.bid 4] := by decide +kernel

/-! ## C12: LastIDs -/

/-- For a stored id and any count, `LastIDs` is the chain walked back from the block to its ancestors,
with exactly min(count, height) ids. -/
theorem C12_lastIDs {g : ProtoBlock} {l : Linkage} (h : Reachable g l) (id : BlockID) (hs : Stored l.db id) (count : Nat)
    (height : Nat) (hh : HeightOf l.db id height) :
    ∃ ids, LastIDs l.db id count = .ok ids ∧ ids.length = min count height ∧ IsWalk l.db ids ∧
      (1 ≤ count → ids.head? = some id) := by
  obtain ⟨ns, hds, R, _⟩ := reachable_rep h
  obtain ⟨n, hn⟩ := R.stored_iff.mp hs
  rw [R.heightOf hn] at hh
  obtain ⟨ids, h1, h2⟩ := R.LastIDs hn count
  have hlen : ids.length = min count height := by
    have := congrArg List.length h2
    simpa [walkNums, hh] using this
  refine ⟨ids, h1, hlen, ?_, ?_⟩
  · apply R.isWalk_of_map (n := n) (k := ids.length)
    · rw [h2]
      have : walkNums ns n count = walkNums ns n ids.length := by
        unfold walkNums; rw [hlen, hh]; congr 2; omega
      rw [this]
    · omega
  · intro hc
    obtain ⟨x, hx, hxe⟩ := numOf_some hn
    cases count with
    | zero => omega
    | succ c =>
      rw [walkNums_succ R.tree hx] at h2
      cases ids with
      | nil => simp at h2
      | cons a ids =>
        simp only [List.map_cons, List.cons.injEq] at h2
        simp only [List.head?_cons, Option.some.injEq]
        apply Subtype.ext
        rw [h2.1, idOf_some hx, hxe]

/-- in particular a positive count never gives an empty answer -/
theorem C12_nonempty {g : ProtoBlock} {l : Linkage} (h : Reachable g l) (id : BlockID) (hs : Stored l.db id) (count : Nat)
    (hc : 1 ≤ count) : ∃ rest, LastIDs l.db id count = .ok (id :: rest) := by
  obtain ⟨ns, hds, R, _⟩ := reachable_rep h
  obtain ⟨n, hn⟩ := R.stored_iff.mp hs
  obtain ⟨ids, h1, _, _, h4⟩ := C12_lastIDs h id hs count _ ((R.heightOf hn).mpr rfl)
  cases ids with
  | nil => simp at h4; omega
  | cons a rest => have := h4 hc; simp at this; subst this; exact ⟨rest, h1⟩

/-- an answer shorter than the count ends at the genesis block -/
theorem C12_stops_at_genesis {g : ProtoBlock} {l : Linkage} (h : Reachable g l) (id : BlockID) (ids : List BlockID) (count : Nat)
    (hr : LastIDs l.db id count = .ok ids) (hlt : ids.length < count) : ids.getLast? = some g.id := by
  obtain ⟨l0, ops, hf, hb, rfl⟩ := h
  obtain ⟨ga, sc, _, _, _, R0⟩ := fresh_rep hf
  obtain ⟨ns, hds, R, hpre, _⟩ := R0.exec ops (by simp; omega)
  have hone : at1 ns 1 = some (genesisNode g ga sc) := by obtain ⟨t, rfl⟩ := hpre; rfl
  cases hn : numOf ns id with
  | none => simp [LastIDs, getAncestors, R.getNum, hn, fail] at hr
  | some n =>
    obtain ⟨ids', h1, h2⟩ := R.LastIDs hn count
    rw [h1] at hr; cases hr
    obtain ⟨x, hx, _⟩ := numOf_some hn
    have hpos := R.tree.ht_pos hx
    have hlen : ids.length = min count (ht ns n) := by
      have := congrArg List.length h2
      simpa [walkNums] using this
    have hl : ids.length = ht ns n := by omega
    have hlast : (ids.map (·.1)).getLast? = some (idOf ns (up ns n (ht ns n - 1))) := by
      rw [h2]
      have : min count (ht ns n) = (ht ns n - 1) + 1 := by omega
      simp only [walkNums, this, List.range_succ, List.map_append, List.map_cons, List.map_nil, List.getLast?_append,
        List.getLast?_singleton, Option.some_or]
    have hup : up ns n (ht ns n - 1) = 1 := by
      apply R.tree.ht_eq_one; rw [R.tree.ht_up]; omega
    rw [hup, idOf_some hone] at hlast
    rw [List.getLast?_map] at hlast
    cases hc : ids.getLast? with
    | none => rw [hc] at hlast; simp at hlast
    | some z =>
      rw [hc] at hlast
      simp only [Option.map_some, Option.some.injEq] at hlast
      exact congrArg some (Subtype.ext hlast)

/-- unknown ids give a not-found error, negative counts a panic -/
theorem C12_unknown {g : ProtoBlock} {l : Linkage} (h : Reachable g l) (id : BlockID) (count : Int) :
    (¬ Stored l.db id → LastIDs l.db id count = fail .notFound) ∧
    (Stored l.db id → count < 0 → LastIDs l.db id count = goPanic) := by
  obtain ⟨ns, hds, R, _⟩ := reachable_rep h
  rw [R.stored_iff]
  constructor
  · intro hn
    rw [not_exists] at hn
    have := Option.eq_none_iff_forall_ne_some.mpr hn
    simp [LastIDs, getAncestors, R.getNum, this, fail]
  · rintro ⟨n, hn⟩ hc
    simp [LastIDs, getAncestors, R.getNum, hn, hc]

example : Stored Ex.l1.db (Ex.bid 5) ∧ LastIDs Ex.l1.db (Ex.bid 5) 3 = .ok [Ex.bid 5, Ex.bid 2, Ex.bid 1] ∧
    LastIDs Ex.l1.db (Ex.bid 5) 100 = .ok [Ex.bid 5, Ex.bid 2, Ex.bid 1, Ex.bid 0] :=
  ⟨by unfold Stored; decide +kernel, by decide +kernel, by decide +kernel⟩

end Verif.Props
