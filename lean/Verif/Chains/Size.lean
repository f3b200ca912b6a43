import Verif.Chains.Queries
import Verif.Chains.Origin
import Verif.Chains.Edges
/-
How many records the store has.
-/
set_option autoImplicit false

namespace Verif.KV

open Verif

variable {V : Type}

theorem get_none_of_lt {db : DB V} {k : Bytes} (h : ∀ p, p ∈ db → bytesLt k p.1 = true) : get db k = none := by
  induction db with
  | nil => rfl
  | cons p db ih =>
    obtain ⟨k', v'⟩ := p
    have hk : k ≠ k' := by
      rintro rfl
      have := h (k, v') (by simp)
      simp [bytesLt_irrefl] at this
    simp only [get, hk, if_false]
    exact ih (fun p hp => h p (List.mem_cons_of_mem _ hp))

/-- a write adds a record exactly if the key is new -/
theorem length_put {db : DB V} (hs : Sorted db) (k : Bytes) (v : V) :
    (put db k v).length = db.length + if get db k = none then 1 else 0 := by
  induction db with
  | nil => simp [put, get]
  | cons p db ih =>
    obtain ⟨k', v'⟩ := p
    have hs' := List.pairwise_cons.mp hs
    rw [put]
    split
    · rename_i h; simp [get, h]
    · rename_i h
      split
      · rename_i hlt
        have : get ((k', v') :: db) k = none := by
          apply get_none_of_lt
          intro p hp
          rcases List.mem_cons.mp hp with rfl | hp
          · exact hlt
          · exact bytesLt_trans hlt (hs'.1 p hp)
        simp [this]
      · have ih := ih hs'.2
        simp only [List.length_cons, ih, get, h, if_false]
        omega

/-- a deletion removes a record exactly if there is one -/
theorem length_del {db : DB V} (hs : Sorted db) (k : Bytes) :
    (del db k).length + (if get db k = none then 0 else 1) = db.length := by
  induction db with
  | nil => simp [del, get]
  | cons p db ih =>
    obtain ⟨k', v'⟩ := p
    have hs' := List.pairwise_cons.mp hs
    have ih := ih hs'.2
    by_cases h : k' = k
    · subst h
      have hn : get db k' = none := get_none_of_lt hs'.1
      rw [if_pos hn] at ih
      have e : del ((k', v') :: db) k' = del db k' := by simp [del]
      rw [e]
      simp only [get, if_true, List.length_cons]
      simpa using ih
    · have hk : k ≠ k' := fun e => h e.symm
      have e : del ((k', v') :: db) k = (k', v') :: del db k := by simp [del, h]
      rw [e]
      simp only [get, hk, if_false, List.length_cons]
      omega

end Verif.KV

namespace Verif.Chains

open Verif KV Spec

variable {db : DB} {ns : List Node} {hs : List Nat}

theorem NewOK.numOf_none {x : Node} (N : NewOK ns x) {id : BlockID} (hid : x.br.id = id.1) : numOf ns id = none := by
  cases hn : numOf ns id with
  | none => rfl
  | some n =>
    obtain ⟨y, hy, he⟩ := numOf_some hn
    exact absurd (he.trans hid.symm) (N.fresh n y hy)

/-- records of a node that is inserted: three for the block, two more for a new head -/
theorem Rep.length_insert (R : Rep db ns hs) {x : Node} (N : NewOK ns x) (id : BlockID) (hid : x.br.id = id.1)
    (hb : ns.length + 1 < 2 ^ 32) :
    (applyBatch db (insBatch ns hs id x)).length + 2 * hs.length = db.length + 3 + 2 * (newHeads hs (ns.length + 1) x.ext).length := by
  have hn64 : ns.length + 1 < 2 ^ 64 := by omega
  have hhb := R.hbound
  have hnt : (UInt64.ofNat (ns.length + 1)).toNat = ns.length + 1 := toNat_ofNat64 hn64
  have hkt : (UInt64.ofNat (hs.length + 1)).toNat = hs.length + 1 := toNat_ofNat64 (by omega)
  have g1 : get db (counterKey blocksCounter) ≠ none := by rw [R.cnt]; simp
  have g2 : get db (counterKey headsCounter) ≠ none := by rw [R.hcnt]; simp
  have g3 : get db (idKey blockPrefix id) = none := by rw [R.ids, N.numOf_none hid]; rfl
  have hnone : at1 ns (ns.length + 1) = none := by
    cases h : at1 ns (ns.length + 1) with
    | none => rfl
    | some y => have := (at1_le h).2; omega
  have g4 : get db (numKey blockPrefix (UInt64.ofNat (ns.length + 1))) = none := by rw [R.blocks, hnt, hnone]; rfl
  have g5 : get db (numKey chainPrefix (UInt64.ofNat (ns.length + 1))) = none := by rw [R.links, hnt, hnone]; rfl
  have hhn : headIdx hs (ns.length + 1) = none := by
    rw [headIdx_none]
    intro hm
    obtain ⟨⟨y, hy⟩, _⟩ := (R.hok.mem _).mp hm
    rw [hnone] at hy; cases hy
  have g6 : get db (numKey blockToHeadPrefix (UInt64.ofNat (ns.length + 1))) = none := by rw [R.b2h, hnt, hhn]; rfl
  have g7 : get db (numKey headToBlockPrefix (UInt64.ofNat (hs.length + 1))) = none := by
    rw [R.h2b, hkt]
    cases h : at1 hs (hs.length + 1) with
    | none => rfl
    | some y => have := (at1_le h).2; omega
  obtain ⟨e, he⟩ := N.ext
  have het : (UInt64.ofNat x.ext).toNat = x.ext := toNat_ofNat64 (R.lt64 he)
  have hen : UInt64.ofNat (ns.length + 1) ≠ UInt64.ofNat x.ext := by
    intro h
    have := congrArg UInt64.toNat h
    rw [hnt, het] at this
    have := (at1_le he).2
    omega
  have S := R.sorted
  simp only [insBatch, headOps, newHeads, putCounter, putID, putBlock, putLink, putNum, List.cons_append, List.nil_append]
  clear hnt hkt
  generalize UInt64.ofNat (ns.length + 1) = n' at *
  generalize UInt64.ofNat (hs.length + 1) = k' at *
  have key : ∀ (d : DB) (k : Bytes) (v : Val) (rest : Batch), applyBatch d (.put k v :: rest) = applyBatch (put d k v) rest := fun _ _ _ _ => rfl
  have keyd : ∀ (d : DB) (k : Bytes) (rest : Batch), applyBatch d (.del k :: rest) = applyBatch (del d k) rest := fun _ _ _ => rfl
  have key0 : ∀ d : DB, applyBatch d [] = d := fun _ => rfl
  cases hh : headIdx hs x.ext with
  | none =>
    simp only [key, key0]
    rw [length_put (by repeat first | exact S | apply sorted_put), length_put (by repeat first | exact S | apply sorted_put),
      length_put (by repeat first | exact S | apply sorted_put), length_put (by repeat first | exact S | apply sorted_put),
      length_put (by repeat first | exact S | apply sorted_put), length_put (by repeat first | exact S | apply sorted_put),
      length_put (by repeat first | exact S | apply sorted_put)]
    simp [get_put, g1, g2, g3, g4, g5, g6, g7]
    omega
  | some k =>
    have hk := headIdx_some hh
    have hkt : (UInt64.ofNat k).toNat = k := toNat_ofNat64 (by have := (at1_le hk).2; omega)
    have g8 : get db (numKey blockToHeadPrefix (UInt64.ofNat x.ext)) ≠ none := by rw [R.b2h, het, hh]; simp
    have g9 : get db (numKey headToBlockPrefix (UInt64.ofNat k)) ≠ none := by rw [R.h2b, hkt, hk]; simp
    simp only [key, keyd, key0]
    have hd := length_del (db := put (put (put (put db (counterKey blocksCounter) (.raw (be64 (n'))))
        (idKey blockPrefix id) (.raw (be64 (n')))) (numKey blockPrefix (n')) (.blk x.br))
        (numKey chainPrefix (n')) (.lnk { height := x.br.height, blockID := id.1, parents := (List.range (clog2 x.br.height.toNat)).map (fun i => UInt64.ofNat (up ns x.par (2 ^ i - 1))) }))
        (by repeat first | exact S | apply sorted_put) (numKey blockToHeadPrefix (UInt64.ofNat x.ext))
    rw [length_put (by repeat first | exact S | apply sorted_put), length_put (by repeat first | exact S | apply sorted_put),
      length_put (by repeat first | exact S | apply sorted_put), length_put (by repeat first | exact S | apply sorted_put)] at hd
    rw [length_put (by repeat first | exact S | apply sorted_put | apply sorted_del), length_put (by repeat first | exact S | apply sorted_put | apply sorted_del)]
    simp [get_put, get_del, g1, g3, g4, g5, g6, g8, g9, hen, Ne.symm hen] at hd ⊢
    omega

/-- the plain addresses that have a leash, each once -/
def LeashList (db : DB) (A : List Addr) : Prop :=
  A.Nodup ∧ ∀ a, a ∈ A ↔ a = a.plain ∧ get db (addrKey a) ≠ none

/-- the size of the store in terms of its blocks, heads and leashes -/
structure Sized (db : DB) (ns : List Node) (hs : List Nat) (A : List Addr) : Prop where
  list : LeashList db A
  size : db.length = 2 + 3 * ns.length + 2 * hs.length + A.length

theorem Sized.insert (R : Rep db ns hs) {A : List Addr} (Z : Sized db ns hs A) {x : Node} (N : NewOK ns x) (id : BlockID)
    (hid : x.br.id = id.1) (hb : ns.length + 1 < 2 ^ 32) :
    Sized (applyBatch db (insBatch ns hs id x)) (ns ++ [x]) (newHeads hs (ns.length + 1) x.ext) A := by
  refine ⟨⟨Z.list.1, fun a => ?_⟩, ?_⟩
  · rw [get_insBatch_addr]; exact Z.list.2 a
  · have := R.length_insert N id hid hb
    have := Z.size
    simp only [List.length_append, List.length_singleton]
    omega

theorem Sized.leash (hs' : Sorted db) {A : List Addr} (Z : Sized db ns hs A) (a : Addr) (id : BlockID) :
    ∃ A', Sized (put db (addrKey a) (.raw id.1)) ns hs A' ∧ A'.length ≤ A.length + 1 := by
  have hpk : addrKey a = addrKey a.plain := by
    rw [addrKey_inj]; exact slice_eq_iff.mpr (plain_plain a).symm
  have hsz := length_put hs' (addrKey a) (.raw id.1)
  by_cases h : get db (addrKey a) = none
  · rw [if_pos h] at hsz
    refine ⟨a.plain :: A, ⟨⟨List.nodup_cons.mpr ⟨?_, Z.list.1⟩, fun b => ?_⟩, ?_⟩, by simp⟩
    · intro hm
      exact ((Z.list.2 _).mp hm).2 (hpk ▸ h)
    · rw [List.mem_cons, Z.list.2, get_put]
      constructor
      · rintro (rfl | ⟨h1, h2⟩)
        · exact ⟨(plain_plain a).symm, by rw [if_pos hpk.symm]; simp⟩
        · refine ⟨h1, ?_⟩
          split
          · simp
          · exact h2
      · rintro ⟨h1, h2⟩
        by_cases e : addrKey b = addrKey a
        · left
          rw [h1]
          exact slice_eq_iff.mp (addrKey_inj.mp e)
        · rw [if_neg e] at h2; exact Or.inr ⟨h1, h2⟩
    · have := Z.size
      simp only [List.length_cons]; omega
  · rw [if_neg h] at hsz
    refine ⟨A, ⟨⟨Z.list.1, fun b => ?_⟩, ?_⟩, by omega⟩
    · rw [Z.list.2, get_put]
      by_cases e : addrKey b = addrKey a
      · rw [if_pos e]; simp only [e]; simp [h]
      · rw [if_neg e]
    · have := Z.size
      omega

theorem Trans.sized (R : Rep db ns hs) (hb : ns.length + 1 < 2 ^ 32) {db' : DB} {ns' : List Node} {hs' : List Nat}
    (t : Trans db ns hs db' ns' hs') {A : List Addr} (Z : Sized db ns hs A) :
    ∃ A', Sized db' ns' hs' A' ∧ A'.length ≤ A.length + 1 := by
  cases t with
  | none => exact ⟨A, Z, by omega⟩
  | leash a id => exact Z.leash R.sorted a id
  | node x id N hid => exact ⟨A, Z.insert R N id hid hb, by omega⟩
  | both x id N hid a => exact (Z.insert R N id hid hb).leash (R.insert N id hid hb).sorted a id

theorem sized_genesis {g : ProtoBlock} {l : Linkage} (h : Fresh g l) :
    ∃ ns hs, Rep l.db ns hs ∧ ns.length = 1 ∧ Sized l.db ns hs [] := by
  obtain ⟨ga, sc, hg, hsc, _, R⟩ := fresh_rep h
  refine ⟨_, _, R, rfl, ?_⟩
  unfold Fresh NewLinkage initStorage at h
  have h0 : getCounter [] blocksCounter = .ok 0 := by simp [getCounter, KV.get]
  rw [h0] at h
  simp only [if_true] at h
  rw [genesisBatch_eq hg hsc] at h
  simp only [write] at h
  have h2 := congrArg Prod.snd h
  simp at h2
  rw [← h2]
  have S : Sorted ([] : DB) := List.Pairwise.nil
  refine ⟨⟨List.nodup_nil, fun a => ?_⟩, ?_⟩
  · simp [putBlock, putCounter, putID, putLink, putNum, applyBatch, applyOp, get_put, KV.get]
  · simp only [putBlock, putCounter, putID, putLink, putNum, applyBatch, applyOp, List.cons_append, List.nil_append, List.foldl_cons, List.foldl_nil]
    rw [length_put (by repeat first | exact S | apply sorted_put), length_put (by repeat first | exact S | apply sorted_put),
      length_put (by repeat first | exact S | apply sorted_put), length_put (by repeat first | exact S | apply sorted_put),
      length_put (by repeat first | exact S | apply sorted_put), length_put (by repeat first | exact S | apply sorted_put),
      length_put (by repeat first | exact S | apply sorted_put)]
    simp [get_put, KV.get]

theorem Rep.step_sized {l : Linkage} (R : Rep l.db ns hs) {A : List Addr} (Z : Sized l.db ns hs A) (o : Op)
    (hb : ns.length + inserts [o] < 2 ^ 32) :
    ∃ ns' hs' A', Rep (Spec.step l o).1.db ns' hs' ∧ Sized (Spec.step l o).1.db ns' hs' A' ∧ ns'.length ≤ ns.length + inserts [o] := by
  by_cases ho : inserts [o] = 0
  · cases o with
    | putBlock b a f1 f2 => simp [inserts] at ho
    | putMicro b a f1 f2 => simp [inserts] at ho
    | moveLeash id a f =>
      obtain ⟨A', Z', _⟩ := Z.leash R.sorted a id
      cases f with
      | ok => exact ⟨ns, hs, A', R.putLeash a id, Z', by omega⟩
      | fail => exact ⟨ns, hs, A, R, Z, by omega⟩
      | lostAck => exact ⟨ns, hs, A', R.putLeash a id, Z', by omega⟩
    | reopen g f =>
      simp only [Spec.step, NewLinkage, R.reopen f g]
      exact ⟨ns, hs, A, R, Z, by omega⟩
  · have := inserts_le_one o
    obtain ⟨ns', hs', t⟩ := R.step_trans (by omega) o
    obtain ⟨A', Z', _⟩ := t.sized R (by omega) Z
    refine ⟨ns', hs', A', t.rep R (by omega), Z', ?_⟩
    rcases t.ext with rfl | ⟨x, _, rfl⟩
    · omega
    · simp; omega

theorem Rep.exec_sized {l : Linkage} (R : Rep l.db ns hs) {A : List Addr} (Z : Sized l.db ns hs A) (ops : List Op)
    (hb : ns.length + inserts ops < 2 ^ 32) :
    ∃ ns' hs' A', Rep (Spec.exec l ops).db ns' hs' ∧ Sized (Spec.exec l ops).db ns' hs' A' ∧ ns'.length ≤ ns.length + inserts ops := by
  induction ops generalizing l ns hs A with
  | nil => exact ⟨ns, hs, A, R, Z, by simp⟩
  | cons o ops ih =>
    rw [inserts_cons] at hb ⊢
    obtain ⟨ns1, hs1, A1, R1, Z1, hl1⟩ := R.step_sized Z o (by omega)
    obtain ⟨ns2, hs2, A2, R2, Z2, hl2⟩ := ih R1 Z1 (by omega)
    exact ⟨ns2, hs2, A2, R2, Z2, by omega⟩

theorem reachable_sized {g : ProtoBlock} {l : Linkage} (h : Reachable g l) :
    ∃ ns hs A, Rep l.db ns hs ∧ Sized l.db ns hs A ∧ ns.length + 1 < 2 ^ 32 := by
  obtain ⟨l0, ops, hf, hb, rfl⟩ := h
  obtain ⟨ns0, hs0, R0, h1, Z0⟩ := sized_genesis hf
  obtain ⟨ns, hs, A, R, Z, hl⟩ := R0.exec_sized Z0 ops (by omega)
  exact ⟨ns, hs, A, R, Z, by omega⟩

/-- a peer has a leash exactly if there is a record -/
theorem Rep.hasLeash_iff (R : Rep db ns hs) (a : Addr) : HasLeash db a = .ok true ↔ get db (addrKey a) ≠ none := by
  cases h : get db (addrKey a) with
  | none =>
    rcases R.getLeash_cases a with ⟨id, hid⟩ | hn
    · rw [R.getLeash_ok, h] at hid; cases hid
    · simp [HasLeash, hn, fail]
  | some v =>
    obtain ⟨id, rfl⟩ := R.lsh a v h
    have := (R.getLeash_ok a id).mpr h
    simp [HasLeash, this]

/-- the identifiers of the stored blocks, each once -/
theorem Rep.blockList (R : Rep db ns hs) : ∃ B : List BlockID, B.Nodup ∧ (∀ id, id ∈ B ↔ Stored db id) ∧ B.length = ns.length := by
  have key : ∀ l : List Node, (∀ x, x ∈ l → x.br.id.length = 32 ∨ x.br.id.length = 64) →
      ∃ B : List BlockID, B.map (·.1) = l.map (·.br.id) := by
    intro l
    induction l with
    | nil => exact fun _ => ⟨[], rfl⟩
    | cons x l ih =>
      intro h
      obtain ⟨B, hB⟩ := ih (fun y hy => h y (List.mem_cons_of_mem _ hy))
      exact ⟨⟨x.br.id, h x List.mem_cons_self⟩ :: B, by simp [hB]⟩
  have hat : ∀ (i : Nat) (h : i < ns.length), at1 ns (i + 1) = some ns[i] := fun i h => by simp [at1, h]
  obtain ⟨B, hB⟩ := key ns (by
    intro x hx
    obtain ⟨i, hi, rfl⟩ := List.getElem_of_mem hx
    exact R.tree.idlen _ _ (hat i hi))
  have hnd : (ns.map (·.br.id)).Nodup := by
    rw [List.nodup_iff_pairwise_ne, List.pairwise_iff_getElem]
    intro i j hi hj hij he
    simp only [List.length_map] at hi hj
    simp only [List.getElem_map] at he
    have := R.tree.inj _ _ _ _ (hat i hi) (hat j hj) he
    omega
  refine ⟨B, ?_, fun id => ?_, by simpa using congrArg List.length hB⟩
  · rw [← hB] at hnd
    exact List.Pairwise.of_map _ (fun a b hab e => hab (congrArg _ e)) hnd
  · have h1 : id ∈ B ↔ id.1 ∈ ns.map (·.br.id) := by
      rw [← hB, List.mem_map]
      constructor
      · exact fun h => ⟨id, h, rfl⟩
      · rintro ⟨j, hj, e⟩; rw [← Subtype.ext e]; exact hj
    rw [h1, R.stored_iff, List.mem_map]
    constructor
    · rintro ⟨x, hx, e⟩
      obtain ⟨i, hi, rfl⟩ := List.getElem_of_mem hx
      exact ⟨i + 1, R.tree.numOf_eq (hat i hi) e⟩
    · rintro ⟨n, hn⟩
      obtain ⟨x, hx, e⟩ := numOf_some hn
      exact ⟨x, at1_mem hx, e⟩

theorem length_le_of_nodup_subset {α : Type} [DecidableEq α] : ∀ {l1 l2 : List α}, l1.Nodup → l1 ⊆ l2 → l1.length ≤ l2.length
  | [], _, _, _ => Nat.zero_le _
  | a :: l1, l2, hn, hs => by
    obtain ⟨h1, h2⟩ := List.nodup_cons.mp hn
    have ha : a ∈ l2 := hs List.mem_cons_self
    have : l1 ⊆ l2.erase a := by
      intro b hb
      refine (List.mem_erase_of_ne ?_).mpr (hs (List.mem_cons_of_mem _ hb))
      rintro rfl; exact h1 hb
    have := length_le_of_nodup_subset h2 this
    rw [List.length_erase_of_mem ha] at this
    have := List.length_pos_of_mem ha
    simp only [List.length_cons]
    omega

theorem newHeads_length_ge {hs : List Nat} {n e : Nat} : hs.length ≤ (newHeads hs n e).length := by
  unfold newHeads; split <;> simp

/-- how one call may change the number of records -/
theorem Rep.step_length {l : Linkage} (R : Rep l.db ns hs) (hb : ns.length + 1 < 2 ^ 32) (o : Op) {a : Addr} {id : BlockID}
    (ht : target o = some (a, id)) :
    l.db.length ≤ (Spec.step l o).1.db.length ∧
    (Spec.step l o).1.db.length ≤ l.db.length + 6 ∧
    (Stored l.db id ∨ ¬ Stored (Spec.step l o).1.db id → (Spec.step l o).1.db.length ≤ l.db.length + 1) ∧
    (HasLeash l.db a = .ok true → (Spec.step l o).1.db.length ≤ l.db.length + 5) ∧
    (Stored l.db id ∨ ¬ Stored (Spec.step l o).1.db id → HasLeash l.db a = .ok true → (Spec.step l o).1.db.length = l.db.length) := by
  obtain ⟨ns', hs', t⟩ := R.step_trans hb o
  have R' := t.rep R hb
  have leashed : ∀ a', get l.db (addrKey a') = none → get (Spec.step l o).1.db (addrKey a') ≠ none → HasLeash l.db a ≠ .ok true := by
    intro a' h1 h2 h3
    rw [← R'.hasLeash_iff] at h2
    rcases R'.getLeash_cases a' with ⟨j, hj⟩ | hj
    · rcases R.step_leash hb o hj with h | ⟨a0, h4, h5⟩
      · rw [R.getLeash_ok, h1] at h; cases h
      · rw [ht] at h4
        cases h4
        rw [R.hasLeash_iff] at h3
        have : addrKey a = addrKey a' := addrKey_inj.mpr (slice_eq_iff.mpr h5)
        rw [this] at h3
        exact h3 h1
    · simp [HasLeash, hj, fail] at h2
  have fresh : ∀ j, numOf ns j = none → Stored (Spec.step l o).1.db j → ¬ (Stored l.db id ∨ ¬ Stored (Spec.step l o).1.db id) := by
    intro j h1 h2
    obtain ⟨n, hn⟩ := R'.stored_iff.mp h2
    obtain ⟨x, hx, _⟩ := numOf_some hn
    have hj : j = id := by
      rcases R.step_record hb o (R'.getBlockByID_some hn hx) with h | h
      · rw [R.getBlockByID, h1] at h; simp [fail] at h
      · cases h with
        | block b a f1 f2 hid hp hts hg => cases ht; exact hid.symm
        | micro inv a f1 f2 hid r0 h0 hr => cases ht; exact hid.symm
    subst hj
    rintro (h | h)
    · obtain ⟨n, hn⟩ := R.stored_iff.mp h; rw [h1] at hn; cases hn
    · exact h h2
  clear ht R'
  generalize (Spec.step l o).1.db = db' at *
  cases t with
  | none => exact ⟨by omega, by omega, fun _ => by omega, fun _ => by omega, fun _ _ => rfl⟩
  | leash a' id' =>
    have hl := length_put R.sorted (addrKey a') (.raw id'.1)
    by_cases h : get l.db (addrKey a') = none
    · have hn := leashed a' h (by simp [get_put])
      rw [if_pos h] at hl
      exact ⟨by omega, by omega, fun _ => by omega, fun _ => by omega, fun _ h => absurd h hn⟩
    · rw [if_neg h] at hl
      exact ⟨by omega, by omega, fun _ => by omega, fun _ => by omega, fun _ _ => by omega⟩
  | node x id' N hid =>
    have hl := R.length_insert N id' hid hb
    have h1 := newHeads_length (hs := hs) (n := ns.length + 1) (e := x.ext)
    have h2 := newHeads_length_ge (hs := hs) (n := ns.length + 1) (e := x.ext)
    have hnum : numOf (ns ++ [x]) id' = some (ns.length + 1) := by rw [numOf_append N.fresh]; simp [hid]
    have hn := fresh id' (N.numOf_none hid) ((R.insert N id' hid hb).stored_iff.mpr ⟨_, hnum⟩)
    exact ⟨by omega, by omega, fun h => absurd h hn, fun _ => by omega, fun h => absurd h hn⟩
  | both x id' N hid a' =>
    have hl := R.length_insert N id' hid hb
    have h1 := newHeads_length (hs := hs) (n := ns.length + 1) (e := x.ext)
    have h2 := newHeads_length_ge (hs := hs) (n := ns.length + 1) (e := x.ext)
    have hnum : numOf (ns ++ [x]) id' = some (ns.length + 1) := by rw [numOf_append N.fresh]; simp [hid]
    have R1 := R.insert N id' hid hb
    have hn := fresh id' (N.numOf_none hid) (Rep.stored_iff (R1.putLeash a' id') |>.mpr ⟨_, hnum⟩)
    have hl' := length_put R1.sorted (addrKey a') (.raw id'.1)
    by_cases h : get l.db (addrKey a') = none
    · have hm := leashed a' h (by simp [get_put])
      rw [get_insBatch_addr, if_pos h] at hl'
      exact ⟨by omega, by omega, fun h => absurd h hn, fun h => absurd h hm, fun h => absurd h hn⟩
    · rw [get_insBatch_addr, if_neg h] at hl'
      exact ⟨by omega, by omega, fun h => absurd h hn, fun _ => by omega, fun h => absurd h hn⟩

end Verif.Chains
