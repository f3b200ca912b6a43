import Verif.Chains.Genuine
import Verif.Chains.Examples
import Verif.Chains.Edges
/-
Stores with two long branches: a store for every length of the common part and of the branches.
-/
set_option autoImplicit false

namespace Verif.Chains.Shape

open Verif KV Chains Spec

/-- the id of the block with the given number; number 0 is the genesis block -/
def nid (n : Nat) : BlockID :=
  if n = 0 then Ex.g0.id else ⟨be64 (UInt64.ofNat n) ++ List.replicate 24 1, Or.inl (by simp)⟩

/-- the number of a block -/
def num (id : BlockID) : Nat := beVal (id.1.take 8)

/-- The parents: the blocks below `c` are the common part, the blocks from `c` to `c + d` are one branch, the blocks from `c + d + 1` to
`c + 2 * d + 1` the other. -/
def par (c d n : Nat) : Nat := if n = c + d + 1 then c - 1 else n - 1

/-- the block with an id, in this tree -/
def truth (c d : Nat) : Truth := fun id => { Ex.g0 with id := id, parent := nid (par c d (num id)) }

/-- the block with a number -/
def block (c d n : Nat) : ProtoBlock := truth c d (nid n)

/-- the blocks 1 to `k`, in this order -/
def blocks (c d k : Nat) : List (ProtoBlock × Addr) := (List.range' 1 k).map (fun n => (block c d n, Ex.ip 1))

/-- the store -/
def store (c d : Nat) : Linkage := exec Ex.l0 (deliver (blocks c d (c + 2 * d + 1)))

theorem num_nid {n : Nat} (h1 : 1 ≤ n) (h2 : n < 2 ^ 64) : num (nid n) = n := by
  unfold num nid
  rw [if_neg (by omega)]
  simp only
  rw [List.take_append_of_le_length (by simp), List.take_of_length_le (by simp), beVal_be64]
  simp [Nat.mod_eq_of_lt h2]

theorem nid_ne {n : Nat} (h : 1 ≤ n) : nid n ≠ Ex.g0.id := by
  unfold nid
  rw [if_neg (by omega)]
  intro e
  have := congrArg (fun x : BlockID => x.1.getLast?) e
  simp only [List.getLast?_append] at this
  rw [show (List.replicate 24 (1 : UInt8)).getLast? = some 1 from rfl, show List.getLast? Ex.g0.id.val = some 7 by decide +kernel] at this
  simp at this

theorem nid_inj {n m : Nat} (hn : n < 2 ^ 64) (hm : m < 2 ^ 64) (h : nid n = nid m) : n = m := by
  by_cases h1 : n = 0
  · by_cases h2 : m = 0
    · omega
    · exact absurd (h ▸ (by rw [h1]; rfl) : nid m = Ex.g0.id) (nid_ne (by omega))
  · by_cases h2 : m = 0
    · exact absurd (h.symm ▸ (by rw [h2]; rfl) : nid n = Ex.g0.id) (nid_ne (by omega))
    · rw [← num_nid (n := n) (by omega) hn, h, num_nid (by omega) hm]

theorem truth_parent {c d n : Nat} (h1 : 1 ≤ n) (h2 : n < 2 ^ 64) : (truth c d (nid n)).parent = nid (par c d n) := by
  show nid (par c d (num (nid n))) = _
  rw [num_nid h1 h2]

theorem par_lt {c d n : Nat} (h : 1 ≤ n) : par c d n < n := by
  unfold par; split <;> omega

theorem parentFirst {c d : Nat} : ∀ (k s : Nat) (known : List BlockID), 1 ≤ s → s + k < 2 ^ 64 → (∀ m, m < s → nid m ∈ known) →
    ParentFirst known ((List.range' s k).map (fun n => (block c d n, Ex.ip 1)))
  | 0, _, _, _, _, _ => trivial
  | k + 1, s, known, h1, h2, hk => by
    rw [List.range'_succ, List.map_cons]
    refine ⟨?_, parentFirst k (s + 1) _ (by omega) (by omega) (fun m hm => ?_)⟩
    · rw [show (block c d s).parent = nid (par c d s) from truth_parent h1 (by omega)]
      exact hk _ (par_lt h1)
    · by_cases h : m = s
      · subst h; exact List.mem_cons_self
      · exact List.mem_cons_of_mem _ (hk m (by omega))

theorem inserts_deliver (bs : List (ProtoBlock × Addr)) : inserts (deliver bs) = bs.length := by
  induction bs with
  | nil => rfl
  | cons b bs ih => simp only [deliver, inserts, List.map_cons, List.filter_cons, List.length_cons] at ih ⊢; simp [ih]

theorem told {c d : Nat} (hroom : c + 2 * d + 3 < 2 ^ 32) : Told (truth c d) Ex.g0 (store c d) := by
  refine ⟨Ex.l0, _, Ex.fresh, ?_, ?_, rfl⟩
  · rw [inserts_deliver]; simp only [blocks, List.length_map, List.length_range']; omega
  · intro o ho
    simp only [deliver, blocks, List.map_map, List.mem_map] at ho
    obtain ⟨n, _, rfl⟩ := ho
    rfl

theorem stored {c d : Nat} (hroom : c + 2 * d + 3 < 2 ^ 32) {n : Nat} (hn : n ≤ c + 2 * d + 1) : Stored (store c d).db (nid n) := by
  obtain ⟨ga, sc, _, _, _, R0⟩ := fresh_rep Ex.fresh
  have hk : ∀ id, Stored Ex.l0.db id ↔ id ∈ [Ex.g0.id] := by
    intro id
    rw [R0.stored_iff, List.mem_singleton]
    constructor
    · rintro ⟨n, hn⟩
      obtain ⟨x, hx, hid⟩ := numOf_some hn
      have := at1_mem hx
      rw [List.mem_singleton.mp this] at hid
      exact Subtype.ext hid.symm
    · rintro rfl
      exact ⟨1, R0.tree.numOf_eq (x := genesisNode Ex.g0 ga sc) rfl rfl⟩
  refine (R0.deliver_stored (blocks c d (c + 2 * d + 1)) [Ex.g0.id] ?_ hk (parentFirst _ 1 _ (Nat.le_refl _) (by omega) ?_) ?_ (nid n)).mpr ?_
  · rw [inserts_deliver]; simp only [blocks, List.length_map, List.length_range', List.length_singleton]; omega
  · intro m hm
    rw [show m = 0 by omega]
    exact List.mem_singleton.mpr rfl
  · intro p hp
    simp only [blocks, List.mem_map] at hp
    obtain ⟨m, _, rfl⟩ := hp
    exact ⟨by simp [block, truth, Ex.g0, Ex.blk, Ex.blkT], (by decide +kernel : Ex.g0.baseTarget.toNat < 2 ^ 63)⟩
  · by_cases h : n = 0
    · subst h; exact Or.inl (List.mem_singleton.mpr rfl)
    · refine Or.inr ?_
      simp only [blocks, List.map_map, List.mem_map, List.mem_range'_1]
      exact ⟨n, by omega, rfl⟩

/-- the height of a block -/
def height (c d n : Nat) : Nat := if n ≤ c + d then n + 1 else n - d

theorem height_par {c d n : Nat} (hc : 1 ≤ c) (h : 1 ≤ n) : height c d n = height c d (par c d n) + 1 := by
  unfold height par
  repeat' split
  all_goals omega

theorem genuine {c d : Nat} (hc : 1 ≤ c) (hroom : c + 2 * d + 3 < 2 ^ 32) : ∀ (n : Nat), n ≤ c + 2 * d + 1 →
    ∃ r, Genuine (truth c d) Ex.g0 (nid n) r ∧ r.height.toNat = height c d n := by
  intro n
  induction n using Nat.strongRecOn with
  | _ n ih =>
    intro hn
    by_cases h : n = 0
    · subst h
      exact ⟨_, .genesis _ rfl, by unfold height; rw [if_pos (Nat.zero_le _)]; rfl⟩
    · obtain ⟨r, G, hr⟩ := ih (par c d n) (par_lt (by omega)) (by have := @par_lt c d n (by omega); omega)
      refine ⟨_, .block (nid n) r _ (nid_ne (by omega)) (by rw [truth_parent (by omega) (by omega)]; exact G) rfl, ?_⟩
      have e := @height_par c d n hc (by omega)
      have : height c d n ≤ n + 1 := by unfold height; split <;> omega
      show (r.height + 1).toNat = _
      rw [UInt32.toNat_add, hr, e]
      exact Nat.mod_eq_of_lt (by show _ + 1 < _; omega)

theorem heightOf {c d : Nat} (hc : 1 ≤ c) (hroom : c + 2 * d + 3 < 2 ^ 32) {n : Nat} (hn : n ≤ c + 2 * d + 1) :
    HeightOf (store c d).db (nid n) (height c d n) := by
  have H := told_holds (@told c d hroom)
  obtain ⟨r, hr⟩ := record_of_stored H.reachable (stored hroom hn)
  obtain ⟨r', G, h⟩ := genuine hc hroom n hn
  rw [G.unique (H.record _ _ hr)] at h
  exact ⟨r, hr, h⟩

/-- what is below a block -/
theorem below {c d : Nat} (hc : 1 ≤ c) (hroom : c + 2 * d + 3 < 2 ^ 32) : ∀ (n : Nat), n ≤ c + 2 * d + 1 → ∀ x,
    (Below (truth c d) Ex.g0 x (nid n) ↔ ∃ m, x = nid m ∧ m ≤ n ∧ (n ≤ c + d ∨ m < c ∨ c + d < m)) := by
  intro n
  induction n using Nat.strongRecOn with
  | _ n ih =>
    intro hn x
    by_cases h : n = 0
    · subst h
      constructor
      · intro hb
        rcases below_inv hb with e | ⟨hne, _⟩
        · exact ⟨0, e, Nat.le_refl _, by omega⟩
        · exact absurd rfl hne
      · rintro ⟨m, rfl, hm, _⟩
        rw [show m = 0 by omega]
        exact .refl _
    · have hp := @par_lt c d n (by omega)
      have IH := ih (par c d n) hp (by omega) x
      constructor
      · intro hb
        rcases below_inv hb with e | ⟨_, hb⟩
        · exact ⟨n, e, Nat.le_refl _, by omega⟩
        · rw [truth_parent (by omega) (by omega)] at hb
          obtain ⟨m, e, h1, h2⟩ := IH.mp hb
          refine ⟨m, e, by omega, ?_⟩
          unfold par at h1 h2
          split at h1 <;> split at h2 <;> omega
      · rintro ⟨m, rfl, h1, h2⟩
        by_cases hmn : m = n
        · subst hmn; exact .refl _
        · refine .step (nid_ne (by omega)) ?_
          rw [truth_parent (by omega) (by omega)]
          refine IH.mpr ⟨m, rfl, ?_, ?_⟩ <;> (unfold par; split <;> omega)

/-- the ends of the two branches, and the last common block -/
theorem isLCA {c d : Nat} (hc : 1 ≤ c) (hroom : c + 2 * d + 3 < 2 ^ 32) :
    IsLCA (store c d).db (nid (c + d)) (nid (c + 2 * d + 1)) (nid (c - 1)) := by
  have H := told_holds (@told c d hroom)
  rw [holds_isLCA H (stored hroom (by omega)) (stored hroom (by omega))]
  refine ⟨(below hc hroom _ (by omega) _).mpr ⟨c - 1, rfl, by omega, by omega⟩,
    (below hc hroom _ (by omega) _).mpr ⟨c - 1, rfl, by omega, by omega⟩, ?_⟩
  intro x h1 h2
  obtain ⟨m, rfl, a1, a2⟩ := (below hc hroom _ (by omega) _).mp h1
  obtain ⟨m', e, b1, b2⟩ := (below hc hroom _ (by omega) _).mp h2
  have := nid_inj (by omega) (by omega) e
  exact (below hc hroom _ (by omega) _).mpr ⟨m, rfl, by omega, by omega⟩

end Verif.Chains.Shape
