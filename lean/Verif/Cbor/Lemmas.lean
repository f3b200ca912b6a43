import Verif.Cbor.Format
/-
What the encoder writes is read back.
-/

set_option autoImplicit false

namespace Verif.Cbor

theorem beVal_snoc (a : Bytes) (x : UInt8) : beVal (a ++ [x]) = beVal a * 256 + x.toNat := by
  induction a with
  | nil => simp [beVal]
  | cons y a ih =>
    simp only [List.cons_append, beVal, ih, List.length_append, List.length_cons, List.length_nil, Nat.pow_succ]
    rw [Nat.add_mul, Nat.mul_assoc, Nat.add_assoc]

theorem be_length (k n : Nat) : (be k n).length = k := by
  induction k generalizing n with
  | zero => rfl
  | succ k ih => simp [be, ih]

theorem beVal_be (k n : Nat) : beVal (be k n) = n % 256 ^ k := by
  induction k generalizing n with
  | zero => simp [be, beVal, Nat.mod_one]
  | succ k ih =>
    rw [be, beVal_snoc, ih, UInt8.toNat_ofNat', show (256 : Nat) ^ (k + 1) = 256 * 256 ^ k from Nat.pow_succ', Nat.mod_mul]
    omega

theorem beVal_natBytes (n : Nat) : beVal (natBytes n) = n := by
  unfold natBytes
  split
  · next h => simp [beVal, h]
  · next h =>
    rw [beVal_be]
    apply Nat.mod_eq_of_lt
    have h1 : n < 2 ^ (Nat.log2 n + 1) := Nat.lt_log2_self
    have h2 : (256 : Nat) ^ (Nat.log2 n / 8 + 1) = 2 ^ (8 * (Nat.log2 n / 8 + 1)) := by rw [Nat.pow_mul]
    rw [h2]
    exact Nat.lt_of_lt_of_le h1 (Nat.pow_le_pow_right (by omega) (by omega))

theorem takeN_append (a r : Bytes) : takeN a.length (a ++ r) = some (a, r) := by
  simp [takeN]

theorem takeNum_be (k n : Nat) (h : n < 256 ^ k) (r : Bytes) : takeNum k (be k n ++ r) = some (n, r) := by
  have := takeN_append (be k n) r
  rw [be_length] at this
  simp [takeNum, this, beVal_be, Nat.mod_eq_of_lt h]

theorem readHead_head {m n : Nat} (hm : m < 8) (hn : n < 2 ^ 64) (r : Bytes) : readHead (head m n ++ r) = some (m, n, r) := by
  have hb : ∀ k, k < 32 → (UInt8.ofNat (m * 32 + k)).toNat = m * 32 + k := by
    intro k hk; rw [UInt8.toNat_ofNat']; omega
  unfold head
  split
  · next h =>
    have e := hb n (by omega)
    simp only [List.cons_append, List.nil_append, readHead, e]
    rw [if_pos (by omega), show (m * 32 + n) / 32 = m by omega, show (m * 32 + n) % 32 = n by omega]
  · split
    · next h =>
      have e := hb 24 (by omega)
      simp only [List.cons_append, readHead, e]
      rw [if_neg (by omega), if_pos (by omega), takeNum_be 1 n (by omega) r, show (m * 32 + 24) / 32 = m by omega]; rfl
    · split
      · next h =>
        have e := hb 25 (by omega)
        simp only [List.cons_append, readHead, e]
        rw [if_neg (by omega), if_neg (by omega), if_pos (by omega), takeNum_be 2 n (by omega) r, show (m * 32 + 25) / 32 = m by omega]; rfl
      · split
        · next h =>
          have e := hb 26 (by omega)
          simp only [List.cons_append, readHead, e]
          rw [if_neg (by omega), if_neg (by omega), if_neg (by omega), if_pos (by omega), takeNum_be 4 n (by omega) r,
            show (m * 32 + 26) / 32 = m by omega]; rfl
        · next h =>
          have e := hb 27 (by omega)
          simp only [List.cons_append, readHead, e]
          rw [if_neg (by omega), if_neg (by omega), if_neg (by omega), if_neg (by omega), if_pos (by omega),
            takeNum_be 8 n (by omega) r, show (m * 32 + 27) / 32 = m by omega]; rfl

/-- `b` is read as the item `i` at every nesting below the limit -/
def Reads (b : Bytes) (i : Item) : Prop := ∀ (d : Nat) (r : Bytes), readItem (d + 2) (b ++ r) = some (i, r)

theorem reads_uint {n : Nat} (h : n < 2 ^ 64) : Reads (encUint n) (.uint n) := by
  intro d r
  simp [readItem, encUint, readHead_head (show 0 < 8 by omega) h]

/-- the item that stands for a number of seconds -/
def intItem : Int → Item
  | .ofNat n => .uint n
  | .negSucc n => .nint n

theorem reads_int {z : Int} (h1 : -9223372036854775808 ≤ z) (h2 : z < 9223372036854775808) : Reads (encInt z) (intItem z) := by
  intro d r
  cases z with
  | ofNat n =>
    have hn : n < 2 ^ 64 := by
      have : (n : Int) < 9223372036854775808 := h2
      omega
    simp [readItem, encInt, intItem, readHead_head (show 0 < 8 by omega) hn]
  | negSucc n =>
    have hn : n < 2 ^ 64 := by omega
    simp [readItem, encInt, intItem, readHead_head (show 1 < 8 by omega) hn]

theorem reads_null : Reads null (.simple 22) := by
  intro d r
  have h : readHead (null ++ r) = some (7, 22, r) := rfl
  rw [readItem, h]; rfl

/-- what a slice of bytes is read as -/
def bytesItem (b : Bytes) : Item := if b = [] then .simple 22 else .bytes b

theorem reads_bytes {b : Bytes} (h : b.length < 2 ^ 64) : Reads (encBytes b) (bytesItem b) := by
  intro d r
  unfold encBytes bytesItem
  split
  · exact reads_null d r
  · simp [readItem, List.append_assoc, readHead_head (show 2 < 8 by omega) h, takeN_append]

theorem reads_text {b : Bytes} (h : b.length < 2 ^ 64) : Reads (encText b) (.text b) := by
  intro d r
  simp [readItem, encText, List.append_assoc, readHead_head (show 3 < 8 by omega) h, takeN_append]

/-- what a number of any size is read as -/
def bigItem (n : Nat) : Item := if n < 2 ^ 64 then .uint n else .tag 2 (.bytes (natBytes n))

theorem reads_big {n : Nat} (h : (natBytes n).length < 2 ^ 64) : Reads (encBig n) (bigItem n) := by
  intro d r
  unfold encBig bigItem
  split
  · next h' => exact reads_uint h' d r
  · rw [readItem, List.append_assoc, readHead_head (show 6 < 8 by omega) (show 2 < 2 ^ 64 by omega)]
    simp [readItem, List.append_assoc, readHead_head (show 2 < 8 by omega) h, takeN_append]

def bigPtrItem : Option Nat → Item
  | none => .simple 22
  | some n => bigItem n

theorem reads_bigPtr {o : Option Nat} (h : ∀ n, o = some n → (natBytes n).length < 2 ^ 64) : Reads (encBigPtr o) (bigPtrItem o) := by
  match o with
  | none => exact reads_null
  | some n => exact reads_big (h n rfl)

theorem itemsN_nums (d : Nat) : ∀ (l : List Nat) (r : Bytes), (∀ n, n ∈ l → n < 2 ^ 64) →
    itemsN (readItem (d + 1)) l.length (l.flatMap encUint ++ r) = some (l.map .uint, r)
  | [], r, _ => rfl
  | n :: l, r, h => by
    have h1 : readItem (d + 1) (encUint n ++ (l.flatMap encUint ++ r)) = some (.uint n, l.flatMap encUint ++ r) := by
      simp [readItem, encUint, readHead_head (show 0 < 8 by omega) (h n (by simp))]
    simp only [List.length_cons, List.flatMap_cons, List.append_assoc, itemsN, h1,
      itemsN_nums d l r (fun m hm => h m (List.mem_cons_of_mem _ hm)), List.map_cons]

def numsItem (l : List Nat) : Item := if l = [] then .simple 22 else .arr (l.map .uint)

theorem reads_nums {l : List Nat} (h1 : l.length ≤ maxElements) (h2 : ∀ n, n ∈ l → n < 2 ^ 64) : Reads (encNums l) (numsItem l) := by
  intro d r
  unfold encNums numsItem
  split
  · exact reads_null d r
  · rw [readItem, List.append_assoc, readHead_head (show 4 < 8 by omega) (show l.length < 2 ^ 64 by unfold maxElements at h1; omega)]
    simp [h1, itemsN_nums d l r h2]

/-! ### structures -/

theorem pairsN_fields (d : Nat) : ∀ (l : List (Nat × Bytes × Item)) (r : Bytes), (∀ p, p ∈ l → p.1 < 2 ^ 64 ∧ Reads p.2.1 p.2.2) →
    pairsN (readItem (d + 2)) l.length (l.flatMap (fun p => field p.1 p.2.1) ++ r) = some (l.map (fun p => (.uint p.1, p.2.2)), r)
  | [], r, _ => rfl
  | (k, v, i) :: l, r, h => by
    obtain ⟨h1, h2⟩ := h (k, v, i) (by simp)
    have e1 := reads_uint h1 d (v ++ (l.flatMap (fun p => field p.1 p.2.1) ++ r))
    rw [encUint] at e1
    have e2 := h2 d (l.flatMap (fun p => field p.1 p.2.1) ++ r)
    simp only [List.length_cons, List.flatMap_cons, List.append_assoc, field, pairsN, List.map_cons] at e1 e2 ⊢
    have e3 := pairsN_fields d l r (fun p hp => h p (List.mem_cons_of_mem _ hp))
    simp only [field] at e3
    rw [e1]; simp only
    rw [e2]; simp only
    rw [e3]

theorem readStruct_fields (l : List (Nat × Bytes × Item)) (hl : l.length ≤ maxElements)
    (h : ∀ p, p ∈ l → p.1 < 2 ^ 64 ∧ Reads p.2.1 p.2.2) :
    readStruct (encStruct (l.map (fun p => (p.1, p.2.1)))) = some (l.map (fun p => (.uint p.1, p.2.2))) := by
  have e := pairsN_fields 29 l [] h
  have e0 : readItem 32 (encStruct (l.map (fun p => (p.1, p.2.1)))) = some (.map (l.map (fun p => (.uint p.1, p.2.2))), []) := by
    rw [encStruct, readItem, List.length_map, readHead_head (show 5 < 8 by omega) (show l.length < 2 ^ 64 by unfold maxElements at hl; omega)]
    simp only [List.append_nil] at e
    simp [hl, List.flatMap_map, e]
  rw [readStruct, e0]

/-! ### the values of fields -/

theorem asUint_uint {n max : Nat} (h : n ≤ max) : asUint max (.uint n) = some n := by simp [asUint, h]

theorem asBytes_item (b : Bytes) : asBytes (bytesItem b) = some b := by
  unfold bytesItem; split
  · next h => simp [asBytes, h]
  · rfl

theorem asBig_item (o : Option Nat) : asBig (bigPtrItem o) = some o := by
  match o with
  | none => rfl
  | some n =>
    simp only [bigPtrItem, bigItem]
    split
    · rfl
    · simp [asBig, beVal_natBytes]

theorem asNums_item {l : List Nat} {max : Nat} (h : ∀ n, n ∈ l → n ≤ max) : asNums max (numsItem l) = some l := by
  have e : ∀ (l : List Nat), (∀ n, n ∈ l → n ≤ max) → allOf (asUint max) (l.map .uint) = some l := by
    intro l
    induction l with
    | nil => intro _; rfl
    | cons n l ih =>
      intro h
      simp [allOf, asUint, h n (by simp), ih (fun m hm => h m (List.mem_cons_of_mem _ hm))]
  unfold numsItem; split
  · next h0 => simp [asNums, h0]
  · exact e l h

/-! ### databases with other values -/

section
variable {V : Type} (f : V → Bytes)

theorem get_mapVals (db : KV.DB V) (k : Bytes) : KV.get (db.map (fun p => (p.1, f p.2))) k = (KV.get db k).map f := by
  induction db with
  | nil => rfl
  | cons p db ih =>
    simp only [List.map_cons, KV.get]
    split
    · rfl
    · exact ih

theorem put_mapVals (db : KV.DB V) (k : Bytes) (v : V) :
    (KV.put db k v).map (fun p => (p.1, f p.2)) = KV.put (db.map (fun p => (p.1, f p.2))) k (f v) := by
  induction db with
  | nil => rfl
  | cons p db ih =>
    simp only [List.map_cons, KV.put]
    split
    · rfl
    · split
      · rfl
      · rw [List.map_cons, ih]

theorem del_mapVals (db : KV.DB V) (k : Bytes) :
    (KV.del db k).map (fun p => (p.1, f p.2)) = KV.del (db.map (fun p => (p.1, f p.2))) k := by
  simp only [KV.del, List.filter_map]
  rfl

theorem scan_mapVals (db : KV.DB V) (lo hi : Bytes) :
    KV.scan (db.map (fun p => (p.1, f p.2))) lo hi = (KV.scan db lo hi).map (fun p => (p.1, f p.2)) := by
  simp only [KV.scan, List.filter_map]
  rfl

theorem batch_mapVals (b : KV.Batch V) : ∀ (db : KV.DB V), (KV.applyBatch db b).map (fun p => (p.1, f p.2)) =
    KV.applyBatch (db.map (fun p => (p.1, f p.2))) (b.map (encOp f)) := by
  induction b with
  | nil => intro db; rfl
  | cons o b ih =>
    intro db
    have h : (KV.applyOp db o).map (fun p => (p.1, f p.2)) =
        KV.applyOp (db.map (fun p => (p.1, f p.2))) (encOp f o) := by
      cases o with
      | put k v => exact put_mapVals f db k v
      | del k => exact del_mapVals f db k
    have e := ih (KV.applyOp db o)
    rw [h] at e
    exact e

theorem write_mapVals (ft : KV.Fate) (db : KV.DB V) (b : KV.Batch V) :
    KV.write ft (db.map (fun p => (p.1, f p.2))) (b.map (encOp f)) =
      ((KV.write ft db b).1.map (fun p => (p.1, f p.2)), (KV.write ft db b).2) := by
  cases ft <;> simp [KV.write, batch_mapVals]

end

end Verif.Cbor
