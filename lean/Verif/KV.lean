import Verif.Bytes
/-
LevelDB as a byte-sorted association list.

The value type is a parameter: raw byte strings and CBOR encoded records are
different constructors of the caller's value type (the bytes of the records are in
Verif/Cbor).
-/

set_option autoImplicit false

namespace Verif.KV

open Verif

/-- Contents of a database: key/value pairs in increasing key order
(`Sorted` below). -/
abbrev DB (V : Type) := List (Bytes × V)

variable {V : Type}

/-- `sn.Get(key)`; `none` is `leveldb.ErrNotFound`. -/
def get : DB V → Bytes → Option V
  | [], _ => none
  | (k, v) :: db, k' => if k' = k then some v else get db k'

/-- insertion of one pair, replacing an existing pair with the same key -/
def put : DB V → Bytes → V → DB V
  | [], k, v => [(k, v)]
  | (k', v') :: db, k, v =>
    if k = k' then (k, v) :: db
    else if bytesLt k k' then (k, v) :: (k', v') :: db
    else (k', v') :: put db k v

/-- deletion of a key; deleting an absent key is a no-op -/
def del (db : DB V) (k : Bytes) : DB V := db.filter (fun p => !decide (p.1 = k))

/-- iteration over `util.Range{Start: lo, Limit: hi}`: `lo` inclusive, `hi` exclusive,
in key order -/
def scan (db : DB V) (lo hi : Bytes) : DB V :=
  db.filter (fun p => !(bytesLt p.1 lo) && bytesLt p.1 hi)

/-- one record of a `leveldb.Batch` -/
inductive BatchOp (V : Type) where
  | put (k : Bytes) (v : V)
  | del (k : Bytes)
deriving Repr

/-- a `leveldb.Batch`, in the order of the calls -/
abbrev Batch (V : Type) := List (BatchOp V)

def applyOp (db : DB V) : BatchOp V → DB V
  | .put k v => put db k v
  | .del k => del db k

def applyBatch (db : DB V) (b : Batch V) : DB V := b.foldl applyOp db

/-- What happens to one `db.Write`.  `fail` and `lostAck` also describe the
process stopping just before, respectively just after, the write. -/
inductive Fate where
  /-- the batch is applied and success is reported -/
  | ok
  /-- nothing is applied, an error is reported -/
  | fail
  /-- the batch is applied, but an error is reported -/
  | lostAck
deriving DecidableEq, Repr

/-- `db.Write(batch, nil)` with the given fate. -/
def write (f : Fate) (db : DB V) (b : Batch V) : DB V × Go Unit :=
  match f with
  | .ok => (applyBatch db b, .ok ())
  | .fail => (db, Verif.fail .writeFailed)
  | .lostAck => (applyBatch db b, Verif.fail .writeFailed)

/-- the representation invariant of the association list -/
def Sorted (db : DB V) : Prop := db.Pairwise (fun a b => bytesLt a.1 b.1 = true)

theorem get_put (db : DB V) (k k' : Bytes) (v : V) :
    get (put db k v) k' = if k' = k then some v else get db k' := by
  induction db with
  | nil => simp [put, get]
  | cons p db ih =>
    obtain ⟨a, b⟩ := p
    by_cases h1 : k = a
    · subst h1; by_cases h : k' = k <;> simp [put, get, h]
    · by_cases h2 : bytesLt k a = true
      · by_cases h : k' = k <;> simp [put, get, h, h1, h2]
      · by_cases h : k' = a
        · subst h; simp [put, h1, h2, get]; intro e; exact absurd e.symm h1
        · simp [put, h1, h2, get, h, ih]

theorem get_del (db : DB V) (k k' : Bytes) :
    get (del db k) k' = if k' = k then none else get db k' := by
  induction db with
  | nil => simp [del, get]
  | cons p db ih =>
    obtain ⟨a, b⟩ := p
    unfold del at ih ⊢
    by_cases h1 : a = k
    · subst h1
      by_cases h : k' = a
      · subst h; simp [ih]
      · simp [get, h, ih]
    · by_cases h : k' = a
      · subst h; simp [h1, get]
      · simp [h1, get, h, ih]

theorem mem_of_get {db : DB V} {k : Bytes} {v : V} (h : get db k = some v) : (k, v) ∈ db := by
  induction db with
  | nil => simp [get] at h
  | cons p db ih =>
    obtain ⟨a, b⟩ := p
    by_cases e : k = a
    · subst e; simp [get] at h; simp [h]
    · simp [get, e] at h; exact List.mem_cons_of_mem _ (ih h)

theorem mem_put_of_mem {db : DB V} {k : Bytes} {v : V} {p : Bytes × V} (h : p ∈ put db k v) :
    p = (k, v) ∨ p ∈ db := by
  induction db with
  | nil => simp [put] at h; exact Or.inl h
  | cons q db ih =>
    obtain ⟨a, b⟩ := q
    by_cases h1 : k = a
    · simp [put, h1] at h ⊢; rcases h with h | h <;> simp [h]
    · by_cases h2 : bytesLt k a = true
      · simp [put, h1, h2] at h ⊢; exact h
      · simp [put, h1, h2] at h ⊢
        rcases h with h | h
        · simp [h]
        · rcases ih h with h | h <;> simp [h]

theorem sorted_put {db : DB V} (h : Sorted db) (k : Bytes) (v : V) : Sorted (put db k v) := by
  induction db with
  | nil => simp [put, Sorted]
  | cons q db ih =>
    obtain ⟨a, b⟩ := q
    have hh := List.pairwise_cons.mp h
    by_cases h1 : k = a
    · subst h1; simp only [put, if_true]
      exact List.pairwise_cons.mpr ⟨fun p hp => hh.1 p hp, hh.2⟩
    · by_cases h2 : bytesLt k a = true
      · simp only [put, h1, h2, if_true, if_false]
        refine List.pairwise_cons.mpr ⟨fun p hp => ?_, h⟩
        rcases List.mem_cons.mp hp with rfl | hp
        · exact h2
        · exact bytesLt_trans h2 (hh.1 p hp)
      · simp only [put, h1, h2, if_false]
        refine List.pairwise_cons.mpr ⟨fun p hp => ?_, ih hh.2⟩
        rcases mem_put_of_mem hp with rfl | hp
        · exact bytesLt_total h1 (by simpa using h2)
        · exact hh.1 p hp

theorem sorted_del {db : DB V} (h : Sorted db) (k : Bytes) : Sorted (del db k) :=
  List.Pairwise.filter _ h

theorem sorted_applyBatch {db : DB V} (h : Sorted db) (b : Batch V) : Sorted (applyBatch db b) := by
  induction b generalizing db with
  | nil => exact h
  | cons o b ih =>
    refine ih ?_
    cases o with
    | put k v => exact sorted_put h k v
    | del k => exact sorted_del h k

theorem get_of_mem {db : DB V} (hs : Sorted db) {k : Bytes} {v : V} (h : (k, v) ∈ db) :
    get db k = some v := by
  induction db with
  | nil => simp at h
  | cons q db ih =>
    obtain ⟨a, b⟩ := q
    have hh := List.pairwise_cons.mp hs
    rcases List.mem_cons.mp h with e | hm
    · cases e; simp [get]
    · have := bytesLt_ne (hh.1 _ hm)
      have hne : k ≠ a := fun e => this e.symm
      simp [get, hne, ih hh.2 hm]

theorem mem_iff_get {db : DB V} (hs : Sorted db) {k : Bytes} {v : V} :
    (k, v) ∈ db ↔ get db k = some v := ⟨get_of_mem hs, mem_of_get⟩

theorem mem_scan {db : DB V} (hs : Sorted db) {lo hi k : Bytes} {v : V} :
    (k, v) ∈ scan db lo hi ↔ get db k = some v ∧ bytesLt k lo = false ∧ bytesLt k hi = true := by
  simp [scan, List.mem_filter, mem_iff_get hs]

theorem sorted_scan {db : DB V} (hs : Sorted db) (lo hi : Bytes) : Sorted (scan db lo hi) :=
  List.Pairwise.filter _ hs

end Verif.KV
