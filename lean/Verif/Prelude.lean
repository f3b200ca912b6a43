/-
Results of Go calls.

A Go function that returns `(T, error)` is modelled as a value of `Go T`:
either a value, or an error value, or a panic.  Panics are explicit so that a
theorem can say that a call does not panic.
-/

set_option autoImplicit false

namespace Verif

/-- Error values that the modelled code distinguishes (through `errors.Is`) or
that are returned to a caller.  Wrapping with `fmt.Errorf("...: %w", err)`
keeps the identity used by `errors.Is`, so wrapped errors are the wrapped
value here. -/
inductive Err where
  /-- `leveldb.ErrNotFound` -/
  | notFound
  /-- `chains.ErrParentNotFound` (chains/linkage.go:24) -/
  | parentNotFound
  /-- `chains.ErrRefNotFound` (chains/linkage.go:25) -/
  | refNotFound
  /-- a stored value has an unexpected size -/
  | badSize
  /-- `proto.NewBlockIDFromBytes` failed -/
  | badID
  /-- CBOR decoding failed -/
  | badRecord
  /-- the database reported a write failure -/
  | writeFailed
  /-- unexpected key prefix (chains/storage.go:676) -/
  | badPrefix
  /-- `proto.NewAddressFromPublicKey` failed -/
  | badGenerator
  /-- any other error; the message only identifies the place -/
  | other (place : String)
deriving DecidableEq, Repr

/-- A call did not return a value: it returned an error, or it panicked. -/
inductive Fault where
  | err (e : Err)
  | panic
deriving DecidableEq, Repr

/-- Result of a Go call. -/
abbrev Go (α : Type) := Except Fault α

/-- `return ..., err` -/
def fail {α : Type} (e : Err) : Go α := .error (.err e)

/-- a run-time panic -/
def goPanic {α : Type} : Go α := .error .panic

instance {α : Type} [DecidableEq α] : DecidableEq (Go α) := fun a b =>
  match a, b with
  | .ok x, .ok y => if h : x = y then isTrue (h ▸ rfl) else isFalse (fun e => h (Except.ok.inj e))
  | .error x, .error y => if h : x = y then isTrue (h ▸ rfl) else isFalse (fun e => h (Except.error.inj e))
  | .ok _, .error _ => isFalse (fun e => nomatch e)
  | .error _, .ok _ => isFalse (fun e => nomatch e)

/-- Indexing a slice with a non-negative index: panics when out of range. -/
def goIndex {α : Type} (l : List α) (i : Nat) : Go α :=
  match l[i]? with
  | some a => .ok a
  | none => goPanic

@[simp] theorem go_bind_ok {α β : Type} (a : α) (f : α → Go β) : ((Except.ok a : Go α) >>= f) = f a := rfl
@[simp] theorem go_bind_error {α β : Type} (e : Fault) (f : α → Go β) :
    ((Except.error e : Go α) >>= f) = .error e := rfl
@[simp] theorem go_pure {α : Type} (a : α) : (pure a : Go α) = .ok a := rfl
@[simp] theorem go_map_ok {α β : Type} (a : α) (f : α → β) : (f <$> (Except.ok a : Go α)) = .ok (f a) := rfl
@[simp] theorem go_map_error {α β : Type} (e : Fault) (f : α → β) :
    (f <$> (Except.error e : Go α)) = .error e := rfl

theorem go_bind_eq_ok {α β : Type} {x : Go α} {f : α → Go β} {b : β} :
    (x >>= f) = .ok b ↔ ∃ a, x = .ok a ∧ f a = .ok b := by
  cases x <;> simp

theorem goIndex_of_lt {α : Type} {l : List α} {i : Nat} (h : i < l.length) : goIndex l i = .ok l[i] := by
  simp [goIndex, List.getElem?_eq_getElem h]

theorem goIndex_of_ge {α : Type} {l : List α} {i : Nat} (h : l.length ≤ i) : goIndex l i = goPanic := by
  simp [goIndex, List.getElem?_eq_none h]

end Verif
