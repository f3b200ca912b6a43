import Verif.Services.Locks
/-
Model of goroutines that call the methods of chains/linkage.go and peers/registry.go, with the
accesses to what the mutex guards spelled out.

`Services/Locks.lean` has the operations of the mutex only.  Here a call is a program that uses the mutex,
reads and writes what the mutex guards, one access at a time, and returns a value.  The accesses of different goroutines may
come in any order that the mutex allows.  A single access to the database is atomic (goleveldb is trusted for that).
-/

set_option autoImplicit false

namespace Verif.Services

/-- The code of a method: operations of the mutex, accesses to the guarded state, and the result.  What comes after an access
may depend on the state that it saw, so branches and loops are covered. -/
inductive Code (σ ρ : Type) where
  | ret (r : ρ)
  | op (o : LockOp) (k : Code σ ρ)
  | act (f : σ → σ) (k : σ → Code σ ρ)

variable {σ ρ : Type}

/-- a goroutine -/
structure Client (σ ρ : Type) where
  /-- read locks held -/
  reads : Nat
  /-- a write lock is waited for -/
  announced : Bool
  /-- the write lock is held -/
  writing : Bool
  /-- the call being made: its code and what is left of it -/
  cur : Option (Code σ ρ × Code σ ρ)
  /-- the calls that it will make -/
  todo : List (Code σ ρ)

/-- a call that has returned: the goroutine, the code and the result -/
structure Returned (σ ρ : Type) where
  who : Nat
  code : Code σ ρ
  result : ρ

/-- goroutines, the guarded state, and the calls that have returned (a record kept for the theorems) -/
structure System (σ ρ : Type) where
  cl : Nat → Client σ ρ
  mem : σ
  log : List (Returned σ ρ)

/-- goroutine `i` goes on -/
def System.set (s : System σ ρ) (i : Nat) (t : Client σ ρ) : System σ ρ :=
  { s with cl := fun j => if j = i then t else s.cl j }

/-- what is left of a call after an operation of the mutex; nothing if only the result is left -/
def left (c : Code σ ρ) : Code σ ρ → Option (Code σ ρ × Code σ ρ)
  | .ret _ => none
  | .op o k => some (c, .op o k)
  | .act f k => some (c, .act f k)

/-- a call with nothing but the result left has returned -/
def record (i : Nat) (c : Code σ ρ) : Code σ ρ → List (Returned σ ρ)
  | .ret r => [⟨i, c, r⟩]
  | .op _ _ => []
  | .act _ _ => []

/-- One step of one goroutine.  The conditions of the mutex are those of `LockStep`.  A call returns when it gives up the
mutex, `defer l.mu.Unlock()` and the like (chains/linkage.go:73-74, peers/registry.go:64-65); between that and the
return nothing shared is touched. -/
inductive SysStep : System σ ρ → System σ ρ → Prop where
  | begin (s : System σ ρ) (i : Nat) (c : Code σ ρ) (cs : List (Code σ ρ)) (hc : (s.cl i).cur = none) (h : (s.cl i).todo = c :: cs) :
      SysStep s (s.set i { s.cl i with cur := some (c, c), todo := cs })
  | rlock (s : System σ ρ) (i : Nat) (c k : Code σ ρ) (h : (s.cl i).cur = some (c, .op .rlock k))
      (free : ∀ j, (s.cl j).announced = false ∧ (s.cl j).writing = false) :
      SysStep s (s.set i { s.cl i with reads := (s.cl i).reads + 1, cur := some (c, k) })
  | runlock (s : System σ ρ) (i : Nat) (c k : Code σ ρ) (n : Nat) (h : (s.cl i).cur = some (c, .op .runlock k))
      (hr : (s.cl i).reads = n + 1) :
      SysStep s { s.set i { s.cl i with reads := n, cur := left c k } with log := s.log ++ record i c k }
  | announce (s : System σ ρ) (i : Nat) (c k : Code σ ρ) (h : (s.cl i).cur = some (c, .op .lock k))
      (free : ∀ j, (s.cl j).announced = false ∧ (s.cl j).writing = false) :
      SysStep s (s.set i { s.cl i with announced := true })
  | acquire (s : System σ ρ) (i : Nat) (c k : Code σ ρ) (h : (s.cl i).cur = some (c, .op .lock k)) (ha : (s.cl i).announced = true)
      (free : ∀ j, (s.cl j).reads = 0) :
      SysStep s (s.set i { s.cl i with announced := false, writing := true, cur := some (c, k) })
  | unlock (s : System σ ρ) (i : Nat) (c k : Code σ ρ) (h : (s.cl i).cur = some (c, .op .unlock k)) (hw : (s.cl i).writing = true) :
      SysStep s { s.set i { s.cl i with writing := false, cur := left c k } with log := s.log ++ record i c k }
  | act (s : System σ ρ) (i : Nat) (c : Code σ ρ) (f : σ → σ) (k : σ → Code σ ρ) (h : (s.cl i).cur = some (c, .act f k)) :
      SysStep s { s.set i { s.cl i with cur := some (c, k s.mem) } with mem := f s.mem }

/-- any number of steps -/
inductive SysRun : System σ ρ → System σ ρ → Prop where
  | nil (s : System σ ρ) : SysRun s s
  | snoc {s s' s'' : System σ ρ} (h : SysRun s s') (t : SysStep s' s'') : SysRun s s''

/-- nobody has begun a call yet; goroutine `i` will make the calls `calls i` -/
def System.start (mem : σ) (calls : Nat → List (Code σ ρ)) : System σ ρ :=
  ⟨fun i => ⟨0, false, false, none, calls i⟩, mem, []⟩

/-- The code keeps to the operations of the mutex in the list, accesses come before the last of them, and
none of the accesses changes the state unless `changes`. -/
inductive Keeps (changes : Bool) : List LockOp → Code σ ρ → Prop where
  | ret (r : ρ) : Keeps changes [] (.ret r)
  | op (o : LockOp) (os : List LockOp) (k : Code σ ρ) (h : Keeps changes os k) : Keeps changes (o :: os) (.op o k)
  | act (o : LockOp) (os : List LockOp) (f : σ → σ) (k : σ → Code σ ρ) (hf : changes = false → ∀ s, f s = s)
      (h : ∀ s, Keeps changes (o :: os) (k s)) : Keeps changes (o :: os) (.act f k)

/-- the methods that write: `PutBlock`, `PutMicroBlock`, `MoveLeash`, chains/linkage.go:72-130, 217-222 -/
def Method.changes : Method → Bool
  | .putBlock => true
  | .putMicroBlock => true
  | .moveLeash => true
  | _ => false

/-- code of a method of `Linkage`: it begins with the first operation of the mutex -/
def CodeOf (m : Method) (c : Code σ ρ) : Prop :=
  ∃ o os k, m.ops = o :: os ∧ c = .op o k ∧ Keeps m.changes os k

/-- Code of a method of `Registry`: all of them lock the mutex at the beginning and unlock it at the end,
peers/registry.go:64-65, 125-126, 161-162, 182-183, 206-207, 227-228, 270-271, 277-278, 289-290, 321-322, 358-359,
peers/version_provider.go:20-21.  `Addresses` (registry.go:306) calls `FriendlyPeers` and does not use the mutex itself. -/
def RegistryCode (c : Code σ ρ) : Prop :=
  ∃ k, c = .op .lock k ∧ Keeps true [.unlock] k

/-! ### what the calls are compared with -/

/-- the code on its own, from a given state: the state after it and the result -/
def Code.run : Code σ ρ → σ → σ × ρ
  | .ret r, s => (s, r)
  | .op _ k, s => k.run s
  | .act f k, s => (k s).run (f s)

/-- Calls made one after the other, each on its own: `Serial s log s'` says that they give the results in the log and lead from
`s` to `s'`. -/
inductive Serial (s : σ) : List (Returned σ ρ) → σ → Prop where
  | nil : Serial s [] s
  | snoc (log : List (Returned σ ρ)) (a a' : σ) (x : Returned σ ρ) (h : Serial s log a) (hx : x.code.run a = (a', x.result)) :
      Serial s (log ++ [x]) a'

/-- the calls of goroutine `i`: those that have returned, the one being made, and those to come -/
def System.calls (s : System σ ρ) (i : Nat) : List (Code σ ρ) :=
  (s.log.filter (fun x => x.who == i)).map (fun x => x.code) ++ (((s.cl i).cur.map (fun x => x.1)).toList ++ (s.cl i).todo)

end Verif.Services
