import Verif.Prelude
/-
Model of the locking of chains/linkage.go: `sync.RWMutex` and the goroutines
that use it.

A goroutine is the list of the lock operations it still has to do.  `Lock` takes
two steps, as in the Go runtime: it first announces itself, which keeps later
`RLock` calls and other `Lock` calls waiting, and then waits until the readers
that are inside have left.  Where the runtime lets waiting readers in before the
next writer announces itself, the model allows any order, so it has all the
schedules of the runtime.  The work done inside a critical section is left out:
it does not use the lock and it ends (`LogInitialStats` apart, which is spelled
out).
-/

set_option autoImplicit false

namespace Verif.Services

/-- the operations of `sync.RWMutex` -/
inductive LockOp where
  | rlock
  | runlock
  | lock
  | unlock
deriving DecidableEq

/-- the methods of `Linkage` that use the mutex, chains/linkage.go -/
inductive Method where
  | putBlock
  | putMicroBlock
  | hasLeash
  | leash
  | leashScore
  | heads
  | activeHeads
  | lastIDs
  | hasBlock
  | block
  | moveLeash
  | leashes
  /-- with the number of active heads -/
  | logInitialStats (heads : Nat)
  | stats
  | lcb
  | forks
  | fork
  | forkGenerators
deriving DecidableEq

/-- The lock operations of a call: chains/linkage.go:72-74, 102-104, 132-134, 147-149, 163-165, 181-183, 189-191,
196-198, 203-205, 210-212, 217-219, 224-226, 231-233, 260-262, 280-282, 332-334, 339-341, 408-410.
`LogInitialStats` calls `Block` for every active head while it holds the lock (241-242). -/
def Method.ops : Method → List LockOp
  | .putBlock => [.lock, .unlock]
  | .putMicroBlock => [.lock, .unlock]
  | .hasLeash => [.rlock, .runlock]
  | .leash => [.rlock, .runlock]
  | .leashScore => [.rlock, .runlock]
  | .heads => [.rlock, .runlock]
  | .activeHeads => [.rlock, .runlock]
  | .lastIDs => [.rlock, .runlock]
  | .hasBlock => [.rlock, .runlock]
  | .block => [.rlock, .runlock]
  | .moveLeash => [.lock, .unlock]
  | .leashes => [.rlock, .runlock]
  | .logInitialStats n => .rlock :: ((List.replicate n [LockOp.rlock, .runlock]).flatten ++ [.runlock])
  | .stats => [.rlock, .runlock]
  | .lcb => [.rlock, .runlock]
  | .forks => [.rlock, .runlock]
  | .fork => [.rlock, .runlock]
  | .forkGenerators => [.rlock, .runlock]

/-- a goroutine: how many read locks it holds, whether it has announced a write lock or holds one,
and what it still has to do -/
structure Thread where
  reads : Nat
  announced : Bool
  writing : Bool
  todo : List LockOp
deriving DecidableEq

/-- a goroutine that is about to make calls -/
def Thread.start (calls : List Method) : Thread := ⟨0, false, false, calls.flatMap Method.ops⟩

/-- no writer is inside or waiting for the readers to leave -/
def NoWriter (ts : List Thread) : Prop := ∀ t, t ∈ ts → t.announced = false ∧ t.writing = false

/-- no reader is inside -/
def NoReader (ts : List Thread) : Prop := ∀ t, t ∈ ts → t.reads = 0

/-- one operation of one goroutine -/
inductive LockStep : List Thread → List Thread → Prop where
  | rlock (l1 l2 : List Thread) (t : Thread) (p : List LockOp) (h : t.todo = .rlock :: p)
      (free : NoWriter (l1 ++ t :: l2)) :
      LockStep (l1 ++ t :: l2) (l1 ++ { t with reads := t.reads + 1, todo := p } :: l2)
  | runlock (l1 l2 : List Thread) (t : Thread) (p : List LockOp) (n : Nat) (h : t.todo = .runlock :: p) (hr : t.reads = n + 1) :
      LockStep (l1 ++ t :: l2) (l1 ++ { t with reads := n, todo := p } :: l2)
  | announce (l1 l2 : List Thread) (t : Thread) (p : List LockOp) (h : t.todo = .lock :: p)
      (free : NoWriter (l1 ++ t :: l2)) :
      LockStep (l1 ++ t :: l2) (l1 ++ { t with announced := true } :: l2)
  | acquire (l1 l2 : List Thread) (t : Thread) (p : List LockOp) (h : t.todo = .lock :: p) (ha : t.announced = true)
      (free : NoReader (l1 ++ t :: l2)) :
      LockStep (l1 ++ t :: l2) (l1 ++ { t with announced := false, writing := true, todo := p } :: l2)
  | unlock (l1 l2 : List Thread) (t : Thread) (p : List LockOp) (h : t.todo = .unlock :: p) (hw : t.writing = true) :
      LockStep (l1 ++ t :: l2) (l1 ++ { t with writing := false, todo := p } :: l2)

/-- `n` operations -/
inductive LockRun : Nat → List Thread → List Thread → Prop where
  | nil (ts : List Thread) : LockRun 0 ts ts
  | snoc {n : Nat} {ts ts' ts'' : List Thread} (h : LockRun n ts ts') (s : LockStep ts' ts'') : LockRun (n + 1) ts ts''

end Verif.Services
