import Verif.Services.Params
import Verif.Chains.Initial
/-
Model of main and run (forkdetector.go) as a process: how it starts, how it ends, and with which status.

A process of the Go runtime that panics ends with status 2.  Panics of HTTP handlers are recovered and are not events of the program here.
-/

set_option autoImplicit false

namespace Verif.Services

open Verif
open Verif.Chains (ProtoBlock)
open Verif.Peers (Lib)
open Verif.KV (Fate)

/-- the machine that the process runs on, and library functions used for error texts -/
structure Host where
  /-- `unicode.ToUpper` -/
  upper : Char → Char
  /-- the text of an error up to the prefixes that main, run, newParameters, NewRegistry and NewLinkage put before it -/
  text : Err → List Char
  /-- `errors.Is(err, os.ErrInvalid)` -/
  invalid : Err → Bool
  /-- writing to the standard error works -/
  stderr : Bool
  /-- `logger.Sync` returns an error -/
  syncFails : Bool
  /-- the databases as `leveldb.OpenFile` returns them, peers/storage.go:55-61 and chains/storage.go:46-52 -/
  peersDB : Except Err Peers.DB
  blocksDB : Except Err Chains.DB
  /-- the fate of the write of the genesis block -/
  init : Fate
  /-- the fates of the writes of the seed peers -/
  seeds : Nat → Fate
  /-- the genesis block of a network, parameters.go:62 -/
  genesis : List Char → ProtoBlock

/-- what `flag.Parse` makes of the arguments, parameters.go:57: with `-h` the process ends with status 0, with bad arguments with status 2 -/
inductive Args where
  | help
  | bad
  | flags (f : Flags)

/-- the result of `run` when not all services were started -/
inductive Started where
  | failed (text : List Char)
  | panicked
  | up (s : Prog)

/-- `run` returns an error after the logger was made: the deferred function in forkdetector.go:42-46 may panic.  It looks at the error of
`run` and not at the error of `Sync`.  The databases that were opened before are closed; an error of that is only logged. -/
def Host.leave (h : Host) (e : Err) (before : String) : Started :=
  if h.syncFails && h.invalid e then .panicked else .failed (before.toList ++ h.text e)

/-- `run` up to the point when all services are started, forkdetector.go:35-96.  `LogInitialStats` only logs its errors (chains/linkage.go:231-258),
but it may panic.  The rest of the logging is left out. -/
def Opts.startup (o : Opts) (h : Host) (f : Flags) : Started :=
  match o.newParameters f with
  | .error .panic => .panicked
  | .error (.err e) => .failed ("invalid parameters: ".toList ++ h.text e)
  | .ok p =>
    match h.peersDB with
    | .error e => h.leave e "failed to create peers registry: failed to create peers registry: "
    | .ok pdb =>
      match h.blocksDB with
      | .error e => h.leave e "failed to initialize Linkage: "
      | .ok db =>
        match (Chains.NewLinkage h.init db (h.genesis f.network)).2 with
        | .error .panic => .panicked
        | .error (.err e) => h.leave e "failed to initialize Linkage: "
        | .ok lk =>
          match Chains.LogInitialStats lk.db with
          | .error _ => .panicked
          | .ok () =>
            if p.api = [] then h.leave (.other "empty address to bin") "failed to create API server: "
            else .up (Prog.start (o.config p) pdb h.seeds (p.seeds.map seedOf) lk (o.listens p))

/-- `capitalize`, forkdetector.go:112-116; an empty text panics -/
def Host.capitalize (h : Host) : List Char → Go (List Char)
  | [] => goPanic
  | c :: cs => .ok (h.upper c :: cs)

/-- the end of a process: its status and the line that `main` has written to the standard error -/
structure End where
  status : Nat
  line : Option (List Char)
deriving DecidableEq

/-- the process: all services were started, or it has ended -/
inductive Proc where
  | up (s : Prog)
  | ended (e : End)

/-- `main`, forkdetector.go:24-33, up to the point when all services are started -/
def Opts.main (o : Opts) (h : Host) : Args → Proc
  | .help => .ended ⟨0, none⟩
  | .bad => .ended ⟨2, none⟩
  | .flags f =>
    match o.startup h f with
    | .up s => .up s
    | .panicked => .ended ⟨2, none⟩
    | .failed t =>
      match h.capitalize t with
      | .error _ => .ended ⟨2, none⟩
      | .ok t' => if h.stderr then .ended ⟨1, some (t' ++ ['\n'])⟩ else .ended ⟨0, none⟩

/-- what happens to a process -/
inductive ProcEv where
  /-- an event of the program -/
  | prog (e : Ev)
  /-- `ListenAndServe` returns another error than `ErrServerClosed` -/
  | apiFails

/-- One event of the process; `none` when it cannot happen.  A panic of any goroutine ends the process.  `runServer`, api/api.go:99-106, ends
the process by `Fatalf` with status 1 and without any shutdown.  When `run` has returned nil, `main` ends the process with status 0. -/
def Proc.step (lib : Lib) : Proc → ProcEv → Option Proc
  | .ended _, _ => none
  | .up s, .apiFails => if s.apiUp then some (.ended ⟨1, none⟩) else none
  | .up s, .prog e =>
    match s.step lib e with
    | none => none
    | some (.error _) => some (.ended ⟨2, none⟩)
    | some (.ok s') => if s'.main = .exited then some (.ended ⟨0, none⟩) else some (.up s')

/-- the process after some events -/
inductive Proc.Runs (lib : Lib) (p : Proc) : List ProcEv → Proc → Prop where
  | nil : Proc.Runs lib p [] p
  | snoc {es : List ProcEv} {q r : Proc} (h : Proc.Runs lib p es q) (e : ProcEv) (he : q.step lib e = some r) :
      Proc.Runs lib p (es ++ [e]) r

end Verif.Services
