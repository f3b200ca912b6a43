import Verif.Services.Distributor
/-
Model of the whole program: forkdetector.go, respawn.go, listener.go, service.go,
the life cycles in api/api.go, distributor.go and loading/loader.go, and the
channels between the goroutines.

The goroutines are interleaved: one event is one case of a `select` loop up to
the point where the goroutine waits again.  The channels between distributor and
loader are unbuffered (distributor.go:45-46), so a send waits until the loader
takes the package, or for ever.
-/

set_option autoImplicit false

namespace Verif.Services

open Verif
open Verif.Chains (Addr Linkage)
open Verif.Peers (Conn Registry Lib AddrPort Config)
open Verif.Loading (Ctx Loader)
open Verif.KV (Fate)

/-- the goroutine of the distributor, distributor.go:84-100: at its `select`, waiting in a send, or
gone -/
inductive Dist where
  | ready
  | sending (p : Pkg)
  | exited
deriving DecidableEq

/-- the listener, listener.go: not needed (`EmptyService`), not yet listening, listening, gone
because `Listen` failed, or gone -/
inductive Lsn where
  | off
  | starting
  | listening
  | failed
  | exited
deriving DecidableEq

/-- the main goroutine, forkdetector.go:98-109: waiting for the signal, in one of the `Shutdown`
calls, or done -/
inductive Main where
  | waiting
  | api
  | listener
  | respawn
  | loader
  | distributor
  | exited
deriving DecidableEq

/-- the running program -/
structure Prog where
  /-- the loader, the store and the registry -/
  l : Loader
  dist : Dist
  /-- addresses that the connection manager got a version for -/
  joined : List Addr
  /-- addresses that were dialled, in order -/
  dialled : List AddrPort
  /-- the timer of the respawn service is armed -/
  armed : Bool
  /-- what the distributor did to connections -/
  out : List Out
  /-- packages that the distributor put, or tries to put, into the channels -/
  sent : List Pkg
  /-- packages that the loader took -/
  taken : List Pkg
  cancelled : Bool
  apiUp : Bool
  lsn : Lsn
  respawnUp : Bool
  loaderUp : Bool
  main : Main

/-- events of the program -/
inductive Ev where
  /-- the distributor gets a message that passed the filter -/
  | message (c : Ctx) (p : Sender) (m : Message)
  /-- the distributor gets the notice that a connection was made, `handleInfoMessage`, distributor.go:106-113 -/
  | connected (c : Ctx) (p : Sender)
  /-- the distributor gets the notice that a connection failed -/
  | broken (c : Ctx) (p : Sender)
  /-- the timer of the distributor -/
  | ping (c : Ctx)
  /-- the loader takes a package from a channel -/
  | take (c : Ctx)
  | distExit
  /-- the ticker of the loader -/
  | tick (c : Ctx)
  /-- the timer of the loader -/
  | timer (c : Ctx)
  | loaderExit
  /-- the timer of the respawn service; the read of the stored peers may fail -/
  | respawn (now : Int) (readFails : Bool)
  | respawnExit
  /-- `SuggestVersion` called by the connection manager for a connection it accepts or makes -/
  | suggest (f : Fate) (now : Int) (a : Addr)
  /-- `UnregisterPeer` called by a dialling goroutine when `Connect` returned an error -/
  | giveUp (f : Fate) (now : Int) (a : Addr)
  /-- `Listen` succeeds or fails, `run`, listener.go:62-69 -/
  | listen (ok : Bool)
  /-- the listener leaves its loop when `Accept` returns after the signal: because the network listener was closed,
  or because of a last connection -/
  | listenerExit (conn : Bool)
  | apiExit
  /-- SIGINT or SIGTERM -/
  | signal
  /-- the main goroutine goes on -/
  | main

/-- the distributor comes back from a handler -/
def Prog.handled (s : Prog) (r : Go Handled) : Go Prog := do
  let h ← r
  .ok { s with
    l := h.l, out := s.out ++ h.out, sent := s.sent ++ h.pkg.toList
    dist := match h.pkg with
      | none => .ready
      | some p => .sending p }

/-- `handleEvents` and `establishConnections`, respawn.go:53-89, when the timer fires.  After an error the timer is
not set again.  The dialling goroutines start here; what they do are the events `suggest` and `giveUp`. -/
def Prog.respawn (s : Prog) (now : Int) (readFails : Bool) : Prog :=
  if readFails then { s with armed := false }
  else
    let w := Peers.TakeAvailableAddresses now s.l.reg
    match w.2 with
    | .error _ => { s with l := { s.l with reg := w.1 }, armed := false }
    | .ok as => { s with l := { s.l with reg := w.1 }, dialled := s.dialled ++ as, armed := true }

/-- the loader handles a package, loading/loader.go:166-173 -/
def takePkg (c : Ctx) (l : Loader) : Pkg → Go Loader
  | .ids a ids => Loading.handleIDs c l a ids
  | .block a b => Loading.handleBlock c l a (some b)

/-- the main goroutine, forkdetector.go:98-109: each `Shutdown` waits for the goroutine of its
service (`Respawn.Shutdown`, respawn.go:46-51; `Loader.Shutdown`, loading/loader.go:119-125; `Distributor.Shutdown`,
distributor.go:67-74; without a listener there is the `EmptyService` of service.go:10-14).  `API.Shutdown` first closes the server (api/api.go:89-97).  `Listener.Shutdown` first closes the network
listener (listener.go:51-60), which is nil before `Listen` has succeeded; an error of that `Close` is left out. -/
def Prog.mainStep (s : Prog) : Option (Go Prog) :=
  match s.main with
  | .waiting => if s.cancelled then some (.ok { s with main := .api }) else none
  | .api =>
    if s.apiUp then none
    else match s.lsn with
      | .off => some (.ok { s with main := .respawn })
      | .starting => some goPanic
      | .failed => some goPanic
      | _ => some (.ok { s with main := .listener })
  | .listener => if s.lsn = .exited then some (.ok { s with main := .respawn }) else none
  | .respawn => if s.respawnUp then none else some (.ok { s with main := .loader })
  | .loader => if s.loaderUp then none else some (.ok { s with main := .distributor })
  | .distributor => if s.dist = .exited then some (.ok { s with main := .exited }) else none
  | .exited => none

/-- the network listener was closed -/
def Main.closed : Main → Bool
  | .waiting => false
  | .api => false
  | _ => true

/-- the goroutine's case can be chosen, or else the event cannot happen now -/
def guarded (b : Bool) (r : Go Prog) : Option (Go Prog) := if b then some r else none

/-- One event; `none` when it cannot happen.  Notices of new connections only come from
connections that the connection manager accepted or made (connection_manager.go:70-115). -/
def Prog.step (lib : Lib) (s : Prog) (e : Ev) : Option (Go Prog) :=
  if s.main = .exited then none
  else match e with
  | .message c p m => guarded (decide (s.dist = .ready)) (s.handled (receive lib c s.l p m))
  | .connected c p =>
    guarded (decide (s.dist = .ready) && decide (∀ a, a ∈ p.remote → a ∈ s.joined)) (s.handled (handleConnected lib c s.l p))
  | .broken c p => guarded (decide (s.dist = .ready)) (s.handled (handleInternalError c s.l p))
  | .ping c => guarded (decide (s.dist = .ready)) (s.handled (.ok (pingConnections c s.l)))
  | .take c =>
    match s.dist with
    | .sending p => guarded s.loaderUp (do
        let l' ← takePkg c s.l p
        .ok { s with l := l', dist := .ready, taken := s.taken ++ [p] })
    | _ => none
  | .distExit => guarded (s.cancelled && decide (s.dist = .ready)) (.ok { s with dist := .exited })
  | .tick c => guarded (s.loaderUp && s.l.ticking) (do let l' ← Loading.tick c s.l; .ok { s with l := l' })
  | .timer c => guarded s.loaderUp (do let l' ← Loading.sync lib c s.l; .ok { s with l := l' })
  | .loaderExit => guarded (s.cancelled && s.loaderUp) (.ok { s with loaderUp := false })
  | .respawn now readFails => guarded (s.respawnUp && s.armed) (.ok (s.respawn now readFails))
  | .respawnExit => guarded (s.cancelled && s.respawnUp) (.ok { s with respawnUp := false })
  | .suggest f now a =>
    let w := Peers.SuggestVersion f now s.l.reg a
    match w.2 with
    | .error .panic => some goPanic
    | .error (.err _) => some (.ok { s with l := { s.l with reg := w.1 } })
    | .ok _ => some (.ok { s with l := { s.l with reg := w.1 }, joined := a :: s.joined })
  | .giveUp f now a =>
    guarded (decide (a ∈ s.dialled.map (·.addr))) (
      let w := Peers.UnregisterPeer f now s.l.reg a
      match w.2 with
      | .error .panic => goPanic
      | _ => .ok { s with l := { s.l with reg := w.1 } })
  | .listen ok => guarded (decide (s.lsn = .starting)) (.ok { s with lsn := if ok then .listening else .failed })
  | .listenerExit conn => guarded (decide (s.lsn = .listening) && s.cancelled && (s.main.closed || conn)) (.ok { s with lsn := .exited })
  | .apiExit => guarded (s.apiUp && decide (s.main ≠ .waiting)) (.ok { s with apiUp := false })
  | .signal => some (.ok { s with cancelled := true })
  | .main => s.mainStep

/-- The program when all services have been started, forkdetector.go:54-96, by their `Run` methods (api/api.go:81-87, listener.go:43-49,
respawn.go:35-42, distributor.go:58-65, loading/loader.go:110-117): the registry is opened on an existing
database and the seed peers are added, the store exists.  `lsn` says whether a listener is
started (listener.go:24-41). -/
def Prog.start (cfg : Config) (pdb : Peers.DB) (fs : Nat → Fate) (seeds : List (Option AddrPort)) (lk : Linkage) (listener : Bool) :
    Prog :=
  { l := Loading.NewLoader (Peers.AppendAddresses fs (Peers.NewRegistry cfg pdb) seeds).1 lk,
    dist := .ready, joined := [], dialled := [], armed := true, out := [], sent := [], taken := [], cancelled := false, apiUp := true,
    lsn := if listener then .starting else .off, respawnUp := true, loaderUp := true, main := .waiting }

/-- `s'` is reached from `s` by some events -/
inductive Reaches (lib : Lib) (s : Prog) : Prog → Prop where
  | refl : Reaches lib s s
  | step {s' s'' : Prog} (h : Reaches lib s s') (e : Ev) (he : s'.step lib e = some (.ok s'')) : Reaches lib s s''

/-- A state of the running program.  The database of the registry is one that the program has written. -/
def Reached (lib : Lib) (s : Prog) : Prop :=
  ∃ cfg r fs seeds lk lsn, Peers.Reachable lib r ∧ Reaches lib (Prog.start cfg r.db fs seeds lk lsn) s

/-- the events `es`, one after the other -/
inductive Path (lib : Lib) (s : Prog) : List Ev → Prog → Prop where
  | nil : Path lib s [] s
  | snoc {es : List Ev} {s' s'' : Prog} (h : Path lib s es s') (e : Ev) (he : s'.step lib e = some (.ok s'')) :
      Path lib s (es ++ [e]) s''

/-- how many blocks the event may add to the store -/
def Prog.cost (s : Prog) : Ev → Nat
  | .message _ _ (.block _) => 1
  | .message _ _ (.pbBlock _) => 1
  | .message _ _ (.microBlockInv _) => 1
  | .take _ => match s.dist with
    | .sending (.block _ _) => s.l.obj.queue.length
    | _ => 0
  | .tick _ => s.l.obj.queue.length
  | _ => 0

/-- A state of the program when it was started on a store that it serves from; the store has room for `n` more blocks.
The room is the only condition on the events. -/
inductive Alive (lib : Lib) (g : Chains.ProtoBlock) : Nat → Prog → Prop where
  | start {n : Nat} {r : Registry} {lk : Linkage} (hr : Peers.Reachable lib r) (hs : Loading.Serving g n lk) (cfg : Config)
      (fs : Nat → Fate) (seeds : List (Option AddrPort)) (lsn : Bool) : Alive lib g n (Prog.start cfg r.db fs seeds lk lsn)
  | step {n : Nat} {s s' : Prog} (e : Ev) (h : Alive lib g (n + s.cost e) s) (hs : s.step lib e = some (.ok s')) : Alive lib g n s'

/-- the events by which the program goes down -/
def Ev.closing : Ev → Bool
  | .distExit => true
  | .loaderExit => true
  | .respawnExit => true
  | .listenerExit _ => true
  | .apiExit => true
  | .main => true
  | _ => false

/-- the last send of the distributor has nobody to take it -/
def Prog.Stuck (s : Prog) : Prop := s.loaderUp = false ∧ ∃ p, s.dist = .sending p

end Verif.Services
