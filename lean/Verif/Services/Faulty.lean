import Verif.Services.Program
import Verif.Loading.FineReads
/-
The whole program, one call at a time, on disks that fail to read.

`Services/Program.lean` handles every event of every goroutine in one step, and its databases read well.  Here the loader
makes its calls one by one (`Loading/Fine.lean`), the other goroutines work in between, and at every call the disk may be
in another condition (`Chains/Reads.lean`, `Peers/Reads.lean`).  The handlers of the distributor, the dialling and the
connection manager make one call each on the store or the registry, so they stay single steps; they are written down once
more, with the functions that may fail to read.
-/

set_option autoImplicit false

namespace Verif.Services.Fine

open Verif
open Verif.Chains (Addr BytesN BlockID ProtoBlock MicroInv Linkage)
open Verif.Peers (Conn Registry Lib AddrPort Config)
open Verif.Loading (Ctx)
open Verif.Loading.Fine (World Shared Disk Other Input Answer Call)
open Verif.KV (Fate)

/-! ### the distributor -/

/-- What a handler does, as `Services.Handled`.  The call that it made on the store or the registry, if it may write, is noted
in `call`. -/
structure Handled where
  sh : Shared
  call : Option Other := none
  pkg : Option Pkg := none
  out : List Out := []

/-- an error is logged, a panic ends the program -/
def noPanic {α : Type} (r : Go α) (h : Handled) : Go Handled :=
  match r with
  | .error .panic => goPanic
  | _ => .ok h

/-- `handleScoreMessage`, distributor.go:164-177 -/
def handleScore (D : Disk) (c : Ctx) (s : Shared) (p : Sender) (score : Bytes) : Go Handled :=
  match p.remote with
  | none => .ok { sh := s }
  | some a =>
    let w := Peers.Rd.UpdatePeerScore D.peers (c.fates 0) s.reg a (setBytes score)
    noPanic w.2 { sh := { s with reg := w.1 }, call := some (.registry ⟨c.now, .updateScore (c.fates 0) a (setBytes score)⟩) }

/-- `handleBlock`, distributor.go:204-215, called by `handleBlockMessage` (distributor.go:179-189) and
`handleProtoBlockMessage` (distributor.go:191-202) -/
def handleBlock (D : Disk) (c : Ctx) (s : Shared) (p : Sender) (b : Option ProtoBlock) : Go Handled :=
  match b, p.remote with
  | none, _ => .ok { sh := s }
  | some _, none => .ok { sh := s }
  | some b, some a =>
    let w := Chains.Rd.PutBlock D.chains (c.fates 0) (c.fates 1) s.link.db b a
    let h : Handled := { sh := { s with link := { s.link with db := w.1 } }, call := some (.putBlock b a (c.fates 0) (c.fates 1)) }
    match w.2 with
    | .error .panic => goPanic
    | .error (.err .parentNotFound) => .ok { h with pkg := some (.block a b) }
    | .error (.err _) => .ok h
    | .ok () => .ok { h with pkg := some (.block a b) }

/-- `handlePeersMessage`, distributor.go:217-232 -/
def handlePeers (D : Disk) (c : Ctx) (s : Shared) (ps : List (Option AddrPort)) : Go Handled :=
  let l := (ps.filterMap id).map some
  let w := Peers.Rd.AppendAddresses D.peers c.fates s.reg l
  noPanic w.2 { sh := { s with reg := w.1 }, call := some (.registry ⟨c.now, .append c.fates l⟩) }

/-- `handleGetPeersMessage`, distributor.go:234-253 -/
def handleGetPeers (D : Disk) (lib : Lib) (c : Ctx) (s : Shared) (p : Sender) : Go Handled :=
  match Peers.Rd.FriendlyPeers D.peers lib c.env s.reg with
  | .error .panic => goPanic
  | .error (.err _) => .ok { sh := s }
  | .ok fs => do
    let infos ← Peers.tcpAddrs fs
    .ok { sh := s, out := [.peersTo p.conn infos] }

/-- `handleSignaturesMessage`, distributor.go:255-267 -/
def handleSignatures (s : Shared) (p : Sender) (sigs : List (BytesN 64)) : Go Handled :=
  match p.remote with
  | none => .ok { sh := s }
  | some a => .ok { sh := s, pkg := some (.ids a (sigs.map idFromSignature)) }

/-- `handleBlockIDsMessage`, distributor.go:269-282 -/
def handleBlockIDs (s : Shared) (p : Sender) (ids : List BlockID) : Go Handled :=
  match p.remote with
  | none => .ok { sh := s }
  | some a => if ids = [] then .ok { sh := s } else .ok { sh := s, pkg := some (.ids a ids) }

/-- `handleMicroBlockInvMessage`, distributor.go:284-301 -/
def handleMicroBlockInv (D : Disk) (c : Ctx) (s : Shared) (p : Sender) (inv : Option MicroInv) : Go Handled :=
  match p.remote, inv with
  | none, _ => .ok { sh := s }
  | some _, none => .ok { sh := s }
  | some a, some inv =>
    let w := Chains.Rd.PutMicroBlock D.chains (c.fates 0) (c.fates 1) s.link.db inv a
    noPanic w.2 { sh := { s with link := { s.link with db := w.1 } }, call := some (.putMicro inv a (c.fates 0) (c.fates 1)) }

/-- `handleMessage`, distributor.go:143-162 -/
def handleMessage (D : Disk) (lib : Lib) (c : Ctx) (s : Shared) (p : Sender) (m : Message) : Go Handled :=
  match m with
  | .getPeers => handleGetPeers D lib c s p
  | .peers ps => handlePeers D c s ps
  | .signatures sigs => handleSignatures s p sigs
  | .block b => handleBlock D c s p b
  | .score sc => handleScore D c s p sc
  | .microBlockInv inv => handleMicroBlockInv D c s p inv
  | .pbBlock b => handleBlock D c s p b
  | .blockIds ids => handleBlockIDs s p ids
  | _ => .ok { sh := s }

/-- a message arrives: gowaves asks `skip` (connection_manager.go:117-122) before it decodes the message and hands it to the
distributor -/
def receive (D : Disk) (lib : Lib) (c : Ctx) (s : Shared) (p : Sender) (m : Message) : Go Handled :=
  if skip m.kind then .ok { sh := s } else handleMessage D lib c s p m

/-- `handleConnected`, distributor.go:115-125.  `RegisterPeer` may close the connection. -/
def handleConnected (D : Disk) (lib : Lib) (c : Ctx) (s : Shared) (p : Sender) : Go Handled :=
  match p.remote with
  | none => .ok { sh := s }
  | some a =>
    let w := Peers.Rd.RegisterPeer D.peers lib (c.fates 0) c.now s.reg a p.conn p.conn.handshake
    noPanic w.2.2 { sh := { s with reg := w.1 }, call := some (.registry ⟨c.now, .register (c.fates 0) a p.conn p.conn.handshake⟩),
                    out := if w.2.1 then [.close p.conn] else [] }

/-- `handleInternalError`, distributor.go:127-141 -/
def handleInternalError (D : Disk) (c : Ctx) (s : Shared) (p : Sender) : Go Handled :=
  match p.remote with
  | none => .ok { sh := s }
  | some a =>
    let w := Peers.Rd.UnregisterPeer D.peers (c.fates 0) c.now s.reg a
    noPanic w.2 { sh := { s with reg := w.1 }, call := some (.registry ⟨c.now, .unregister (c.fates 0) a⟩), out := [.close p.conn] }

/-- `pingConnections`, distributor.go:102-104; no reads of the database -/
def pingConnections (c : Ctx) (s : Shared) : Handled :=
  { sh := s, out := (Peers.Broadcast c.env s.reg).map .ping }

/-! ### the program -/

/-- The running program, as `Services.Prog`; the loader, the store and the registry are in `world`. -/
structure Sys where
  world : World
  dist : Dist
  joined : List Addr
  dialled : List AddrPort
  armed : Bool
  out : List Out
  sent : List Pkg
  taken : List Pkg
  cancelled : Bool
  apiUp : Bool
  lsn : Lsn
  respawnUp : Bool
  loaderUp : Bool
  main : Main

/-- the program of `Services/Program.lean`; while the loader handles an event, with the loader as it was before the event -/
def Sys.shell (s : Sys) : Prog :=
  { l := s.world.own.on s.world.sh, dist := s.dist, joined := s.joined, dialled := s.dialled, armed := s.armed, out := s.out,
    sent := s.sent, taken := s.taken, cancelled := s.cancelled, apiUp := s.apiUp, lsn := s.lsn, respawnUp := s.respawnUp,
    loaderUp := s.loaderUp, main := s.main }

/-- The events of `Services.Ev`, and the next step of the loader while it handles an event.  `D` is the condition of the databases
during the event. -/
inductive Ev where
  | message (D : Disk) (c : Ctx) (p : Sender) (m : Message)
  | connected (D : Disk) (c : Ctx) (p : Sender)
  | broken (D : Disk) (c : Ctx) (p : Sender)
  | ping (c : Ctx)
  | take (c : Ctx)
  | distExit
  | tick (c : Ctx)
  | timer (c : Ctx)
  /-- the loader makes its next call, or it has handled the event and waits again -/
  | go (D : Disk)
  | loaderExit
  /-- `failed`: the iterator could not be opened -/
  | respawn (D : Disk) (now : Int) (failed : Bool)
  | respawnExit
  | suggest (D : Disk) (f : Fate) (now : Int) (a : Addr)
  | giveUp (D : Disk) (f : Fate) (now : Int) (a : Addr)
  | listen (ok : Bool)
  | listenerExit (conn : Bool)
  | apiExit
  | signal
  | main

/-- a call of a goroutine other than the loader, and what it made of the store and the registry -/
def _root_.Verif.Loading.Fine.World.called (w : World) (sh : Shared) (x : Option Other) : World :=
  { w with sh := sh, log := w.log ++ ((x.bind Other.op).map (fun o => (false, o))).toList }

/-- the distributor comes back from a handler -/
def Sys.handled (s : Sys) (r : Go Handled) : Except Fault Sys :=
  match r with
  | .error e => .error e
  | .ok h => .ok { s with
    world := s.world.called h.sh h.call, out := s.out ++ h.out, sent := s.sent ++ h.pkg.toList
    dist := match h.pkg with
      | none => .ready
      | some p => .sending p }

/-- the loader begins to handle an event (loading/loader.go:160-183) -/
def _root_.Verif.Loading.Fine.World.receive (w : World) (c : Ctx) (i : Input) : World :=
  { w with todo := some (Loading.Fine.handle c w.own i), ins := w.ins ++ [(c, i)] }

/-- what the loader gets with a package (loading/loader.go:166-173) -/
def _root_.Verif.Services.Pkg.input : Pkg → Input
  | .ids a ids => .ids a ids
  | .block a b => .block a (some b)

/-- The loader goes on: it makes its next call, or it has handled the event.  A panic ends the program. -/
def Sys.go (lib : Lib) (s : Sys) (D : Disk) : Option (Except Fault Sys) :=
  match s.world.todo with
  | none => none
  | some (.ret (.error e)) => some (.error e)
  | some (.ret (.ok o)) => some (.ok { s with world := { s.world with own := o, todo := none } })
  | some (.call c k) =>
    match k (c.resRd D lib s.world.sh) with
    | .ret (.error e) => some (.error e)
    | p => some (.ok { s with world :=
        ⟨s.world.own, some p, c.effectRd D s.world.sh, s.world.ins, s.world.log ++ (c.op.map (fun o => (true, o))).toList⟩ })

/-- `handleEvents` and `establishConnections`, respawn.go:53-89, as `Prog.respawn` -/
def Sys.respawn (s : Sys) (D : Disk) (now : Int) (failed : Bool) : Sys :=
  if failed then { s with armed := false }
  else
    let w := Peers.Rd.TakeAvailableAddresses D.peers now s.world.sh.reg
    let world := s.world.called { s.world.sh with reg := w.1 } (some (.registry ⟨now, .take⟩))
    match w.2 with
    | .error _ => { s with world := world, armed := false }
    | .ok as => { s with world := world, dialled := s.dialled ++ as, armed := true }

/-- the goroutine's case can be chosen, or else the event cannot happen now -/
def guarded (b : Bool) (r : Except Fault Sys) : Option (Except Fault Sys) := if b then some r else none

/-- the loader is at its `select` (loading/loader.go:160-183) -/
def Sys.waits (s : Sys) : Bool := s.loaderUp && s.world.todo.isNone

/-- One event, as `Prog.step`; `none` when it cannot happen. -/
def Sys.step (lib : Lib) (s : Sys) (e : Ev) : Option (Except Fault Sys) :=
  if s.main = .exited then none
  else match e with
  | .message D c p m => guarded (decide (s.dist = .ready)) (s.handled (receive D lib c s.world.sh p m))
  | .connected D c p =>
    guarded (decide (s.dist = .ready) && decide (∀ a, a ∈ p.remote → a ∈ s.joined)) (s.handled (handleConnected D lib c s.world.sh p))
  | .broken D c p => guarded (decide (s.dist = .ready)) (s.handled (handleInternalError D c s.world.sh p))
  | .ping c => guarded (decide (s.dist = .ready)) (s.handled (.ok (pingConnections c s.world.sh)))
  | .take c =>
    match s.dist with
    | .sending p => guarded s.waits (.ok { s with world := s.world.receive c (Pkg.input p), dist := .ready, taken := s.taken ++ [p] })
    | _ => none
  | .distExit => guarded (s.cancelled && decide (s.dist = .ready)) (.ok { s with dist := .exited })
  | .tick c => guarded (s.waits && s.world.own.ticking) (.ok { s with world := s.world.receive c .tick })
  | .timer c => guarded s.waits (.ok { s with world := s.world.receive c .timer })
  | .go D => s.go lib D
  | .loaderExit => guarded (s.cancelled && s.waits) (.ok { s with loaderUp := false })
  | .respawn D now failed => guarded (s.respawnUp && s.armed) (.ok (s.respawn D now failed))
  | .respawnExit => guarded (s.cancelled && s.respawnUp) (.ok { s with respawnUp := false })
  | .suggest D f now a =>
    let w := Peers.Rd.SuggestVersion D.peers f now s.world.sh.reg a
    let world := s.world.called { s.world.sh with reg := w.1 } (some (.registry ⟨now, .suggest f a⟩))
    match w.2 with
    | .error .panic => some (.error .panic)
    | .error (.err _) => some (.ok { s with world := world })
    | .ok _ => some (.ok { s with world := world, joined := a :: s.joined })
  | .giveUp D f now a =>
    guarded (decide (a ∈ s.dialled.map (·.addr))) (
      let w := Peers.Rd.UnregisterPeer D.peers f now s.world.sh.reg a
      match w.2 with
      | .error .panic => .error .panic
      | _ => .ok { s with world := s.world.called { s.world.sh with reg := w.1 } (some (.registry ⟨now, .unregister f a⟩)) })
  | .listen ok => guarded (decide (s.lsn = .starting)) (.ok { s with lsn := if ok then .listening else .failed })
  | .listenerExit conn => guarded (decide (s.lsn = .listening) && s.cancelled && (s.main.closed || conn)) (.ok { s with lsn := .exited })
  | .apiExit => guarded (s.apiUp && decide (s.main ≠ .waiting)) (.ok { s with apiUp := false })
  | .signal => some (.ok { s with cancelled := true })
  | .main =>
    match s.shell.mainStep with
    | none => none
    | some (.error e) => some (.error e)
    | some (.ok q) => some (.ok { s with main := q.main })

/-- the program when all services have been started, forkdetector.go:54-96, as `Prog.start` -/
def Sys.start (D : Disk) (cfg : Config) (pdb : Peers.DB) (fs : Nat → Fate) (seeds : List (Option AddrPort)) (lk : Linkage)
    (listener : Bool) : Sys :=
  { world := World.start (Peers.Rd.AppendAddresses D.peers fs (Peers.NewRegistry cfg pdb) seeds).1 lk,
    dist := .ready, joined := [], dialled := [], armed := true, out := [], sent := [], taken := [], cancelled := false, apiUp := true,
    lsn := if listener then .starting else .off, respawnUp := true, loaderUp := true, main := .waiting }

/-- the answer that the loader gets in an event -/
def Sys.answer (lib : Lib) (s : Sys) : Ev → List Answer
  | .go D =>
    match s.world.todo with
    | some (.call c _) => [⟨c, c.resRd D lib s.world.sh⟩]
    | _ => []
  | _ => []

/-- the events `es`, one after the other; `tr` is what the loader is answered -/
inductive Path (lib : Lib) (s : Sys) : List Ev → List Answer → Sys → Prop where
  | nil : Path lib s [] [] s
  | snoc {es : List Ev} {tr : List Answer} {s' s'' : Sys} (h : Path lib s es tr s') (e : Ev) (he : s'.step lib e = some (.ok s'')) :
      Path lib s (es ++ [e]) (tr ++ s'.answer lib e) s''

end Verif.Services.Fine
