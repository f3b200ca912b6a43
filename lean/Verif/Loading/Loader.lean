import Verif.Loading.Queue
import Verif.Peers.Registry
/-
Model of loading/peer_loader.go and loading/loader.go.

The peer loader is driven by a state machine of the package qmuntal/stateless
in its default, queued, firing mode; the model spells out what that mode does
(`enqueue`, `execute`, `drain`, `fire`).

The loader runs in one goroutine; other goroutines use the same registry and
the same store.  One event of the loader is one step of the model: the calls
of other goroutines happen between events.  All readings of the clock during
one event give the same time.  Logging is left out.
-/

set_option autoImplicit false

namespace Verif.Loading

open Verif
open Verif.Chains (Addr BlockID ProtoBlock Linkage Env PutBlock MoveLeash HasBlock LeashOf LeashScore LastIDs LCB)
open Verif.Peers (Peer Conn Version Registry Lib second)
open Verif.KV (Fate)

/-- loading/state.go:4-11 -/
inductive State where
  | idle
  | waitingForIDs
  | waitingForBlocks
  | done
deriving DecidableEq

/-- loading/event.go:4-14, with the arguments of the triggers -/
inductive Trigger where
  | start
  | restart
  | ids (l : List BlockID)
  | block (b : Option ProtoBlock)
  | tick (t : Int)
  | timeout
  | queueReady
deriving DecidableEq

/-- messages that the loader sends, peers/peer.go:62-81.  `getSignatures` carries the identifiers
whose `Signature()` is sent. -/
inductive Msg where
  | getSignatures (ids : List BlockID)
  | getBlockIds (ids : List BlockID)
  | getBlock (id : BlockID)
deriving DecidableEq

/-- a message handed to `SendMessage` of a connection, and when -/
structure Sent where
  time : Int
  to : Conn
  msg : Msg
deriving DecidableEq

/-- `peerLoader`, loading/peer_loader.go:22-31; `state` and `triggers` belong to the state
machine: its current state and its queue of triggers -/
structure PeerLoader where
  peer : Peer
  state : State
  timestamp : Int
  queue : List Item
  triggers : List Trigger
deriving DecidableEq

/-- `time.Time{}` in nanoseconds since the Unix epoch -/
def zeroTime : Int := Peers.zeroTime * second

/-- `newPeerLoader`, loading/peer_loader.go:33-50 -/
def newPeerLoader (p : Peer) : PeerLoader :=
  { peer := p, state := .idle, timestamp := zeroTime, queue := [], triggers := [] }

/-- `failureCounter`, loading/loader.go:48-50; the nil map is the empty list -/
abbrev FailureCounter := List (Addr × Nat)

/-- `count`, loading/loader.go:62-70 -/
def count : FailureCounter → Addr → Nat
  | [], _ => 0
  | (a, n) :: m, a' => if a = a' then n else count m a'

/-- `m[addr] = n` -/
def setCount (m : FailureCounter) (a : Addr) (n : Nat) : FailureCounter :=
  (a, n) :: m.filter (fun x => decide (x.1 ≠ a))

/-- `inc`, loading/loader.go:52-60 -/
def inc (m : FailureCounter) (a : Addr) : FailureCounter := setCount m a (count m a + 1)

/-- `reset`, loading/loader.go:72-77 -/
def reset (m : FailureCounter) (a : Addr) : FailureCounter := setCount m a 0

/-- `Loader`, loading/loader.go:79-95, with the store and the registry it uses, and the messages
sent so far.  `l.pl` is `nil` when `active` is false, and points to `obj` otherwise; while the
state machine of `obj` is firing, `l.pl` may become `nil`. -/
structure Loader where
  active : Bool
  obj : PeerLoader
  prevDiff : Option Int
  fc : FailureCounter
  link : Linkage
  reg : Registry
  out : List Sent
  /-- the ticker is armed -/
  ticking : Bool

/-- what one event gets from outside: the order of map iterations and sorting, the clock, what
happens to the writes, and the random number -/
structure Ctx where
  env : Env
  now : Int
  /-- fates of the writes; a call of `PutBlock` in round `i` of a loop uses `2 * i` and `2 * i + 1` -/
  fates : Nat → Fate
  /-- `rand2.IntN(n)` is `rand n % n` -/
  rand : Nat → Nat

/-- the peer that is synchronised -/
def Loader.peerID (l : Loader) : Addr := l.obj.peer.addr

/-- `pl.sm.Fire(trigger)` called by an action of the state machine: the machine is firing, so
the trigger is put into the queue and the call returns nil. -/
def enqueue (l : Loader) (t : Trigger) : Loader :=
  { l with obj := { l.obj with triggers := l.obj.triggers ++ [t] } }

/-- `if err := r; err != nil { return err }; f()` -/
def andThen (r : Loader × Go Unit) (f : Loader → Loader × Go Unit) : Loader × Go Unit :=
  match r.2 with
  | .error e => (r.1, .error e)
  | .ok () => f r.1

/-- `idsBatchSize`, loading/peer_loader.go:18 -/
def idsBatchSize : Int := 100

/-- `timeoutDuration`, loading/peer_loader.go:19 -/
def timeoutDuration : Int := 30 * second

/-- `restartThreshold`, loading/loader.go:30 -/
def restartThreshold : Nat := 10

/-! ### requests -/

/-- `proto.NewVersion(1, 2, 0)`, peers/peer.go:63 -/
def protobufVersion : Version := ⟨1, 2, 0⟩

/-- `Peer.RequestBlockIDs`, peers/peer.go:62-77.  Panics when there is no connection, and when
the list is empty (the log arguments index it). -/
def requestBlockIDs (c : Ctx) (l : Loader) (ids : List BlockID) : Loader × Go Unit :=
  match l.obj.peer.conn with
  | none => (l, goPanic)
  | some cn =>
    if ids = [] then (l, goPanic)
    else if cn.handshake.version.lt protobufVersion then
      ({ l with out := l.out ++ [⟨c.now, cn, .getSignatures ids⟩] }, .ok ())
    else ({ l with out := l.out ++ [⟨c.now, cn, .getBlockIds ids⟩] }, .ok ())

/-- `Peer.RequestBlock`, peers/peer.go:79-81, for each id of the list in order,
loading/peer_loader.go:213-215 -/
def requestBlockEach (c : Ctx) (l : Loader) : List BlockID → Loader × Go Unit
  | [] => (l, .ok ())
  | id :: ids =>
    match l.obj.peer.conn with
    | none => (l, goPanic)
    | some cn => requestBlockEach c { l with out := l.out ++ [⟨c.now, cn, .getBlock id⟩] } ids

/-! ### `OK` and `Fail` -/

/-- `isLagging`, loading/loader.go:285-292 -/
def isLagging (prevDiff : Option Int) (peerScore leashScore : Nat) : Int × Bool :=
  let diff : Int := (peerScore : Int) - leashScore
  match prevDiff with
  | none => (diff, decide (peerScore > leashScore))
  | some d => (diff, decide (peerScore > leashScore) && decide (d ≠ diff))

/-- `resetLoadingPeer`, loading/loader.go:294-297 -/
def resetLoadingPeer (l : Loader) : Loader := { l with active := false, prevDiff := none }

/-- `OK`, loading/loader.go:127-150.  It is called by an action of the state machine, so the
`continueSync` in line 144 only enqueues the start trigger (loading/loader.go:233-238).
Subtracting from a nil score panics. -/
def OK (l : Loader) : Loader × Go Unit :=
  if l.active ∧ l.obj.state = .idle then
    let l := { l with fc := reset l.fc l.peerID }
    match Peers.PeerOf l.reg l.peerID with
    | .error .panic => (l, goPanic)
    | .error (.err _) => (l, .ok ())
    | .ok p =>
      match LeashScore l.link l.peerID with
      | .error .panic => (l, goPanic)
      | .error (.err _) => (l, .ok ())
      | .ok score =>
        match p.score with
        | none => (l, goPanic)
        | some ps =>
          let r := isLagging l.prevDiff ps score
          if r.2 then (enqueue { l with prevDiff := some r.1, ticking := true } .start, .ok ())
          else (resetLoadingPeer l, .ok ())
  else (l, .ok ())

/-- `Fail`, loading/loader.go:152-158 -/
def Fail (l : Loader) : Loader :=
  if l.active ∧ l.obj.state = .done then { l with fc := inc l.fc l.peerID, active := false } else l

/-! ### actions of the state machine -/

/-- `requestIDs`, loading/peer_loader.go:152-164 -/
def requestIDs (c : Ctx) (l : Loader) : Loader × Go Unit :=
  match LeashOf l.link l.peerID with
  | .error e => (l, .error e)
  | .ok leash =>
    match LastIDs l.link.db leash idsBatchSize with
    | .error e => (l, .error e)
    | .ok lastIDs =>
      andThen (requestBlockIDs c l lastIDs) (fun l' => ({ l' with obj := { l'.obj with timestamp := c.now } }, .ok ()))

/-- `requestIDsFromLCA`, loading/peer_loader.go:166-178 -/
def requestIDsFromLCA (c : Ctx) (l : Loader) : Loader × Go Unit :=
  match LCB c.env l.link l.peerID with
  | .error e => (l, .error e)
  | .ok lca =>
    match LastIDs l.link.db lca idsBatchSize with
    | .error e => (l, .error e)
    | .ok lastIDs =>
      andThen (requestBlockIDs c l lastIDs) (fun l' => ({ l' with obj := { l'.obj with timestamp := c.now } }, .ok ()))

/-- the loop of `requestBlocks`, loading/peer_loader.go:186-206, from round `i` on; returns the
tail to request -/
def requestLoop (c : Ctx) (peer : Addr) : (i : Nat) → Linkage → List BlockID → Linkage × Go (List BlockID)
  | _, lk, [] => (lk, .ok [])
  | i, lk, id :: ids =>
    match HasBlock lk.db id with
    | .error e => (lk, .error e)
    | .ok false => (lk, .ok (id :: ids))
    | .ok true =>
      match LeashOf lk peer with
      | .error e => (lk, .error e)
      | .ok leash =>
        if id ≠ leash then
          let w := MoveLeash (c.fates i) lk.db id peer
          match w.2 with
          | .error e => ({ lk with db := w.1 }, .error e)
          | .ok () => requestLoop c peer (i + 1) { lk with db := w.1 } ids
        else requestLoop c peer (i + 1) lk ids

/-- `requestBlocks`, loading/peer_loader.go:180-218 -/
def requestBlocks (c : Ctx) (l : Loader) (ids : List BlockID) : Loader × Go Unit :=
  match requestLoop c l.peerID 0 l.link ids with
  | (lk, .error e) => ({ l with link := lk }, .error e)
  | (lk, .ok []) => (enqueue { l with link := lk } .queueReady, .ok ())
  | (lk, .ok (id :: req)) =>
    andThen
      (requestBlockEach c { l with link := lk, obj := { l.obj with queue := newQueue (id :: req) } } (id :: req))
      (fun l' => ({ l' with obj := { l'.obj with timestamp := c.now } }, .ok ()))

/-- the loop of `appendBlock`, loading/peer_loader.go:227-232, from round `i` on.  All items are
filled there; a nil block would make `PutBlock` panic. -/
def applyAll (c : Ctx) (peer : Addr) : (i : Nat) → Linkage → List Item → Linkage × Go Unit
  | _, lk, [] => (lk, .ok ())
  | i, lk, it :: q =>
    match it.received with
    | none => (lk, goPanic)
    | some b =>
      let w := PutBlock (c.fates (2 * i)) (c.fates (2 * i + 1)) lk.db b peer
      match w.2 with
      | .error e => ({ lk with db := w.1 }, .error e)
      | .ok () => applyAll c peer (i + 1) { lk with db := w.1 } q

/-- `appendBlock`, loading/peer_loader.go:220-237 -/
def appendBlock (c : Ctx) (l : Loader) (b : Option ProtoBlock) : Loader × Go Unit :=
  let l := { l with obj := { l.obj with queue := putOpt l.obj.queue b } }
  if ready l.obj.queue then
    match applyAll c l.peerID 0 l.link l.obj.queue with
    | (lk, .error e) => ({ l with link := lk }, .error e)
    | (lk, .ok ()) => (enqueue { l with link := lk } .queueReady, .ok ())
  else (l, .ok ())

/-- the loop of `handleFailure`, loading/peer_loader.go:241-249, from round `i` on -/
def applyPrefix (c : Ctx) (peer : Addr) : (i : Nat) → Linkage → List Item → Linkage × Go Unit
  | _, lk, [] => (lk, .ok ())
  | i, lk, it :: q =>
    match it.received with
    | none => (lk, .ok ())
    | some b =>
      if b.id = it.requested then
        let w := PutBlock (c.fates (2 * i)) (c.fates (2 * i + 1)) lk.db b peer
        match w.2 with
        | .error e => ({ lk with db := w.1 }, .error e)
        | .ok () => applyPrefix c peer (i + 1) { lk with db := w.1 } q
      else (lk, .ok ())

/-- `handleFailure`, loading/peer_loader.go:239-252 -/
def handleFailure (c : Ctx) (l : Loader) : Loader × Go Unit :=
  match applyPrefix c l.peerID 0 l.link l.obj.queue with
  | (lk, .error e) => ({ l with link := lk }, .error e)
  | (lk, .ok ()) => (Fail { l with link := lk }, .ok ())

/-- `onTick`, loading/peer_loader.go:140-150 -/
def onTick (l : Loader) (t : Int) : Loader × Go Unit :=
  if t - l.obj.timestamp > timeoutDuration then (enqueue l .timeout, .ok ()) else (l, .ok ())

/-! ### the state machine -/

/-- what a state does with a trigger -/
inductive Handler where
  | ignored
  | goto (s : State)
  | internal
deriving DecidableEq

/-- configuration of the state machine, loading/peer_loader.go:52-98; `none` is a trigger that the
state does not mention -/
def handler : State → Trigger → Option Handler
  | .idle, .start => some (.goto .waitingForIDs)
  | .idle, .restart => some (.goto .waitingForIDs)
  | .idle, .ids _ => some .ignored
  | .idle, .block _ => some .ignored
  | .idle, .tick _ => some .ignored
  | .idle, .timeout => some .ignored
  | .idle, .queueReady => some .ignored
  | .waitingForIDs, .ids _ => some (.goto .waitingForBlocks)
  | .waitingForIDs, .tick _ => some .internal
  | .waitingForIDs, .timeout => some (.goto .done)
  | .waitingForIDs, .start => some .ignored
  | .waitingForIDs, .restart => some .ignored
  | .waitingForIDs, .block _ => some .ignored
  | .waitingForIDs, .queueReady => some .ignored
  | .waitingForBlocks, .block _ => some .internal
  | .waitingForBlocks, .tick _ => some .internal
  | .waitingForBlocks, .timeout => some (.goto .done)
  | .waitingForBlocks, .queueReady => some (.goto .idle)
  | .waitingForBlocks, .start => some .ignored
  | .waitingForBlocks, .restart => some .ignored
  | .waitingForBlocks, .ids _ => some .ignored
  | .done, .start => some .ignored
  | .done, .restart => some .ignored
  | .done, .ids _ => some .ignored
  | .done, .block _ => some .ignored
  | .done, .tick _ => some .ignored
  | .done, .timeout => some .ignored
  | .done, .queueReady => none

/-- entry actions, loading/peer_loader.go:54, 66-67, 79, 91; `reportOK`, loading/peer_loader.go:254-257 -/
def onEntry (c : Ctx) (l : Loader) (dest : State) (t : Trigger) : Loader × Go Unit :=
  match dest, t with
  | .idle, .queueReady => OK l
  | .waitingForIDs, .start => requestIDs c l
  | .waitingForIDs, .restart => requestIDsFromLCA c l
  | .waitingForBlocks, .ids ids => requestBlocks c l ids
  | .done, _ => handleFailure c l
  | _, _ => (l, .ok ())

/-- internal transitions, loading/peer_loader.go:69, 80-81 -/
def onInternal (c : Ctx) (l : Loader) (t : Trigger) : Loader × Go Unit :=
  match t with
  | .block b => appendBlock c l b
  | .tick tm => onTick l tm
  | _ => (l, .ok ())

/-- stateless: one trigger.  The state is changed before the entry actions run and is not
changed back when an action returns an error. -/
def execute (c : Ctx) (l : Loader) (t : Trigger) : Loader × Go Unit :=
  match handler l.obj.state t with
  | none => (l, fail (.other "no valid leaving transitions"))
  | some .ignored => (l, .ok ())
  | some (.goto s) => onEntry c { l with obj := { l.obj with state := s } } s t
  | some .internal => onInternal c l t

/-- stateless: the loop of `Fire` in queued mode.  An error ends the loop; what is left in the
queue stays there.  The number of rounds is limited here; `Loading.Lemmas` shows that three are
always enough to empty the queue. -/
def drain (c : Ctx) : Nat → Loader → Loader × Go Unit
  | 0, l => (l, .ok ())
  | n + 1, l =>
    match l.obj.triggers with
    | [] => (l, .ok ())
    | t :: ts =>
      andThen (execute c { l with obj := { l.obj with triggers := ts } } t) (drain c n)

/-- stateless: `sm.Fire(trigger)` while the machine is not firing; `start`, `restart`,
`processIDs`, `processBlock`, `processTick` of loading/peer_loader.go:100-138 are this call with
the error wrapped. -/
def fire (c : Ctx) (l : Loader) (t : Trigger) : Loader × Go Unit := drain c 3 (enqueue l t)

/-! ### the loader -/

/-- an error is logged, a panic ends the program -/
def logged (r : Loader × Go Unit) : Go Loader :=
  match r.2 with
  | .error .panic => goPanic
  | _ => .ok r.1

/-- `continueSync`, loading/loader.go:233-238, called by `sync` -/
def continueSync (c : Ctx) (l : Loader) : Go Loader :=
  if l.active then logged (fire c { l with ticking := true } .start) else goPanic

/-- `restartSync`, loading/loader.go:240-247 -/
def restartSync (c : Ctx) (l : Loader) : Go Loader :=
  logged (fire c { l with ticking := true, fc := reset l.fc l.peerID } .restart)

/-- the test of the loop in `sync`, loading/loader.go:202-217; `LeashScore` does not panic
(`Loading.Store`) -/
def lagging (lk : Linkage) (p : Peer) : Bool :=
  match p.score with
  | none => false
  | some s =>
    match LeashScore lk p.addr with
    | .error _ => false
    | .ok score => decide (s > score)

/-- `sync`, loading/loader.go:185-231 -/
def sync (lib : Lib) (c : Ctx) (l : Loader) : Go Loader :=
  if l.active then .ok l
  else match Peers.Connections lib c.env l.reg with
    | .error .panic => goPanic
    | .error (.err _) => .ok l
    | .ok connections =>
      let lag := connections.filter (lagging l.link)
      if lag = [] then .ok l
      else do
        let p ← goIndex lag (c.rand lag.length % lag.length)
        let l := { l with active := true, obj := newPeerLoader p }
        let l ← if count l.fc p.addr ≥ restartThreshold then restartSync c l else .ok l
        continueSync c l

/-- `tick`, loading/loader.go:249-256 -/
def tick (c : Ctx) (l : Loader) : Go Loader :=
  if l.active then logged (fire c l (.tick c.now)) else .ok l

/-- `handleIDs`, loading/loader.go:258-271 -/
def handleIDs (c : Ctx) (l : Loader) (peer : Addr) (ids : List BlockID) : Go Loader :=
  if l.active = false then .ok l
  else if ids = [] then .ok l
  else if peer ≠ l.peerID then .ok l
  else logged (fire c l (.ids ids))

/-- `handleBlock`, loading/loader.go:273-283 -/
def handleBlock (c : Ctx) (l : Loader) (peer : Addr) (b : Option ProtoBlock) : Go Loader :=
  if l.active = false then .ok l
  else if peer ≠ l.peerID then .ok l
  else logged (fire c l (.block b))

/-- `NewLoader`, loading/loader.go:97-108; the object is a placeholder -/
def NewLoader (reg : Registry) (lk : Linkage) : Loader :=
  { active := false, obj := newPeerLoader Peer.zero, prevDiff := none, fc := [], link := lk, reg := reg, out := [],
    ticking := false }

end Verif.Loading
