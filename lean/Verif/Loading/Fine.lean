import Verif.Loading.Spec
/-
The history loader, one call at a time.

`Loading/Loader.lean` handles an event of the loader in one step.  The code does not: the loader calls the store and
the registry several times while it handles one event, the mutex of each is given up after every call, and the other
goroutines work in between.  Here the handlers are written down as programs that make these calls one by one, and
`World` lets the other goroutines do anything between two calls.  What is left atomic is a single call (property C91
justifies that) and what the loader does with its own fields, which no other goroutine touches.
-/

set_option autoImplicit false

namespace Verif.Loading.Fine

open Verif
open Verif.Chains (Addr BlockID ProtoBlock MicroInv Linkage Env PutBlock MoveLeash HasBlock LeashOf LeashScore LastIDs LCB)
open Verif.Peers (Peer Conn Registry Lib)
open Verif.KV (Fate)

/-- what the goroutines share: the store and the registry -/
structure Shared where
  link : Linkage
  reg : Registry

/-- what belongs to the loader alone: the fields of `Loader` (loading/loader.go:79-95) except for the store and the
registry, as in `Loading.Loader` -/
structure Own where
  active : Bool
  obj : PeerLoader
  prevDiff : Option Int
  fc : FailureCounter
  out : List Sent
  ticking : Bool

/-- the peer that is synchronised -/
def Own.peerID (o : Own) : Addr := o.obj.peer.addr

/-- the loader of `Loading/Loader.lean` made of the two parts -/
def Own.on (o : Own) (s : Shared) : Loader :=
  { active := o.active, obj := o.obj, prevDiff := o.prevDiff, fc := o.fc, out := o.out, ticking := o.ticking,
    link := s.link, reg := s.reg }

def own (l : Loader) : Own := ⟨l.active, l.obj, l.prevDiff, l.fc, l.out, l.ticking⟩

def shared (l : Loader) : Shared := ⟨l.link, l.reg⟩

/-! ### programs that make calls -/

/-- The calls that the loader makes on the store (`historyProvider`, loading/peer_loader.go:21-31 and loading/loader.go:136, 207)
and on the registry (loading/loader.go:131, 191).  What a call gets from outside, the order of map iterations and the fates of
the writes, is part of it. -/
inductive Call where
  | hasBlock (id : BlockID)
  | leashOf (a : Addr)
  | leashScore (a : Addr)
  | lastIDs (id : BlockID) (count : Int)
  | lcb (env : Env) (a : Addr)
  | moveLeash (f : Fate) (id : BlockID) (a : Addr)
  | putBlock (f1 f2 : Fate) (b : ProtoBlock) (a : Addr)
  | connections (env : Env)
  | peerOf (a : Addr)

/-- the type of the answer -/
def Call.Res : Call → Type
  | .hasBlock _ => Go Bool
  | .leashOf _ => Go BlockID
  | .leashScore _ => Go Nat
  | .lastIDs _ _ => Go (List BlockID)
  | .lcb _ _ => Go BlockID
  | .moveLeash _ _ _ => Go Unit
  | .putBlock _ _ _ _ => Go Unit
  | .connections _ => Go (List Peer)
  | .peerOf _ => Go Peer

/-- the answer to a call -/
def Call.res (lib : Lib) (s : Shared) : (c : Call) → c.Res
  | .hasBlock id => HasBlock s.link.db id
  | .leashOf a => LeashOf s.link a
  | .leashScore a => LeashScore s.link a
  | .lastIDs id n => LastIDs s.link.db id n
  | .lcb env a => LCB env s.link a
  | .moveLeash f id a => (MoveLeash f s.link.db id a).2
  | .putBlock f1 f2 b a => (PutBlock f1 f2 s.link.db b a).2
  | .connections env => Peers.Connections lib env s.reg
  | .peerOf a => Peers.PeerOf s.reg a

/-- the calls that write, as calls on the store of `Chains.Spec` -/
def Call.op : Call → Option Chains.Spec.Op
  | .moveLeash f id a => some (.moveLeash id a f)
  | .putBlock f1 f2 b a => some (.putBlock b a f1 f2)
  | _ => none

/-- what a call does to the store; it does nothing to the registry -/
def Call.effect (c : Call) (s : Shared) : Shared :=
  match c.op with
  | some o => { s with link := (Chains.Spec.step s.link o).1 }
  | none => s

/-- a program that makes calls and ends with a result -/
inductive Proc (α : Type) where
  | ret (a : α)
  | call (c : Call) (k : c.Res → Proc α)

def Proc.bind {α β : Type} : Proc α → (α → Proc β) → Proc β
  | .ret a, f => f a
  | .call c k, f => .call c (fun r => (k r).bind f)

instance : Monad Proc where
  pure := .ret
  bind := .bind

/-- the program on its own, without other goroutines -/
def Proc.alone (lib : Lib) {α : Type} : Proc α → Shared → α × Shared
  | .ret a, s => (a, s)
  | .call c k, s => (k (c.res lib s)).alone lib (c.effect s)

/-! ### the handlers

Each of these is the definition of the same name in `Loading/Loader.lean`, with the calls taken apart. -/

/-- `pl.sm.Fire(trigger)` called by an action of the state machine -/
def enqueue (o : Own) (t : Trigger) : Own := { o with obj := { o.obj with triggers := o.obj.triggers ++ [t] } }

/-- `if err := r; err != nil { return err }; f()` -/
def andThen (r : Own × Go Unit) (f : Own → Proc (Own × Go Unit)) : Proc (Own × Go Unit) :=
  match r.2 with
  | .error e => .ret (r.1, .error e)
  | .ok () => f r.1

/-- `Peer.RequestBlockIDs`, peers/peer.go:62-77; no calls on the store or the registry -/
def requestBlockIDs (c : Ctx) (o : Own) (ids : List BlockID) : Own × Go Unit :=
  match o.obj.peer.conn with
  | none => (o, goPanic)
  | some cn =>
    if ids = [] then (o, goPanic)
    else if cn.handshake.version.lt protobufVersion then
      ({ o with out := o.out ++ [⟨c.now, cn, .getSignatures ids⟩] }, .ok ())
    else ({ o with out := o.out ++ [⟨c.now, cn, .getBlockIds ids⟩] }, .ok ())

/-- `Peer.RequestBlock`, peers/peer.go:79-81, for each id, loading/peer_loader.go:213-215 -/
def requestBlockEach (c : Ctx) (o : Own) : List BlockID → Own × Go Unit
  | [] => (o, .ok ())
  | id :: ids =>
    match o.obj.peer.conn with
    | none => (o, goPanic)
    | some cn => requestBlockEach c { o with out := o.out ++ [⟨c.now, cn, .getBlock id⟩] } ids

/-- `OK`, loading/loader.go:127-150 -/
def OK (o : Own) : Proc (Own × Go Unit) :=
  if o.active ∧ o.obj.state = .idle then
    let o := { o with fc := reset o.fc o.peerID }
    .call (.peerOf o.peerID) (fun (r : Go Peer) =>
      match r with
      | .error .panic => .ret (o, goPanic)
      | .error (.err _) => .ret (o, .ok ())
      | .ok p =>
        .call (.leashScore o.peerID) (fun (r : Go Nat) =>
          match r with
          | .error .panic => .ret (o, goPanic)
          | .error (.err _) => .ret (o, .ok ())
          | .ok score =>
            match p.score with
            | none => .ret (o, goPanic)
            | some ps =>
              let x := isLagging o.prevDiff ps score
              if x.2 then .ret (enqueue { o with prevDiff := some x.1, ticking := true } .start, .ok ())
              else .ret ({ o with active := false, prevDiff := none }, .ok ())))
  else .ret (o, .ok ())

/-- `Fail`, loading/loader.go:152-158; no calls on the store or the registry -/
def Fail (o : Own) : Own :=
  if o.active ∧ o.obj.state = .done then { o with fc := inc o.fc o.peerID, active := false } else o

/-- the end of `requestIDs` and of `requestIDsFromLCA`, loading/peer_loader.go:157-163, 171-177 -/
def requestFrom (c : Ctx) (o : Own) (id : BlockID) : Proc (Own × Go Unit) :=
  .call (.lastIDs id idsBatchSize) (fun (r : Go (List BlockID)) =>
    match r with
    | .error e => .ret (o, .error e)
    | .ok lastIDs =>
      andThen (requestBlockIDs c o lastIDs) (fun o' => .ret ({ o' with obj := { o'.obj with timestamp := c.now } }, .ok ())))

/-- `requestIDs`, loading/peer_loader.go:152-164 -/
def requestIDs (c : Ctx) (o : Own) : Proc (Own × Go Unit) :=
  .call (.leashOf o.peerID) (fun (r : Go BlockID) =>
    match r with
    | .error e => .ret (o, .error e)
    | .ok leash => requestFrom c o leash)

/-- `requestIDsFromLCA`, loading/peer_loader.go:166-178 -/
def requestIDsFromLCA (c : Ctx) (o : Own) : Proc (Own × Go Unit) :=
  .call (.lcb c.env o.peerID) (fun (r : Go BlockID) =>
    match r with
    | .error e => .ret (o, .error e)
    | .ok lca => requestFrom c o lca)

/-- the loop of `requestBlocks`, loading/peer_loader.go:186-206 -/
def requestLoop (c : Ctx) (peer : Addr) : (i : Nat) → List BlockID → Proc (Go (List BlockID))
  | _, [] => .ret (.ok [])
  | i, id :: ids =>
    .call (.hasBlock id) (fun (r : Go Bool) =>
      match r with
      | .error e => .ret (.error e)
      | .ok false => .ret (.ok (id :: ids))
      | .ok true =>
        .call (.leashOf peer) (fun (r : Go BlockID) =>
          match r with
          | .error e => .ret (.error e)
          | .ok leash =>
            if id ≠ leash then
              .call (.moveLeash (c.fates i) id peer) (fun (r : Go Unit) =>
                match r with
                | .error e => .ret (.error e)
                | .ok () => requestLoop c peer (i + 1) ids)
            else requestLoop c peer (i + 1) ids))

/-- `requestBlocks`, loading/peer_loader.go:180-218 -/
def requestBlocks (c : Ctx) (o : Own) (ids : List BlockID) : Proc (Own × Go Unit) :=
  (requestLoop c o.peerID 0 ids).bind (fun r =>
    match r with
    | .error e => .ret (o, .error e)
    | .ok [] => .ret (enqueue o .queueReady, .ok ())
    | .ok (id :: req) =>
      andThen (requestBlockEach c { o with obj := { o.obj with queue := newQueue (id :: req) } } (id :: req))
        (fun o' => .ret ({ o' with obj := { o'.obj with timestamp := c.now } }, .ok ())))

/-- the loop of `appendBlock`, loading/peer_loader.go:227-232 -/
def applyAll (c : Ctx) (peer : Addr) : (i : Nat) → List Item → Proc (Go Unit)
  | _, [] => .ret (.ok ())
  | i, it :: q =>
    match it.received with
    | none => .ret goPanic
    | some b =>
      .call (.putBlock (c.fates (2 * i)) (c.fates (2 * i + 1)) b peer) (fun (r : Go Unit) =>
        match r with
        | .error e => .ret (.error e)
        | .ok () => applyAll c peer (i + 1) q)

/-- `appendBlock`, loading/peer_loader.go:220-237 -/
def appendBlock (c : Ctx) (o : Own) (b : Option ProtoBlock) : Proc (Own × Go Unit) :=
  let o := { o with obj := { o.obj with queue := putOpt o.obj.queue b } }
  if ready o.obj.queue then
    (applyAll c o.peerID 0 o.obj.queue).bind (fun r =>
      match r with
      | .error e => .ret (o, .error e)
      | .ok () => .ret (enqueue o .queueReady, .ok ()))
  else .ret (o, .ok ())

/-- the loop of `handleFailure`, loading/peer_loader.go:241-249 -/
def applyPrefix (c : Ctx) (peer : Addr) : (i : Nat) → List Item → Proc (Go Unit)
  | _, [] => .ret (.ok ())
  | i, it :: q =>
    match it.received with
    | none => .ret (.ok ())
    | some b =>
      if b.id = it.requested then
        .call (.putBlock (c.fates (2 * i)) (c.fates (2 * i + 1)) b peer) (fun (r : Go Unit) =>
          match r with
          | .error e => .ret (.error e)
          | .ok () => applyPrefix c peer (i + 1) q)
      else .ret (.ok ())

/-- `handleFailure`, loading/peer_loader.go:239-252 -/
def handleFailure (c : Ctx) (o : Own) : Proc (Own × Go Unit) :=
  (applyPrefix c o.peerID 0 o.obj.queue).bind (fun r =>
    match r with
    | .error e => .ret (o, .error e)
    | .ok () => .ret (Fail o, .ok ()))

/-- `onTick`, loading/peer_loader.go:140-150 -/
def onTick (o : Own) (t : Int) : Own × Go Unit :=
  if t - o.obj.timestamp > timeoutDuration then (enqueue o .timeout, .ok ()) else (o, .ok ())

/-- entry actions, loading/peer_loader.go:54, 66-67, 79, 91, 254-257 -/
def onEntry (c : Ctx) (o : Own) (dest : State) (t : Trigger) : Proc (Own × Go Unit) :=
  match dest, t with
  | .idle, .queueReady => OK o
  | .waitingForIDs, .start => requestIDs c o
  | .waitingForIDs, .restart => requestIDsFromLCA c o
  | .waitingForBlocks, .ids ids => requestBlocks c o ids
  | .done, _ => handleFailure c o
  | _, _ => .ret (o, .ok ())

/-- internal transitions, loading/peer_loader.go:69, 80-81 -/
def onInternal (c : Ctx) (o : Own) (t : Trigger) : Proc (Own × Go Unit) :=
  match t with
  | .block b => appendBlock c o b
  | .tick tm => .ret (onTick o tm)
  | _ => .ret (o, .ok ())

/-- stateless: one trigger -/
def execute (c : Ctx) (o : Own) (t : Trigger) : Proc (Own × Go Unit) :=
  match handler o.obj.state t with
  | none => .ret (o, fail (.other "no valid leaving transitions"))
  | some .ignored => .ret (o, .ok ())
  | some (.goto s) => onEntry c { o with obj := { o.obj with state := s } } s t
  | some .internal => onInternal c o t

/-- stateless: the loop of `Fire` in queued mode -/
def drain (c : Ctx) : Nat → Own → Proc (Own × Go Unit)
  | 0, o => .ret (o, .ok ())
  | n + 1, o =>
    match o.obj.triggers with
    | [] => .ret (o, .ok ())
    | t :: ts => (execute c { o with obj := { o.obj with triggers := ts } } t).bind (fun r => andThen r (drain c n))

/-- stateless: `sm.Fire(trigger)` while the machine is not firing; loading/peer_loader.go:100-138 -/
def fire (c : Ctx) (o : Own) (t : Trigger) : Proc (Own × Go Unit) := drain c 3 (enqueue o t)

/-- an error is logged, a panic ends the program -/
def logged (r : Own × Go Unit) : Go Own :=
  match r.2 with
  | .error .panic => goPanic
  | _ => .ok r.1

/-- `continueSync`, loading/loader.go:233-238, called by `sync` -/
def continueSync (c : Ctx) (o : Own) : Proc (Go Own) :=
  if o.active then (fire c { o with ticking := true } .start).bind (fun r => .ret (logged r)) else .ret goPanic

/-- `restartSync`, loading/loader.go:240-247 -/
def restartSync (c : Ctx) (o : Own) : Proc (Go Own) :=
  (fire c { o with ticking := true, fc := reset o.fc o.peerID } .restart).bind (fun r => .ret (logged r))

/-- the loop of `sync`, loading/loader.go:202-217: the connections that lag.  One call for every connection with a
score. -/
def lagLoop : List Peer → Proc (List Peer)
  | [] => .ret []
  | p :: ps =>
    match p.score with
    | none => lagLoop ps
    | some s =>
      .call (.leashScore p.addr) (fun (r : Go Nat) =>
        match r with
        | .error _ => lagLoop ps
        | .ok score => (lagLoop ps).bind (fun rest => .ret (if s > score then p :: rest else rest)))

/-- `sync`, loading/loader.go:185-231 -/
def sync (c : Ctx) (o : Own) : Proc (Go Own) :=
  if o.active then .ret (.ok o)
  else .call (.connections c.env) (fun (r : Go (List Peer)) =>
    match r with
    | .error .panic => .ret goPanic
    | .error (.err _) => .ret (.ok o)
    | .ok connections =>
      (lagLoop connections).bind (fun lag =>
        if lag = [] then .ret (.ok o)
        else match goIndex lag (c.rand lag.length % lag.length) with
          | .error e => .ret (.error e)
          | .ok p =>
            let o := { o with active := true, obj := newPeerLoader p }
            if count o.fc p.addr ≥ restartThreshold then
              (restartSync c o).bind (fun r =>
                match r with
                | .error e => .ret (.error e)
                | .ok o => continueSync c o)
            else continueSync c o))

/-- `tick`, loading/loader.go:249-256 -/
def tick (c : Ctx) (o : Own) : Proc (Go Own) :=
  if o.active then (fire c o (.tick c.now)).bind (fun r => .ret (logged r)) else .ret (.ok o)

/-- `handleIDs`, loading/loader.go:258-271 -/
def handleIDs (c : Ctx) (o : Own) (peer : Addr) (ids : List BlockID) : Proc (Go Own) :=
  if o.active = false then .ret (.ok o)
  else if ids = [] then .ret (.ok o)
  else if peer ≠ o.peerID then .ret (.ok o)
  else (fire c o (.ids ids)).bind (fun r => .ret (logged r))

/-- `handleBlock`, loading/loader.go:273-283 -/
def handleBlock (c : Ctx) (o : Own) (peer : Addr) (b : Option ProtoBlock) : Proc (Go Own) :=
  if o.active = false then .ret (.ok o)
  else if peer ≠ o.peerID then .ret (.ok o)
  else (fire c o (.block b)).bind (fun r => .ret (logged r))

/-- what the loop of the loader receives, loading/loader.go:160-183, shutdown apart -/
inductive Input where
  | ids (peer : Addr) (ids : List BlockID)
  | block (peer : Addr) (b : Option ProtoBlock)
  | tick
  | timer

/-- the handlers -/
def handle (c : Ctx) (o : Own) : Input → Proc (Go Own)
  | .ids peer ids => handleIDs c o peer ids
  | .block peer b => handleBlock c o peer b
  | .tick => tick c o
  | .timer => sync c o

/-- the event of `Loading/Spec.lean` -/
def Input.event : Input → Op
  | .ids peer l => .ids peer l
  | .block peer b => .block peer b
  | .tick => .tick
  | .timer => .timer

/-! ### all goroutines -/

/-- what the other goroutines do: the distributor stores blocks and micro-blocks, and calls on the registry -/
inductive Other where
  | putBlock (b : ProtoBlock) (a : Addr) (f1 f2 : Fate)
  | putMicro (inv : MicroInv) (a : Addr) (f1 f2 : Fate)
  | registry (e : Peers.Event)

/-- the call on the store -/
def Other.op : Other → Option Chains.Spec.Op
  | .putBlock b a f1 f2 => some (.putBlock b a f1 f2)
  | .putMicro inv a f1 f2 => some (.putMicro inv a f1 f2)
  | .registry _ => none

/-- What a call of another goroutine does to what is shared.  A call that panics ends the program; here it goes on, which
allows more. -/
def Other.effect (lib : Lib) (x : Other) (s : Shared) : Shared :=
  match x with
  | .registry e => { s with reg := Peers.step lib s.reg e }
  | .putBlock b a f1 f2 => { s with link := (Chains.Spec.step s.link (.putBlock b a f1 f2)).1 }
  | .putMicro inv a f1 f2 => { s with link := (Chains.Spec.step s.link (.putMicro inv a f1 f2)).1 }

/-- The loader and its surroundings.  `own` is the state of the loader before the event that it is handling, `todo` is
what is left to do for this event.  The last fields are a record for the theorems: what the loader has received, and
the calls on the store that may write, with the mark `true` if the loader made them. -/
structure World where
  own : Own
  todo : Option (Proc (Go Own))
  sh : Shared
  ins : List (Ctx × Input)
  log : List (Bool × Chains.Spec.Op)

/-- the beginning -/
def World.start (reg : Registry) (lk : Linkage) : World :=
  ⟨Fine.own (NewLoader reg lk), none, ⟨lk, reg⟩, [], []⟩

/-- One step.  A handler that ended with a panic has no next step: the program ended. -/
inductive Step (lib : Lib) : World → World → Prop where
  | receive (w : World) (c : Ctx) (i : Input) (h : w.todo = none) :
      Step lib w { w with todo := some (handle c w.own i), ins := w.ins ++ [(c, i)] }
  | call (w : World) (c : Call) (k : c.Res → Proc (Go Own)) (h : w.todo = some (.call c k)) :
      Step lib w ⟨w.own, some (k (c.res lib w.sh)), c.effect w.sh, w.ins, w.log ++ (c.op.map (fun o => (true, o))).toList⟩
  | finish (w : World) (o : Own) (h : w.todo = some (.ret (.ok o))) :
      Step lib w { w with own := o, todo := none }
  | other (w : World) (x : Other) :
      Step lib w { w with sh := x.effect lib w.sh, log := w.log ++ (x.op.map (fun o => (false, o))).toList }

/-- any number of steps -/
inductive Run (lib : Lib) (w : World) : World → Prop where
  | nil : Run lib w w
  | snoc {v v' : World} (h : Run lib w v) (t : Step lib v v') : Run lib w v'

/-- Runs in which the other goroutines make calls only while the loader waits, and no call of theirs panics.  What is left to do
changes with every step of the loader. -/
inductive Undisturbed (lib : Lib) (w : World) : World → Prop where
  | nil : Undisturbed lib w w
  | loader {v v' : World} (h : Undisturbed lib w v) (t : Step lib v v') (ht : v'.todo ≠ v.todo) : Undisturbed lib w v'
  | other {v : World} (h : Undisturbed lib w v) (x : Other) (ht : v.todo = none)
      (hp : ∀ o, x.op = some o → (Chains.Spec.step v.sh.link o).2 ≠ goPanic) :
      Undisturbed lib w { v with sh := x.effect lib v.sh, log := v.log ++ (x.op.map (fun o => (false, o))).toList }

/-- what the loader receives in a history of `Loading/Spec.lean` -/
def heard : List Event → List (Ctx × Input)
  | [] => []
  | ⟨c, .ids peer l⟩ :: es => (c, .ids peer l) :: heard es
  | ⟨c, .block peer b⟩ :: es => (c, .block peer b) :: heard es
  | ⟨c, .tick⟩ :: es => (c, .tick) :: heard es
  | ⟨c, .timer⟩ :: es => (c, .timer) :: heard es
  | ⟨_, .putBlock _ _ _ _⟩ :: es => heard es
  | ⟨_, .putMicro _ _ _ _⟩ :: es => heard es
  | ⟨_, .registry _⟩ :: es => heard es

/-- the calls on the store so far -/
def World.calls (w : World) : List Chains.Spec.Op := w.log.map (·.2)

/-- the program ended with a panic of the loader -/
def World.Crashed (w : World) : Prop := w.todo = some (.ret goPanic)

end Verif.Loading.Fine
