import Verif.Loading.Loader
import Verif.Chains.Spec
import Verif.Peers.Spec
/-
Vocabulary of the properties of the history loader: events and histories.
-/

set_option autoImplicit false

namespace Verif.Loading

open Verif
open Verif.Chains (Addr BlockID ProtoBlock MicroInv Linkage Env LeashOf getLeash)
open Verif.Chains.Spec (Stored SameTree ScoreOf HeightOf IsWalk)
open Verif.Peers (Peer Registry Lib Conn)
open Verif.KV (Fate)

/-- What can happen while the program runs: the five cases of the loop of the loader
(loading/loader.go:160-183, shutdown apart), and the calls of other goroutines on the store and on
the registry. -/
inductive Op where
  /-- an id list from a peer -/
  | ids (peer : Addr) (ids : List BlockID)
  /-- a block from a peer -/
  | block (peer : Addr) (b : Option ProtoBlock)
  /-- the ticker -/
  | tick
  /-- the timer -/
  | timer
  /-- the distributor stores a block -/
  | putBlock (b : ProtoBlock) (a : Addr) (f1 f2 : Fate)
  /-- the distributor stores a micro-block -/
  | putMicro (inv : MicroInv) (a : Addr) (f1 f2 : Fate)
  /-- a call on the registry -/
  | registry (e : Peers.Event)

/-- an event and its circumstances -/
structure Event where
  ctx : Ctx
  op : Op

/-- the result of a call of another goroutine on the store; a panic ends the program -/
def others (l : Loader) (r : Linkage × Go Unit) : Go Loader :=
  match r.2 with
  | .error .panic => goPanic
  | _ => .ok { l with link := r.1 }

/-- one event -/
def step (lib : Lib) (l : Loader) (e : Event) : Go Loader :=
  match e.op with
  | .ids peer ids => handleIDs e.ctx l peer ids
  | .block peer b => handleBlock e.ctx l peer b
  | .tick => tick e.ctx l
  | .timer => sync lib e.ctx l
  | .putBlock b a f1 f2 => others l (Chains.Spec.step l.link (.putBlock b a f1 f2))
  | .putMicro inv a f1 f2 => others l (Chains.Spec.step l.link (.putMicro inv a f1 f2))
  | .registry ev => .ok { l with reg := Peers.step lib l.reg ev }

/-- a history; it ends when the program panics -/
def exec (lib : Lib) : Loader → List Event → Go Loader
  | l, [] => .ok l
  | l, e :: es => do
    let l' ← step lib l e
    exec lib l' es

/-- A state of the loader in a running program: the loader was created on a store that exists
and a registry of the program, and some events happened. -/
def Reachable (lib : Lib) (l : Loader) : Prop :=
  ∃ reg lk es, Peers.Reachable lib reg ∧ exec lib (NewLoader reg lk) es = .ok l

/-- A store that the program serves from: made by calls on a store created for `g`, reopened only
with the same genesis block, `MoveLeash` only called with stored ids, and with room for `n` more
blocks below the limit that `uint32` heights set. -/
def Serving (g : ProtoBlock) (n : Nat) (lk : Linkage) : Prop :=
  ∃ l0 ops, Chains.Spec.Fresh g l0 ∧ Chains.Spec.Disciplined l0 ops ∧
    (∀ g' f, Chains.Spec.Op.reopen g' f ∈ ops → g'.id = g.id) ∧
    Chains.Spec.inserts ops + n + 2 < 2 ^ 32 ∧ lk = Chains.Spec.exec l0 ops

/-- the tree and the leashes of other peers are as before -/
structure Walked (lk lk' : Linkage) (peer : Addr) : Prop where
  genesis : lk'.genesis = lk.genesis
  tree : SameTree lk.db lk'.db
  others : ∀ a, a.plain ≠ peer.plain → getLeash lk'.db a = getLeash lk.db a

/-- the call that stores a block -/
def putOp (peer : Addr) (b : ProtoBlock) : Chains.Spec.Op := .putBlock b peer .ok .ok

/-- `PutBlock` accepts the blocks one after the other, when the blocks in `S` are stored -/
def Chained (S : BlockID → Prop) : List ProtoBlock → Prop
  | [] => True
  | b :: bs => b.generator ≠ none ∧ b.baseTarget.toNat < 2 ^ 63 ∧ (S b.id ∨ S b.parent) ∧ Chained (fun i => S i ∨ i = b.id) bs

/-- what a stored batch looks like -/
structure Applied (lk lk' : Linkage) (peer : Addr) (bs : List ProtoBlock) : Prop where
  eq : lk' = Chains.Spec.exec lk (bs.map (putOp peer))
  stored : ∀ b, b ∈ bs → Stored lk'.db b.id
  kept : ∀ id, Stored lk.db id → Stored lk'.db id
  others : ∀ a, a.plain ≠ peer.plain → getLeash lk'.db a = getLeash lk.db a
  leash : ∀ b, bs.getLast? = some b → LeashOf lk' peer = .ok b.id
  same : bs = [] → lk' = lk

/-- the peer announced a score -/
def Announced (r : Registry) (a : Addr) (s : Nat) : Prop := ∃ p, Peers.PeerOf r a = .ok p ∧ p.score = some s

/-- the leash of the peer is on a block with a score -/
def OnLeash (lk : Linkage) (a : Addr) (leash : BlockID) (score : Nat) : Prop :=
  LeashOf lk a = .ok leash ∧ ScoreOf lk.db leash score

/-- the peer announced more than its leash is worth -/
def Lags (r : Registry) (lk : Linkage) (a : Addr) : Prop :=
  ∃ s leash score, Announced r a s ∧ OnLeash lk a leash score ∧ s > score

/-- the message asks for the ids that follow the ids `ids`; old peers get signatures -/
def AsksIDs (cn : Conn) (ids : List BlockID) : Msg → Prop
  | .getSignatures l => l = ids ∧ cn.handshake.version.lt ⟨1, 2, 0⟩ = true
  | .getBlockIds l => l = ids ∧ cn.handshake.version.lt ⟨1, 2, 0⟩ = false
  | .getBlock _ => False

/-- the block and its ancestors, one hundred blocks at most -/
def LastHundred (db : Chains.DB) (id : BlockID) (ids : List BlockID) : Prop :=
  IsWalk db ids ∧ ids.head? = some id ∧ ∃ h, HeightOf db id h ∧ ids.length = min 100 h

/-- the peer is asked for more -/
structure Continued (now : Int) (l l' : Loader) (s : Nat) (leash : BlockID) (score : Nat) : Prop where
  active : l'.active = true
  state : l'.obj.state = .waitingForIDs
  peer : l'.obj.peer = l.obj.peer
  stamp : l'.obj.timestamp = now
  diff : l'.prevDiff = some ((s : Int) - score)
  sent : ∃ ids cn m, LastHundred l'.link.db leash ids ∧ l.obj.peer.conn = some cn ∧ AsksIDs cn ids m ∧
    l'.out = l.out ++ [⟨now, cn, m⟩]

/-- the peer is released -/
structure Released (l l' : Loader) : Prop where
  active : l'.active = false
  diff : l'.prevDiff = none
  sent : l'.out = l.out

/-- the blocks that came from the peer, in the order of arrival -/
def blocksFrom (peer : Addr) (es : List Event) : List ProtoBlock :=
  es.filterMap (fun e => match e.op with
    | .block p b => if p = peer then b else none
    | _ => none)

/-- the calls of other goroutines on the store -/
def storeCalls (es : List Event) : List Chains.Spec.Op :=
  es.filterMap (fun e => match e.op with
    | .putBlock b a f1 f2 => some (.putBlock b a f1 f2)
    | .putMicro inv a f1 f2 => some (.putMicro inv a f1 f2)
    | _ => none)

/-- no tick comes more than thirty seconds after `t` -/
def InTime (t : Int) (es : List Event) : Prop :=
  ∀ e, e ∈ es → e.op = .tick → e.ctx.now - t ≤ 30 * Peers.second

/-- the blocks `bs` are, in this order, what arrived last for each of the ids -/
def Answer (ids : List BlockID) (arrived bs : List ProtoBlock) : Prop :=
  bs.map (·.id) = ids ∧ ∀ b, b ∈ bs → (arrived.filter (fun x => decide (x.id = b.id))).getLast? = some b

/-- how many blocks the event may add to the store -/
def cost (l : Loader) (e : Event) : Nat :=
  match e.op with
  | .block _ _ => l.obj.queue.length
  | .tick => l.obj.queue.length
  | .putBlock _ _ _ _ => 1
  | .putMicro _ _ _ _ => 1
  | _ => 0

/-- A state of the loader in a running program: created on a store that the program serves from and a registry of the
program, followed by any events; the store has room for `n` more blocks.  The room is the only condition on the
events. -/
inductive Running (lib : Lib) (g : ProtoBlock) : Nat → Loader → Prop where
  | start {n : Nat} {reg : Registry} {lk : Linkage} (hr : Peers.Reachable lib reg) (hs : Serving g n lk) :
      Running lib g n (NewLoader reg lk)
  | step {n : Nat} {l l' : Loader} (e : Event) (h : Running lib g (n + cost l e) l) (hs : step lib l e = .ok l') :
      Running lib g n l'

/-- What completes a batch of the current peer: a list of stored ids, or the last missing block of blocks that the store
accepts one after the other. -/
inductive Completes (l : Loader) : Op → Prop where
  | ids (hs : l.obj.state = .waitingForIDs) (ids : List BlockID) (hne : ids ≠ []) (hk : ∀ k, k ∈ ids → Stored l.link.db k) :
      Completes l (.ids l.peerID ids)
  | block (hs : l.obj.state = .waitingForBlocks) (ids : List BlockID) (hnd : ids.Nodup) (arrived : List ProtoBlock)
      (hq : l.obj.queue = arrived.foldl put (newQueue ids)) (b : ProtoBlock) (bs : List ProtoBlock)
      (hb : Answer ids (arrived ++ [b]) bs) (hc : Chained (Stored l.link.db) bs) : Completes l (.block l.peerID (some b))

/-- the synchronisation of `a` failed: a tick ended it -/
structure Failed (l : Loader) (e : Event) (l' : Loader) (a : Addr) : Prop where
  op : e.op = .tick
  before : l.active = true
  after : l'.active = false
  peer : a = l.peerID

/-- a batch of `a` succeeded: its answer came, and it leaves no blocks to wait for -/
structure Succeeded (l : Loader) (e : Event) (l' : Loader) (a : Addr) : Prop where
  before : l.active = true
  peer : a = l.peerID
  op : (l.obj.state = .waitingForIDs ∧ ∃ ids, ids ≠ [] ∧ e.op = .ids a ids) ∨
    (l.obj.state = .waitingForBlocks ∧ ∃ b, e.op = .block a b)
  after : l'.obj.state ≠ .waitingForBlocks

/-- a synchronisation of `a` was started after ten failures or more -/
structure Restarted (l : Loader) (l' : Loader) (a : Addr) (failures : Nat) : Prop where
  before : l.active = false
  after : l'.active = true
  peer : a = l'.peerID
  many : failures ≥ 10

/-- the number of failures of `a` since its last success or restart, along a run -/
inductive Streak (lib : Lib) (a : Addr) : Loader → Nat → Prop where
  | start {reg : Registry} {lk : Linkage} (hr : Peers.Reachable lib reg) : Streak lib a (NewLoader reg lk) 0
  | failed {l l' : Loader} {k : Nat} (h : Streak lib a l k) (e : Event) (hs : step lib l e = .ok l')
      (o : Failed l e l' a) : Streak lib a l' (k + 1)
  | succeeded {l l' : Loader} {k : Nat} (h : Streak lib a l k) (e : Event) (hs : step lib l e = .ok l')
      (o : Succeeded l e l' a) : Streak lib a l' 0
  | restarted {l l' : Loader} {k : Nat} (h : Streak lib a l k) (e : Event) (hs : step lib l e = .ok l')
      (o : Restarted l l' a k) : Streak lib a l' 0
  | other {l l' : Loader} {k : Nat} (h : Streak lib a l k) (e : Event) (hs : step lib l e = .ok l')
      (h1 : ¬ Failed l e l' a) (h2 : ¬ Succeeded l e l' a) (h3 : ¬ Restarted l l' a k) : Streak lib a l' k

end Verif.Loading
