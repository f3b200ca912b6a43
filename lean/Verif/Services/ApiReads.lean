import Verif.Services.PeerReports
import Verif.Chains.ReadsLemmas
import Verif.Peers.Reads
/-
The HTTP handlers of api/api.go once more, on databases that may fail to read or that are being closed.

The definitions follow those of `Services/Api.lean` and `Services/PeerReports.lean`.  Every call has its own condition, since the state
of the disk may change between the calls of one request.
-/

set_option autoImplicit false

namespace Verif.Services

open Verif
open Verif.Chains (Addr BlockID DB Env Fork Head GeneratorStats)
open Verif.Chains.Rd (Faults)
open Verif.Peers (Registry Lib Peer)

/-- The condition of a database during one call.  The program closes both databases when it ends (forkdetector.go:58-62, 73), and does
not wait for requests that are being answered: `srv.Shutdown` gets a context that has been cancelled already
(api/api.go:89-91).  From then on `GetSnapshot` fails.  A call that is going on at that moment may find that reads fail, and an
iterator may end early; that is one of the conditions `opened`. -/
inductive Cond where
  | opened (F : Faults)
  | closed

/-- a database that reads well -/
def Cond.good : Cond := .opened .none

/-- a call; after the closing it fails at `GetSnapshot` -/
def Cond.run {α : Type} (c : Cond) (f : Faults → Go α) : Go α :=
  match c with
  | .opened F => f F
  | .closed => fail (.other "closed")

/-- the faults during a call that asks for single records only -/
def Cond.faults : Cond → Faults
  | .opened F => F
  | .closed => ⟨fun _ => true, fun _ => true⟩

/-- `forks`, api/api.go:270-286 -/
def Web.forksRd (w : Web) (c : Cond) (env : Env) (db : DB) (q : List Char) : Resp (List Fork) :=
  match w.getPeers q with
  | none => .badRequest
  | some ps => .after (c.run (fun F => Chains.Rd.Forks F env db ps)) (fun fs => w.encode fs (forkTimes fs))

/-- `Connections`, peers/registry.go:205-222: no snapshot is taken if there are no connections -/
def Cond.connections (c : Cond) (lib : Lib) (env : Env) (r : Registry) : Go (List Peer) := Peers.Rd.Connections c.faults lib env r

/-- `activeForks`, api/api.go:289-321 -/
def Web.activeForksRd (w : Web) (c1 c2 : Cond) (lib : Lib) (env1 env2 : Env) (reg : Registry) (db : DB) (q : List Char) : Resp (List Fork) :=
  match w.getPeers q with
  | none => .badRequest
  | some rps =>
    .after (c1.connections lib env1 reg) (fun conns =>
      .after (c2.run (fun F => Chains.Rd.Forks F env2 db (activePeers rps conns))) (fun fs => w.encode fs (forkTimes fs)))

/-- `fork`, api/api.go:324-350 -/
def Web.forkRd (w : Web) (c1 c2 : Cond) (env : Env) (db1 db2 : DB) (addr : List Char) : Resp Fork :=
  match w.parse addr with
  | none => .badRequest
  | some a =>
    .after (c1.run (fun F => Chains.Rd.HasLeash F db1 a)) (fun ok =>
      if !ok then .notFound
      else .after (c2.run (fun F => Chains.Rd.ForkOf F env db2 a)) (fun f => w.encode f [f.headTimestamp.toNat]))

/-- `ForkGenerators` with the allocation, as `Web.generators`; the number of the block is read before the allocation,
chains/storage.go:268-279 -/
def Web.generatorsRd (w : Web) (c : Cond) (env : Env) (db : DB) (id : BlockID) (count : Int) : Resp (List GeneratorStats) :=
  if count > w.maxCap then .after (c.run (fun F => Chains.Rd.getNumOfBlockID F db id)) (fun _ => .panicked)
  else if count > w.room then .after (c.run (fun F => Chains.Rd.getNumOfBlockID F db id)) (fun _ => .died)
  else .after (c.run (fun F => Chains.Rd.ForkGenerators F env db id count)) (fun gs => .ok gs)

/-- `forkGenerators`, api/api.go:353-400 -/
def Web.forkGeneratorsRd (w : Web) (c1 c2 c3 : Cond) (env1 env2 : Env) (db1 db2 db3 : DB) (addr count : List Char) :
    Resp (List GeneratorStats) :=
  match w.parse addr with
  | none => .badRequest
  | some a =>
    match atoi count with
    | none => .badRequest
    | some n =>
      .after (c1.run (fun F => Chains.Rd.HasLeash F db1 a)) (fun ok =>
        if !ok then .notFound
        else .after (c2.run (fun F => Chains.Rd.ForkOf F env1 db2 a)) (fun f => w.generatorsRd c3 env2 db3 f.headBlock (blockCount n f)))

/-- the loop of `heads`, api/api.go:212-225 -/
def headInfosRd (cs : Nat → Cond) (dbs : Nat → DB) : Nat → List Head → Go (List HeadInfo)
  | _, [] => .ok []
  | i, h :: hs => do
    let b ← (cs i).run (fun F => Chains.Rd.BlockOf F (dbs i) h.blockID)
    let r ← headInfosRd cs dbs (i + 1) hs
    .ok ({ number := h.num, id := h.blockID, height := b.height, score := b.score, timestamp := b.timestamp } :: r)

/-- `heads`, api/api.go:205-231 -/
def Web.headsRd (w : Web) (c : Cond) (cs : Nat → Cond) (db : DB) (dbs : Nat → DB) : Resp (List HeadInfo) :=
  .after (c.run (fun F => Chains.Rd.ActiveHeads F db)) (fun hs =>
    .after (headInfosRd cs dbs 0 hs) (fun r => w.encode r (r.map (·.timestamp.toNat))))

/-- the loop of `leashes`, api/api.go:245-261 -/
def leashInfosRd (cs : Nat → Cond) (dbs : Nat → DB) : Nat → List (BlockID × List Addr) → Go (List LeashInfo)
  | _, [] => .ok []
  | i, (k, v) :: m => do
    let b ← (cs i).run (fun F => Chains.Rd.BlockOf F (dbs i) k)
    let r ← leashInfosRd cs dbs (i + 1) m
    .ok ({ blockID := b.id, height := b.height, score := b.score, timestamp := b.timestamp, generator := b.generator, peers := v } :: r)

/-- `leashes`, api/api.go:234-268 -/
def Web.leashesRd (w : Web) (c : Cond) (cs : Nat → Cond) (env : Env) (db : DB) (dbs : Nat → DB) : Resp (List LeashInfo) :=
  .after (c.run (fun F => Chains.Rd.Leashes F db)) (fun ls =>
    .after (leashInfosRd cs dbs 0 (env.mapOrder (Chains.groupLeashes ls))) (fun r =>
      w.encode (env.sort leashLess r) (r.map (·.timestamp.toNat))))

/-- `status`, api/api.go:124-160 -/
def statusRd (c0 c1 c2 c3 : Cond) (lib : Lib) (env0 env1 env2 env3 : Env) (db : DB) (reg1 reg2 reg3 : Registry) : Resp Status :=
  .after (c0.run (fun F => Chains.Rd.StatsOf F env0 db)) (fun stats =>
    .after (c1.run (fun F => Peers.Rd.Peers F lib env1 reg1)) (fun all =>
      .after (c2.run (fun F => Peers.Rd.FriendlyPeers F lib env2 reg2)) (fun friends =>
        .after (c3.connections lib env3 reg3) (fun conns =>
          .ok { short := stats.short, long := stats.long, all := all.length, friendly := friends.length, connected := conns.length }))))

/-- `peers`, api/api.go:162-174 -/
def Dates.peersRd (d : Dates) (c : Cond) (lib : Lib) (env : Env) (r : Registry) : Resp (List Peer) :=
  .after (c.run (fun F => Peers.Rd.Peers F lib env r)) d.encode

/-- `friendly`, api/api.go:176-188 -/
def Dates.friendlyRd (d : Dates) (c : Cond) (lib : Lib) (env : Env) (r : Registry) : Resp (List Peer) :=
  .after (c.run (fun F => Peers.Rd.FriendlyPeers F lib env r)) d.encode

/-- `connections`, api/api.go:190-202 -/
def Dates.connectionsRd (d : Dates) (c : Cond) (lib : Lib) (env : Env) (r : Registry) : Resp (List Peer) :=
  .after (c.connections lib env r) (fun l => d.encode (l.map (fun p => { p with conn := none })))

/-! ### what a failed read leads to -/

/-- the answer of a good database, or status 500 -/
def OrFailed {α : Type} (x y : Resp α) : Prop := x = y ∨ x.status = some 500

theorem OrFailed.refl {α : Type} (x : Resp α) : OrFailed x x := Or.inl rfl

/-- the value, or an error that is not a panic -/
def OrErr {α : Type} (x y : Go α) : Prop := x = y ∨ ∃ e, x = fail e

theorem OrErr.refl {α : Type} (x : Go α) : OrErr x x := Or.inl rfl

theorem OrErr.bind {α β : Type} {x y : Go α} {f g : α → Go β} (h : OrErr x y) (hf : ∀ a, OrErr (f a) (g a)) : OrErr (x >>= f) (y >>= g) := by
  rcases h with rfl | ⟨e, rfl⟩
  · cases x with
    | ok a => exact hf a
    | error e => exact Or.inl rfl
  · exact Or.inr ⟨e, rfl⟩

theorem OrFailed.after {α β : Type} {x y : Go α} {f g : α → Resp β} (h : OrErr x y) (hf : ∀ a, OrFailed (f a) (g a)) :
    OrFailed (Resp.after x f) (Resp.after y g) := by
  rcases h with rfl | ⟨e, rfl⟩
  · cases x with
    | ok a => exact hf a
    | error e => cases e <;> exact Or.inl rfl
  · exact Or.inr rfl

theorem OrErr.run {α : Type} {y : Go α} {f : Faults → Go α} (c : Cond) (h : ∀ F, c = .opened F → Chains.Rd.Safe F (f F) y) : OrErr (c.run f) y := by
  cases c with
  | opened F => exact (h F rfl).out.imp id (fun e => ⟨_, e⟩)
  | closed => exact Or.inr ⟨_, rfl⟩

end Verif.Services
