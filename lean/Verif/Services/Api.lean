import Verif.Services.Distributor
/-
Model of api/api.go and api/entities.go: the HTTP handlers.

A handler makes several calls to the registry and the store; each of them is
atomic, and other goroutines may change the data in between.  So every call has
its own registry or database as a parameter.  Routing is in Services/Routes.lean.
The JSON text is in Services/Json.lean; middleware is not modelled; encoding fails for times beyond the year 9999
(`time.Time.MarshalJSON`), and a panic in a handler becomes status 500
(`middleware.Recoverer`, api/api.go:71).
-/

set_option autoImplicit false

namespace Verif.Services

open Verif
open Verif.Chains (Addr BytesN BlockID DB Env Fork Head Block Leash GeneratorStats WavesAddr Forks ForkOf HasLeash)
open Verif.Peers (Registry Lib Peer)

/-- library functions and limits that the handlers depend on -/
structure Web where
  /-- `netip.ParseAddr` -/
  parse : List Char → Option Addr
  parse_valid : ∀ s a, parse s = some a → a ≠ .zero
  /-- `unicode.IsSpace` -/
  space : Char → Bool
  /-- `time.UnixMilli(ms)` can be encoded; the limit is the year 10000 in the local time zone -/
  encodes : Nat → Bool
  encodes_near : ∀ ms, ms < 253402214400000 → encodes ms = true
  encodes_far : ∀ ms, 253402387200000 ≤ ms → encodes ms = false
  /-- the largest capacity `make` accepts for a slice of blocks; it panics for more -/
  maxCap : Nat
  /-- the largest capacity there is memory for; the runtime ends the program for more -/
  room : Nat

/-- What a request leads to: a body with status 200, the error statuses 400, 404 and 500, a panic (answered with 500), or the end
of the program -/
inductive Resp (α : Type) where
  | ok (body : α)
  | badRequest
  | notFound
  | failed
  | panicked
  | died
deriving DecidableEq

/-- the status code -/
def Resp.status {α : Type} : Resp α → Option Nat
  | .ok _ => some 200
  | .badRequest => some 400
  | .notFound => some 404
  | .failed => some 500
  | .panicked => some 500
  | .died => none

/-- `if err != nil { http.Error(w, ..., 500); return }` and what follows -/
def Resp.after {α β : Type} (r : Go α) (k : α → Resp β) : Resp β :=
  match r with
  | .ok a => k a
  | .error (.err _) => .failed
  | .error .panic => .panicked

/-- `json.NewEncoder(w).Encode(x)`, where `ts` are the times in `x` -/
def Web.encode {α : Type} (w : Web) (x : α) (ts : List Nat) : Resp α := if ts.all w.encodes then .ok x else .failed

/-- `strings.Split(s, ",")` -/
def split : List Char → List (List Char)
  | [] => [[]]
  | c :: s =>
    if c = ',' then [] :: split s
    else match split s with
      | [] => [[c]]
      | x :: xs => (c :: x) :: xs

/-- `strings.TrimSpace` -/
def Web.trim (w : Web) (s : List Char) : List Char := ((s.dropWhile w.space).reverse.dropWhile w.space).reverse

/-- the loop of `getPeers`, api/api.go:406-415 -/
def Web.peersLoop (w : Web) : List (List Char) → Option (List Addr)
  | [] => some []
  | s :: ss =>
    if w.trim s = [] then w.peersLoop ss
    else match w.parse (w.trim s) with
      | none => none
      | some a => (w.peersLoop ss).map (a :: ·)

/-- `getPeers`, api/api.go:402-417, with the value of the parameter; the map is the list of its keys -/
def Web.getPeers (w : Web) (q : List Char) : Option (List Addr) := w.peersLoop (split q)

/-- the digits of a decimal number -/
def decimal : List Char → Option Nat
  | [] => none
  | s => if s.all Char.isDigit then some (s.foldl (fun n c => n * 10 + (c.toNat - 48)) 0) else none

/-- `strconv.Atoi` -/
def atoi (s : List Char) : Option Int :=
  match s with
  | '-' :: t => (decimal t).bind (fun n => if n ≤ 2 ^ 63 then some (-(n : Int)) else none)
  | '+' :: t => (decimal t).bind (fun n => if n < 2 ^ 63 then some (n : Int) else none)
  | t => (decimal t).bind (fun n => if n < 2 ^ 63 then some (n : Int) else none)

/-- the times in a list of forks -/
def forkTimes (fs : List Fork) : List Nat := fs.map (·.headTimestamp.toNat)

/-- `forks`, api/api.go:270-286 -/
def Web.forks (w : Web) (env : Env) (db : DB) (q : List Char) : Resp (List Fork) :=
  match w.getPeers q with
  | none => .badRequest
  | some ps => .after (Forks env db ps) (fun fs => w.encode fs (forkTimes fs))

/-- the connected peers of a request for active forks, api/api.go:305-310 -/
def activePeers (rps : List Addr) (conns : List Peer) : List Addr :=
  (conns.map (·.addr)).filter (fun a => !(decide (rps.length > 0) && !rps.contains a))

/-- `activeForks`, api/api.go:289-321 -/
def Web.activeForks (w : Web) (lib : Lib) (env1 env2 : Env) (reg : Registry) (db : DB) (q : List Char) : Resp (List Fork) :=
  match w.getPeers q with
  | none => .badRequest
  | some rps =>
    .after (Peers.Connections lib env1 reg) (fun conns =>
      .after (Forks env2 db (activePeers rps conns)) (fun fs => w.encode fs (forkTimes fs)))

/-- `fork`, api/api.go:324-350 -/
def Web.fork (w : Web) (env : Env) (db1 db2 : DB) (addr : List Char) : Resp Fork :=
  match w.parse addr with
  | none => .badRequest
  | some a =>
    .after (HasLeash db1 a) (fun ok =>
      if !ok then .notFound
      else .after (ForkOf env db2 a) (fun f => w.encode f [f.headTimestamp.toNat]))

/-- the number of blocks asked for, api/api.go:383-388 -/
def blockCount (c : Int) (f : Fork) : Int := if c = 0 then (if f.longest then 1000 else f.length) else c

/-- `ForkGenerators` with the allocation `make([]Block, 0, count)`, chains/storage.go:279 -/
def Web.generators (w : Web) (env : Env) (db : DB) (id : BlockID) (count : Int) : Resp (List GeneratorStats) :=
  if count > w.maxCap then .after (Chains.getNumOfBlockID db id) (fun _ => .panicked)
  else if count > w.room then .after (Chains.getNumOfBlockID db id) (fun _ => .died)
  else .after (Chains.ForkGenerators env db id count) (fun gs => .ok gs)

/-- `forkGenerators`, api/api.go:353-400 -/
def Web.forkGenerators (w : Web) (env1 env2 : Env) (db1 db2 db3 : DB) (addr count : List Char) : Resp (List GeneratorStats) :=
  match w.parse addr with
  | none => .badRequest
  | some a =>
    match atoi count with
    | none => .badRequest
    | some c =>
      .after (HasLeash db1 a) (fun ok =>
        if !ok then .notFound
        else .after (ForkOf env1 db2 a) (fun f => w.generators env2 db3 f.headBlock (blockCount c f)))

/-- `headInfo`, api/entities.go:20-26 -/
structure HeadInfo where
  number : UInt64
  id : BlockID
  height : UInt32
  score : Nat
  timestamp : UInt64
deriving DecidableEq

/-- the loop of `heads`, api/api.go:212-225; the `i`-th block is read from `dbs i` -/
def headInfos (dbs : Nat → DB) : Nat → List Head → Go (List HeadInfo)
  | _, [] => .ok []
  | i, h :: hs => do
    let b ← Chains.BlockOf (dbs i) h.blockID
    let r ← headInfos dbs (i + 1) hs
    .ok ({ number := h.num, id := h.blockID, height := b.height, score := b.score, timestamp := b.timestamp } :: r)

/-- `heads`, api/api.go:205-231 -/
def Web.heads (w : Web) (db : DB) (dbs : Nat → DB) : Resp (List HeadInfo) :=
  .after (Chains.ActiveHeads db) (fun hs =>
    .after (headInfos dbs 0 hs) (fun r => w.encode r (r.map (·.timestamp.toNat))))

/-- `leashInfo`, api/entities.go:28-36; `PeersCount` is the length of `Peers` -/
structure LeashInfo where
  blockID : BlockID
  height : UInt32
  score : Nat
  timestamp : UInt64
  generator : WavesAddr
  peers : List Addr
deriving DecidableEq

/-- the loop of `leashes`, api/api.go:245-261 -/
def leashInfos (dbs : Nat → DB) : Nat → List (BlockID × List Addr) → Go (List LeashInfo)
  | _, [] => .ok []
  | i, (k, v) :: m => do
    let b ← Chains.BlockOf (dbs i) k
    let r ← leashInfos dbs (i + 1) m
    .ok ({ blockID := b.id, height := b.height, score := b.score, timestamp := b.timestamp, generator := b.generator, peers := v } :: r)

/-- `byScoreAndPeersDesc.Less`, api/entities.go:48-54 -/
def leashLess (a b : LeashInfo) : Bool :=
  if a.score = b.score then decide (a.peers.length > b.peers.length) else decide (a.score > b.score)

/-- `leashes`, api/api.go:234-268 -/
def Web.leashes (w : Web) (env : Env) (db : DB) (dbs : Nat → DB) : Resp (List LeashInfo) :=
  .after (Chains.Leashes db) (fun ls =>
    .after (leashInfos dbs 0 (env.mapOrder (Chains.groupLeashes ls))) (fun r =>
      w.encode (env.sort leashLess r) (r.map (·.timestamp.toNat))))

/-- `status`, api/entities.go:10-18, without the version and the number of goroutines -/
structure Status where
  short : Nat
  long : Nat
  all : Nat
  friendly : Nat
  connected : Nat
deriving DecidableEq

/-- `status`, api/api.go:124-160 -/
def status (lib : Lib) (env0 env1 env2 env3 : Env) (db : DB) (reg1 reg2 reg3 : Registry) : Resp Status :=
  .after (Chains.StatsOf env0 db) (fun stats =>
    .after (Peers.Peers lib env1 reg1) (fun all =>
      .after (Peers.FriendlyPeers lib env2 reg2) (fun friends =>
        .after (Peers.Connections lib env3 reg3) (fun conns =>
          .ok { short := stats.short, long := stats.long, all := all.length, friendly := friends.length, connected := conns.length }))))

end Verif.Services
