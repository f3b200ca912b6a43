import Verif.Services.LinearCode
import Verif.Loading.FineRun
import Verif.Chains.Initial
/-
The databases over many runs of the program, each of which ends at any moment: by the signal, by a panic, or because the process is
killed.

While the program runs, its goroutines make calls as in `Loading/Fine.lean`.  The process may end between two of these calls or in
the middle of one; in the middle means after some of the accesses of `Services/LinearCode.lean`.
-/

set_option autoImplicit false

namespace Verif.Services

open Verif
open Verif.Chains (Linkage ProtoBlock NewLinkage LogInitialStats getBlockByID)
open Verif.Chains.Spec (Op Fresh Stored inserts)
open Verif.Loading (Serving)
open Verif.Loading.Fine (World Step Run)
open Verif.Peers (Registry Lib AddrPort Config NewRegistry AppendAddresses putPeer hasPeer newPeer acceptable)
open Verif.KV (Fate)

/-- The code has been run from state `s` up to some access, and the state is `s'`. -/
inductive Mid {σ ρ : Type} : Code σ ρ → σ → σ → Prop where
  | here (c : Code σ ρ) (s : σ) : Mid c s s
  | op (o : LockOp) {k : Code σ ρ} {s s' : σ} (h : Mid k s s') : Mid (.op o k) s s'
  | act (f : σ → σ) (k : σ → Code σ ρ) {s s' : σ} (h : Mid (k s) (f s) s') : Mid (.act f k) s s'

/-- the methods of `Linkage` that write, access by access; opening the store is not one of them -/
def opCode : Op → Code Linkage (Go Unit)
  | .putBlock b a f1 f2 => putBlockCode f1 f2 b a id
  | .putMicro inv a f1 f2 => putMicroCode f1 f2 inv a id
  | .moveLeash i a f => moveLeashCode f i a id
  | .reopen _ _ => .ret (.ok ())

/-- `AppendAddresses`, peers/registry.go:226-267, access by access: for every address a read of the record and a write -/
def appendCode (fs : Nat → Fate) : List (Option AddrPort) → Nat → Code Registry (Go Nat)
  | [], count => .op .unlock (.ret (.ok count))
  | none :: l, count => appendCode fs l count
  | some ap :: l, count =>
    .act id (fun r =>
      if acceptable r ap then
        match hasPeer r.db ap.addr with
        | .error .panic => .op .unlock (.ret goPanic)
        | .error (.err _) => .op .unlock (.ret (.ok count))
        | .ok true => appendCode fs l count
        | .ok false =>
          .act (fun r => { r with db := (putPeer (fs count) r.db (newPeer ap)).1 }) (fun r =>
            match (putPeer (fs count) r.db (newPeer ap)).2 with
            | .ok () => appendCode fs l (count + 1)
            | .error .panic => .op .unlock (.ret goPanic)
            | .error (.err _) => .op .unlock (.ret (.ok count)))
      else appendCode fs l count)

/-- A call on the registry.  `AppendAddresses` makes many writes; every other method makes one at most
(peers/registry.go:96, 103, 121, 133, 178, 201, peers/version_provider.go:34, 45), and what it does to the maps in memory is of no
interest after the process has ended, so it is a single access here. -/
def registryCode (lib : Lib) (e : Peers.Event) : Code Registry (Go Nat) :=
  match e.op with
  | .append fs l => .op .lock (appendCode fs l 0)
  | _ => .op .lock (.act (fun r => Peers.step lib r e) (fun _ => .op .unlock (.ret (.ok 0))))

/-- How the store and the database of the peers are found after the process has ended.  `calls` are the calls on the store that were
begun.  A call on the registry may be going on. -/
inductive Killed (lib : Lib) (w : World) : List Op → Linkage → Peers.DB → Prop where
  | between (e : Peers.Event) (r : Registry) (hr : Mid (registryCode lib e) w.sh.reg r) : Killed lib w w.calls w.sh.link r.db
  | within (w' : World) (t : Step lib w w') (mine : Bool) (o : Op) (hl : w'.log = w.log ++ [(mine, o)])
      (lk : Linkage) (hm : Mid (opCode o) w.sh.link lk) (e : Peers.Event) (r : Registry) (hr : Mid (registryCode lib e) w.sh.reg r) :
      Killed lib w (w.calls ++ [o]) lk r.db

/-- the two databases on disk -/
structure Disk where
  store : Chains.DB
  peers : Peers.DB

/-- the registry after the start, forkdetector.go:54-67 -/
def Disk.registry (d : Disk) (cfg : Config) (fs : Nat → Fate) (seeds : List (Option AddrPort)) : Registry :=
  (AppendAddresses fs (NewRegistry cfg d.peers) seeds).1

/-- One run of the program on the databases, forkdetector.go:54-109, and the calls on the store that were begun.  The configuration may
be a different one each time, except for the genesis block.  Either the program does not get beyond the start (it is killed,
a write fails, or it panics), or it runs for a while and ends somehow.  When the whole machine stops, either database may lose
the last of its batches, since none is forced to the disk (chains/storage.go and peers/storage.go write with nil options): each is
then found as it was at some earlier moment of this run.  That a batch is lost or kept as a whole, and that opening a database
makes what it holds durable, is trusted of goleveldb. -/
inductive OneRun (lib : Lib) (g : ProtoBlock) (d : Disk) : List Op → Disk → Prop where
  | noStart (cfg : Config) (fs : Nat → Fate) (seeds : List (Option AddrPort)) (f : Fate) :
      OneRun lib g d [] ⟨(NewLinkage f d.store g).1, (d.registry cfg fs seeds).db⟩
  | run (cfg : Config) (fs : Nat → Fate) (seeds : List (Option AddrPort)) (f : Fate) (lk : Linkage)
      (ho : (NewLinkage f d.store g).2 = .ok lk) (hs : LogInitialStats lk.db = .ok ()) (w : World)
      (r : Run lib (World.start (d.registry cfg fs seeds) lk) w) (calls : List Op) (lk' : Linkage) (db' : Peers.DB)
      (k : Killed lib w calls lk' db') : OneRun lib g d calls ⟨lk'.db, db'⟩
  | machine (cfg : Config) (fs : Nat → Fate) (seeds : List (Option AddrPort)) (f : Fate) (lk : Linkage)
      (ho : (NewLinkage f d.store g).2 = .ok lk) (hs : LogInitialStats lk.db = .ok ()) (w v : World)
      (r : Run lib (World.start (d.registry cfg fs seeds) lk) w) (r' : Run lib (World.start (d.registry cfg fs seeds) lk) v)
      (calls calls' : List Op) (lk' lk'' : Linkage) (db' db'' : Peers.DB)
      (k : Killed lib w calls lk' db') (k' : Killed lib v calls' lk'' db'') : OneRun lib g d calls ⟨lk'.db, db''⟩

/-- any number of runs, with the calls of each -/
inductive Lives (lib : Lib) (g : ProtoBlock) (d : Disk) : List (List Op) → Disk → Prop where
  | nil : Lives lib g d [] d
  | snoc {cs : List (List Op)} {c : List Op} {d1 d2 : Disk} (h : Lives lib g d cs d1) (t : OneRun lib g d1 c d2) :
      Lives lib g d (cs ++ [c]) d2

/-- The second call is the first one, cut short: the writes that it did not come to are failed writes. -/
inductive Cut : Op → Op → Prop where
  | whole (o : Op) : Cut o o
  | block (b : ProtoBlock) (a : Chains.Addr) (f1 f2 : Fate) : Cut (.putBlock b a f1 f2) (.putBlock b a .fail .fail)
  | blockLeash (b : ProtoBlock) (a : Chains.Addr) (f1 f2 : Fate) : Cut (.putBlock b a f1 f2) (.putBlock b a f1 .fail)
  | micro (inv : Chains.MicroInv) (a : Chains.Addr) (f1 f2 : Fate) : Cut (.putMicro inv a f1 f2) (.putMicro inv a .fail .fail)
  | microLeash (inv : Chains.MicroInv) (a : Chains.Addr) (f1 f2 : Fate) : Cut (.putMicro inv a f1 f2) (.putMicro inv a f1 .fail)
  | move (i : Chains.BlockID) (a : Chains.Addr) (f : Fate) : Cut (.moveLeash i a f) (.moveLeash i a .fail)

/-- the fates of the writes before `n`, and failure after -/
def cut (fs : Nat → Fate) (n : Nat) : Nat → Fate := fun i => if i < n then fs i else .fail

/-- The second call on the registry is the first one, cut short: from some write on, the writes of `AppendAddresses` are failed writes. -/
inductive CutEvent : Peers.Event → Peers.Event → Prop where
  | whole (e : Peers.Event) : CutEvent e e
  | append (now : Int) (fs : Nat → Fate) (l : List (Option AddrPort)) (n : Nat) : CutEvent ⟨now, .append fs l⟩ ⟨now, .append (cut fs n) l⟩

/-- A run with the calls on the registry that change it, in their order.  Only goroutines other than the loader make such calls. -/
inductive Asked (lib : Lib) (w : World) : List Peers.Event → World → Prop where
  | nil : Asked lib w [] w
  | quiet {es : List Peers.Event} {v v' : World} (h : Asked lib w es v) (t : Step lib v v') (hr : v'.sh.reg = v.sh.reg) :
      Asked lib w es v'
  | registry {es : List Peers.Event} {v : World} (h : Asked lib w es v) (e : Peers.Event) :
      Asked lib w (es ++ [e]) { v with sh := (Loading.Fine.Other.registry e).effect lib v.sh, log := v.log ++ [] }

/-- the same calls, the last of which may be cut short -/
inductive Almost (calls : List Op) : List Op → Prop where
  | whole : Almost calls calls
  | last (pre : List Op) (o o' : Op) (h : calls = pre ++ [o]) (hc : Cut o o') : Almost calls (pre ++ [o'])

/-- the same for every run -/
inductive Each : List (List Op) → List (List Op) → Prop where
  | nil : Each [] []
  | snoc {cs os : List (List Op)} {c o : List Op} (h : Each cs os) (t : Almost c o) : Each (cs ++ [c]) (os ++ [o])

/-- opening the store gives `lk` -/
def Opens (g : ProtoBlock) (d : Disk) (lk : Linkage) : Prop := NewLinkage .ok d.store g = (lk.db, .ok lk)

/-! ### a call that is cut short -/

theorem mid_unlock {σ ρ : Type} {r : ρ} {s s' : σ} {o : LockOp} (h : Mid (.op o (.ret r)) s s') : s' = s := by
  cases h with
  | here => rfl
  | op _ h => cases h; rfl

theorem mid_write {ρ : Type} {f : Fate} {b : Chains.Batch} {k : Go Unit → Code Linkage ρ} {l l' : Linkage} (h : Mid (writeCode f b k) l l') :
    l' = l ∨ Mid (k (KV.write f l.db b).2) { l with db := (KV.write f l.db b).1 } l' := by
  cases h with
  | here => exact Or.inl rfl
  | act _ _ h => exact Or.inr h

theorem mid_act_id {σ ρ : Type} {k : σ → Code σ ρ} {s s' : σ} (h : Mid (.act id k) s s') : s' = s ∨ Mid (k s) s s' := by
  cases h with
  | here => exact Or.inl rfl
  | act _ _ h => exact Or.inr h

theorem mid_op {σ ρ : Type} {o : LockOp} {k : Code σ ρ} {s s' : σ} (h : Mid (.op o k) s s') : s' = s ∨ Mid k s s' := by
  cases h with
  | here => exact Or.inl rfl
  | op _ h => exact Or.inr h

end Verif.Services
