import Verif.Services.Endless
import Verif.Services.Moves
import Verif.Loading.HonestTrue
/-
Vocabulary of property C112: an execution without end in which the network is calm, that is, all connected peers are honest and stay connected, and none of
them gets further blocks.
-/

set_option autoImplicit false

namespace Verif.Services.Fine

open Verif
open Verif.Chains (Addr BlockID ProtoBlock LeashOf)
open Verif.Chains.Spec (Stored Truth)
open Verif.Loading (TrueHistory Announced Sent worth base)
open Verif.Loading.Fine (NotBehind)
open Verif.Peers (Lib)

/-- the score of a history that begins with the genesis block -/
def top (g : ProtoBlock) (ch : List ProtoBlock) : Nat := worth (base g) ch (ch.length - 1)

/-- What is asked of the peers `P`, with the histories `hist`, of the scheduler and of the databases.

The peers in `P` are the connected ones, and each has announced the score of its history.  At the beginning the position of each peer is a block of its history (the
genesis block, if nothing is known of it).  Between synchronisations with it, a peer sends no block that is off its history or before its position.  During a synchronisation with
it, it answers honestly and in time, it answers everything, and the store works when its blocks arrive.

The loader can read.  The timer fires again and again, and no goroutine is forgotten for ever. -/
structure Calm (lib : Lib) (T : Truth) (g : ProtoBlock) (P : List Addr) (hist : Addr → List ProtoBlock) (run : Nat → Sys) (ev : Nat → Ev) : Prop where
  history : ∀ a, a ∈ P → TrueHistory T g (hist a)
  connected : ∀ n a, a ∈ P ↔ ∃ cn, (a, cn) ∈ (run n).world.sh.reg.connections
  announced : ∀ n a, a ∈ P → Announced (run n).world.sh.reg a (top g (hist a))
  placed : ∀ a, a ∈ P → ∃ b, b ∈ hist a ∧ LeashOf (run 0).world.sh.link a = .ok b.id
  forth : ∀ n a a' id, a ∈ P → ¬ (run n).Loads a → (ev n).about = some (a', id) → a.plain = a'.plain → NotBehind a (hist a) (run n).world.sh id
  patient : ∀ n a, a ∈ P → (run n).world.own.active = true → (run n).world.own.peerID = a → Patient a (top g (hist a)) (hist a) (run n) (ev n)
  undamaged : ∀ n a, a ∈ P → (run n).world.own.active = true → (run n).world.own.peerID = a → Undamaged a [ev n]
  answers : ∀ n m, (run n).world.own.active = false → (run (n + 1)).world.own.active = true → Opens (run (n + 1)) m →
    Responsive lib (run (n + 1)).world.own.peerID m (fun k => run (n + 1 + k)) (fun k => ev (n + 1 + k))
  reads : ∀ n D, ev n = .go D → D = .good
  timers : ∀ n, ∃ k, n ≤ k ∧ ∃ c, ev k = .timer c
  goes : ∀ n, (run n).world.todo ≠ none → ∃ k, n ≤ k ∧ ∃ D, ev k = .go D
  takes : ∀ n p, (run n).dist = .sending p → ∃ k, n ≤ k ∧ ∃ c, ev k = .take c

/-- all blocks of the history are stored, and the position of the peer is the last one -/
def UpToDate (a : Addr) (ch : List ProtoBlock) (x : Sys) : Prop :=
  (∀ b, b ∈ ch → Stored x.world.sh.link.db b.id) ∧ ∃ b, ch.getLast? = some b ∧ LeashOf x.world.sh.link a = .ok b.id

end Verif.Services.Fine
