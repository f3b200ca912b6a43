import Verif.Services.Settled
/-
Vocabulary of property C110: executions that do not end, in which the goroutines and the peer do their part sooner or later.
-/

set_option autoImplicit false

namespace Verif.Services.Fine

open Verif
open Verif.Chains (Addr ProtoBlock)
open Verif.Loading (Sent)
open Verif.Peers (Lib)

/-- an execution without end: the event `ev n` leads from `run n` to `run (n + 1)`, and none of them ends the program -/
def Endless (lib : Lib) (run : Nat → Sys) (ev : Nat → Ev) : Prop := ∀ n, (run n).step lib (ev n) = some (.ok (run (n + 1)))

/-- the first `n` events -/
def upto (ev : Nat → Ev) (n : Nat) : List Ev := (List.range n).map ev

/-- the `k` events from the event `n` on -/
def since (ev : Nat → Ev) (n k : Nat) : List Ev := (List.range k).map (fun i => ev (n + i))

/-- up to the moment `n` the synchronisation has not ended -/
def During (run : Nat → Sys) (n : Nat) : Prop := ∀ i, i ≤ n → (run i).world.own.active = true

/-- before the moment `n` the synchronisation has not ended -/
def NotYet (run : Nat → Sys) (n : Nat) : Prop := ∀ i, i < n → (run i).world.own.active = true

/-- While the synchronisation lasts, the scheduler forgets neither the loader nor the distributor: when the loader handles an event, it goes on at some time
(any time, and with any other events before), and when the distributor waits to pass something on, something is taken at some time. -/
structure Diligent (run : Nat → Sys) (ev : Nat → Ev) : Prop where
  goes : ∀ n, During run n → (run n).world.todo ≠ none → ∃ k, n ≤ k ∧ ∃ D, ev k = .go D
  takes : ∀ n p, During run n → (run n).dist = .sending p → ∃ k, n ≤ k ∧ ∃ c, ev k = .take c

/-- While the synchronisation lasts, the peer answers everything that it is asked for on the connection, at some time: the first request `m` and
all that follow. -/
structure Responsive (lib : Lib) (peer : Addr) (m : Sent) (run : Nat → Sys) (ev : Nat → Ev) : Prop where
  first : ∃ k, Answered peer m (talk lib (run 0) (since ev 0 k))
  later : ∀ n m', During run n → .said m' ∈ (run n).words (ev n) (run (n + 1)) → m'.to = m.to →
    ∃ k, Answered peer m' (talk lib (run (n + 1)) (since ev (n + 1) k))

end Verif.Services.Fine
