import Verif.Peers.Versions
/-
Concrete registries for the examples beside the theorems.
-/

set_option autoImplicit false

namespace Verif.Peers.Ex

open Verif
open Verif.Chains (Addr BytesN)
open Verif.KV (Fate)

/-- `CmpMinor`: 0 or 1 for the same major and neighbouring minor versions, 2 otherwise; ASCII
upper case -/
def lib : Lib where
  cmpMinor a b :=
    if a.major ≠ b.major then 2
    else if a.minor = b.minor then 0
    else if a.minor.toNat + 1 = b.minor.toNat ∨ b.minor.toNat + 1 = a.minor.toNat then 1 else 2
  upper := List.map (fun c => if 97 ≤ c ∧ c ≤ 122 then c - 32 else c)

def ip (a b c d : UInt8) : Addr := .v4 ⟨[a, b, c, d], rfl⟩

def v15 : Version := ⟨1, 5, 0⟩
def v14 : Version := ⟨1, 4, 0⟩

/-- the network is `W` (87), our own address is 10.0.0.1 -/
def cfg : Config := { scheme := 87, declared := ip 10 0 0 1, versions := [⟨1, 4, 18⟩, ⟨1, 5, 4⟩] }

/-- a handshake of a `wavesW` node called `n` -/
def hs (n : UInt8) : Handshake :=
  { appName := [119, 97, 118, 101, 115, 87], version := v15, nodeName := [n], nonce := 7, declared := .empty }

def conn (n : UInt8) : Conn := ⟨n.toNat, hs n⟩

def at_ (s : Int) (op : Op) : Event := ⟨s * second, op⟩

def ok : Nat → Fate := fun _ => .ok

/-- the registry after a history starting from an empty database -/
def run (es : List Event) : Registry := exec lib (NewRegistry cfg []) es

theorem reach (es : List Event) : Reachable lib (run es) := ⟨cfg, es, rfl⟩

/-- three addresses are learnt -/
def seeds : Event := at_ 0 (.append ok [some ⟨ip 1 1 1 1, 6868⟩, some ⟨ip 2 2 2 2, 6868⟩, some ⟨ip 127 0 0 1, 6868⟩])

end Verif.Peers.Ex
