import Verif.Services.Traffic
import Verif.Services.SideBill
import Verif.Services.FaultyEx
import Verif.Props.BillSide
/-
Property C135: the program sends and closes nothing without a cause.
-/

set_option autoImplicit false

namespace Verif.Services.Fine

open Verif
open Verif.Chains (Linkage)
open Verif.Peers (Lib Config AddrPort Conn)
open Verif.Loading.Fine (Answer)
open Verif.KV (Fate)

variable {lib : Lib} {D : Loading.Fine.Disk} {cfg : Config} {pdb : Peers.DB} {fs : Nat → Fate}
  {seeds : List (Option AddrPort)} {lk : Linkage} {listener : Bool} {es es' : List Ev} {tr tr' : List Answer} {v x : Sys}

/-- Whatever peers say and whatever fails: since any moment `v` every list of peers was sent to a connection that had asked for it since, and every
connection that was closed had come up or broken since; each for a message or a notice of its own, and in their order. -/
theorem C135_causes (h0 : Path lib (Sys.start D cfg pdb fs seeds lk listener) es tr v) (h : Path lib v es' tr' x) :
    ∃ more, x.out = v.out ++ more ∧ (acts more).Sublist (causes es') := by
  obtain ⟨more, e, h1, _⟩ := (caused (caused (Caused.start D cfg pdb fs seeds lk listener) h0).since h).grown
  exact ⟨more, e, h1⟩

/-- Pings go to connections that have come up, and since any moment `v` there were not more of them than ping times since, multiplied by
the number of connections that have come up. -/
theorem C135_pings (h0 : Path lib (Sys.start D cfg pdb fs seeds lk listener) es tr v) (h : Path lib v es' tr' x) :
    ∃ more, x.out = v.out ++ more ∧ (∀ c, c ∈ pings more → c ∈ joins (es ++ es')) ∧
      (pings more).length ≤ pingTimes es' * (joins (es ++ es')).length := by
  obtain ⟨more, e, _, h2, h3⟩ := (caused (caused (Caused.start D cfg pdb fs seeds lk listener) h0).since h).grown
  exact ⟨more, e, h2, h3⟩

/-- The loader writes to connections that have come up only: it takes them from the registry, which has no others. -/
theorem C135_whom (h : Path lib (Sys.start D cfg pdb fs seeds lk listener) es tr x) : ∀ m, m ∈ x.world.own.out → m.to ∈ joins es :=
  (Aims.path (J := fun c => c ∈ joins es) (Caused.start D cfg pdb fs seeds lk listener)
    ⟨⟨(fun _ hm => by cases hm), (fun _ hc => by cases hc)⟩, (fun _ hp => by cases hp)⟩ h (fun _ hc => hc)).own.out

/-- All that the distributor and the loader have ever sent or closed is bounded by what was said to the program and by the timers. -/
theorem C135_total (h : Path lib (Sys.start D cfg pdb fs seeds lk listener) es tr x) :
    x.out.length + x.world.own.out.length ≤
      (causes es).length + pingTimes es * (joins es).length + ((says es).map Pkg.due).sum + fired es := by
  obtain ⟨more, e, h1, _, h3⟩ := (caused (Caused.start D cfg pdb fs seeds lk listener) h).grown
  have e' : x.out = more := e
  subst e'
  have := out_split x.out
  have := h1.length_le
  have := (C134_program h).1
  rw [List.nil_append] at h3
  omega

/-- As long as no connection comes up or breaks and nobody says anything, no message is sent by the distributor, no connection is closed, and the
loader sends nothing, however often the timers fire. -/
theorem C135_quiet (h : Path lib (Sys.start D cfg pdb fs seeds lk listener) es tr x)
    (hq : ∀ D c p, .connected D c p ∉ es ∧ .broken D c p ∉ es ∧ ∀ m, .message D c p m ∉ es) :
    x.out = [] ∧ x.world.own.out = [] := by
  have h1 : causes es = [] := by
    refine List.filterMap_eq_nil_iff.mpr (fun e he => ?_)
    cases e with
    | connected D c p => exact absurd he (hq D c p).1
    | broken D c p => exact absurd he (hq D c p).2.1
    | message D c p m => exact absurd he ((hq D c p).2.2 m)
    | _ => rfl
  have h2 : joins es = [] := by
    refine List.filterMap_eq_nil_iff.mpr (fun e he => ?_)
    cases e with
    | connected D c p => exact absurd he (hq D c p).1
    | _ => rfl
  obtain ⟨more, e, c1, _, c3⟩ := (caused (Caused.start D cfg pdb fs seeds lk listener) h).grown
  have e' : x.out = more := e
  subst e'
  rw [h1] at c1
  rw [List.nil_append, h2] at c3
  have k := out_split x.out
  have k1 := c1.length_le
  refine ⟨List.eq_nil_of_length_eq_zero ?_, List.eq_nil_iff_forall_not_mem.mpr (fun m hm => ?_)⟩
  · rw [List.length_nil, Nat.mul_zero] at *; omega
  · have := C135_whom h m hm
    rw [h2] at this
    cases this

/-! ### a concrete execution -/

open Loading.Ex in
open Verif.Services.Ex (p2) in
/-- a peer connects, asks for peers, is pinged twice, and its connection breaks -/
def Ex.visit : List Ev :=
  Ex.joined ++ [.message .good (ctx 5) p2 .getPeers, .ping (ctx 6), .ping (ctx 7), .broken .good (ctx 8) p2, .ping (ctx 9)]

open Verif.Services.Ex (p2) in
/-- It gets its list and two pings, and is closed.  The connection came up too, but was not closed for that. -/
example : ∃ tr x, Path Peers.Ex.lib Ex.begin Ex.visit tr x ∧ acts x.out = [.peers p2.conn, .close p2.conn] ∧
    pings x.out = [p2.conn, p2.conn] := by
  have key : (Ex.after Ex.visit).any (fun s => decide (acts s.out = [.peers p2.conn, .close p2.conn] ∧ pings s.out = [p2.conn, p2.conn])) = true := by
    decide +kernel
  cases hs : Ex.after Ex.visit with
  | none => rw [hs] at key; cases key
  | some s =>
    rw [hs] at key
    obtain ⟨tr, ht⟩ := Ex.after_path hs
    exact ⟨tr, s, ht, of_decide_eq_true key⟩

open Verif.Services.Ex (p2) in
/-- what it had cause for -/
example : causes Ex.visit = [.close p2.conn, .peers p2.conn, .close p2.conn] ∧ joins Ex.visit = [p2.conn] ∧ pingTimes Ex.visit = 3 := by
  decide +kernel

open Verif.Services.Ex (p2) in
/-- the loader writes to the peer that came up -/
example : ∃ tr x, Path Peers.Ex.lib Ex.begin Ex.asking tr x ∧ x.world.own.out.map (·.to) = [p2.conn, p2.conn] ∧ joins Ex.asking = [p2.conn] := by
  have key : (Ex.after Ex.asking).any (fun s => decide (s.world.own.out.map (·.to) = [p2.conn, p2.conn])) = true := by decide +kernel
  cases hs : Ex.after Ex.asking with
  | none => rw [hs] at key; cases key
  | some s =>
    rw [hs] at key
    obtain ⟨tr, ht⟩ := Ex.after_path hs
    exact ⟨tr, s, ht, of_decide_eq_true key, by decide +kernel⟩

/-- A quiet program: it takes addresses to dial, suggests a version, and a dial fails. -/
example : (Ex.after [.respawn .good Peers.second false, .giveUp Ex.noPeers .ok (2 * Peers.second) Loading.Ex.peer, .ping (Loading.Ex.ctx 9)]).map
    (fun s => (s.dialled.length, s.out)) = some (1, []) := by
  decide +kernel

end Verif.Services.Fine
