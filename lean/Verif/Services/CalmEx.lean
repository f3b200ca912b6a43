import Verif.Services.Calm
import Verif.Services.EndlessEx
/-
A concrete execution without end for properties C112 and C113: two peers on different forks are synchronised, and then the timer fires again and again.
-/

set_option autoImplicit false

namespace Verif.Services.Fine

open Verif
open Verif.Chains (Addr ProtoBlock LeashOf)
open Verif.Peers (Lib Peer)
open Verif.Loading (Ctx)
open Verif.Loading.Fine (Call Own Proc sync)

/-- the loader gets an answer -/
theorem go_call {lib : Lib} {x : Sys} {c : Call} {k : c.Res → Proc (Go Own)} {p : Proc (Go Own)} (h : x.world.todo = some (.call c k)) (hc : c.op = none)
    (hr : k (c.resRd .good lib x.world.sh) = p) (hp : ∀ e, p ≠ .ret (.error e)) :
    x.go lib .good = some (.ok { x with world := { x.world with todo := some p } }) := by
  have he : c.effectRd .good x.world.sh = x.world.sh := by unfold Loading.Fine.Call.effectRd; rw [hc]
  unfold Sys.go
  simp only [h, hr, he, hc, Option.map_none, Option.toList_none, List.append_nil]

/-- a synchronisation with two connected peers that do not lag -/
theorem quiet_sync (c : Ctx) {o : Own} {p q : Peer} {a b : Addr} {s t : Nat} (ho : o.active = false) (ha : p.addr = a) (hs : p.score = some s)
    (hb : q.addr = b) (ht : q.score = some t) :
    ∃ (K : (Call.connections c.env).Res → Proc (Go Own)) (K2 : (Call.leashScore a).Res → Proc (Go Own)) (K3 : Nat → (Call.leashScore b).Res → Proc (Go Own)),
      sync c o = .call (.connections c.env) K ∧ K (.ok [p, q] : Go (List Peer)) = .call (.leashScore a) K2 ∧
      (∀ sc, K2 (.ok sc : Go Nat) = .call (.leashScore b) (K3 sc)) ∧ ∀ sc sd, s ≤ sc → t ≤ sd → K3 sc (.ok sd : Go Nat) = .ret (.ok o) := by
  subst ha hb
  refine ⟨_, _, _, by unfold sync; rw [ho]; rfl, by simp only [Loading.Fine.lagLoop, hs]; rfl, fun sc => by simp only [Loading.Fine.lagLoop, ht]; rfl, fun sc sd h h' => ?_⟩
  have h1 : ¬ s > sc := by omega
  have h2 : ¬ t > sd := by omega
  simp only [Proc.bind, if_neg h1, if_neg h2, if_true]

namespace Ex

open Verif.Chains (BlockID)
open Verif.Chains.Ex (bid blk g0 l0)
open Verif.Chains.Spec (Truth)
open Verif.Peers (second)
open Verif.Loading (History TrueHistory base worth)
open Verif.Loading.Ex (ctx peer peer3)
open Verif.Services.Ex (p2 p3)

/-- what the ids stand for: two branches on top of block 1 -/
def truth2 : Truth := fun id =>
  if id = bid 1 then blk 1 0
  else if id = bid 2 then blk 2 1
  else if id = bid 4 then blk 4 1
  else if id = bid 5 then blk 5 4
  else { g0 with id := id }

/-- the histories of the peers 10.0.0.2 and 10.0.0.3 -/
def chain2 : List ProtoBlock := [g0, blk 1 0, blk 2 1]
def chain3 : List ProtoBlock := [g0, blk 1 0, blk 4 1, blk 5 4]

def hists (a : Addr) : List ProtoBlock := if a = peer then chain2 else chain3

theorem hists2 : hists peer = chain2 := by decide +kernel
theorem hists3 : hists peer3 = chain3 := by decide +kernel

theorem chain2_true : TrueHistory truth2 g0 chain2 where
  history := {
    linked := by
      intro i a b ha hb
      match i with
      | 0 => cases ha; cases hb; rfl
      | 1 => cases ha; cases hb; rfl
      | k + 2 => cases hb
    ids := by decide +kernel
    sound := by
      intro i b hb
      match i with
      | 0 => cases hb; decide +kernel
      | 1 => cases hb; decide +kernel
      | k + 2 => cases hb }
  first := rfl
  real := by
    intro b hb
    simp only [chain2, List.mem_cons, List.not_mem_nil, or_false] at hb
    rcases hb with rfl | rfl | rfl <;> decide +kernel

theorem chain3_true : TrueHistory truth2 g0 chain3 where
  history := {
    linked := by
      intro i a b ha hb
      match i with
      | 0 => cases ha; cases hb; rfl
      | 1 => cases ha; cases hb; rfl
      | 2 => cases ha; cases hb; rfl
      | k + 3 => cases hb
    ids := by decide +kernel
    sound := by
      intro i b hb
      match i with
      | 0 => cases hb; decide +kernel
      | 1 => cases hb; decide +kernel
      | 2 => cases hb; decide +kernel
      | k + 3 => cases hb }
  first := rfl
  real := by
    intro b hb
    simp only [chain3, List.mem_cons, List.not_mem_nil, or_false] at hb
    rcases hb with rfl | rfl | rfl | rfl <;> decide +kernel

/-- the two peers connect and announce the scores of their histories -/
def arrived : List Ev :=
  [.suggest .good .ok (1 * second) peer, .connected .good (ctx 2) p2, .suggest .good .ok (3 * second) peer3, .connected .good (ctx 4) p3,
   .message .good (ctx 50) p2 (.score [0x07, 0xae, 0x14, 0x7a, 0xe1, 0x47, 0xae, 0x14]),
   .message .good (ctx 51) p3 (.score [0x0a, 0x3d, 0x70, 0xa3, 0xd7, 0x0a, 0x3d, 0x70])]

/-- One synchronisation after the other.  In the middle of the first one the other peer sends its block 1. -/
def week : List Ev :=
  [.timer (ctx 100)] ++ go 6 ++
  [.message .good (ctx 101) p2 (.blockIds [bid 0, bid 1, bid 2]), .take (ctx 102)] ++ go 3 ++ [.message .good (ctx 103) p3 (.block (some (blk 1 0)))] ++ go 1 ++
  [.take (ctx 104)] ++ go 1 ++ [.message .good (ctx 105) p2 (.block (some (blk 2 1))), .take (ctx 106)] ++ go 1 ++
  [.message .good (ctx 107) p2 (.block (some (blk 1 0))), .take (ctx 108)] ++ go 5 ++
  [.timer (ctx 130)] ++ go 6 ++
  [.message .good (ctx 131) p3 (.blockIds [bid 1, bid 4, bid 5]), .take (ctx 132)] ++ go 4 ++
  [.message .good (ctx 133) p3 (.block (some (blk 5 4))), .take (ctx 134)] ++ go 1 ++
  [.message .good (ctx 135) p3 (.pbBlock (some (blk 4 1))), .take (ctx 136)] ++ go 5

/-- then the timer fires again and again -/
def calmEv (n : Nat) : Ev := week[n]?.getD (if (n - 49) % 5 = 0 then .timer (ctx 200) else .go .good)

def calmRun : Nat → Sys
  | 0 => at' arrived
  | n + 1 =>
    match (calmRun n).step Peers.Ex.lib (calmEv n) with
    | some (.ok y) => y
    | _ => calmRun n

theorem week_length : week.length = 49 := rfl

theorem week_possible : ∀ n, n < 49 → (after (arrived ++ week.take (n + 1))).isSome = true := by decide +kernel

theorem calm_step {n : Nat} (hn : n < 49) (h : calmRun n = at' (arrived ++ week.take n)) :
    (calmRun n).step Peers.Ex.lib (calmEv n) = some (.ok (at' (arrived ++ week.take (n + 1)))) := by
  have h2 : ∀ n, n < 49 → week[n]?.isSome = true := by decide +kernel
  obtain ⟨e, he⟩ := Option.isSome_iff_exists.mp (h2 n hn)
  have hev : calmEv n = e := by simp [calmEv, he]
  have htk : week.take (n + 1) = week.take n ++ [e] := by rw [List.take_add_one, he]; rfl
  have h1 := week_possible n hn
  rw [htk, ← List.append_assoc] at h1 ⊢
  rw [h, hev]
  exact at_snoc (arrived ++ week.take n) e h1

theorem calm_at : ∀ n, n ≤ 49 → calmRun n = at' (arrived ++ week.take n)
  | 0, _ => by rw [List.take_zero, List.append_nil]; rfl
  | n + 1, hn => by
    have := calm_step (n := n) (by omega) (calm_at n (by omega))
    simp only [calmRun, this]

/-- the state after the synchronisations -/
abbrev done : Sys := at' (arrived ++ week)

/-- what stays as it is from then on -/
structure Quiet (x : Sys) : Prop where
  sh : x.world.sh = done.world.sh
  own : x.world.own = done.world.own
  log : x.world.log = done.world.log
  dist : x.dist = .ready
  main : x.main ≠ .exited
  up : x.loaderUp = true

def score2 : Nat := top g0 chain2
def score3 : Nat := top g0 chain3

/-- what the loader has to do, `i` events after the timer fired -/
def Doing (x : Sys) : Nat → Prop
  | 0 => x.world.todo = none
  | 1 => x.world.todo = some (sync (ctx 200) done.world.own)
  | 2 => ∃ (K2 : (Call.leashScore peer).Res → Proc (Go Own)) (K3 : Nat → (Call.leashScore peer3).Res → Proc (Go Own)), x.world.todo = some (.call (.leashScore peer) K2) ∧
      (∀ sc, K2 (.ok sc : Go Nat) = .call (.leashScore peer3) (K3 sc)) ∧ ∀ sc sd, score2 ≤ sc → score3 ≤ sd → K3 sc (.ok sd : Go Nat) = .ret (.ok done.world.own)
  | 3 => ∃ K3 : (Call.leashScore peer3).Res → Proc (Go Own), x.world.todo = some (.call (.leashScore peer3) K3) ∧
      ∀ sd, score3 ≤ sd → K3 (.ok sd : Go Nat) = .ret (.ok done.world.own)
  | _ => x.world.todo = some (.ret (.ok done.world.own))

theorem done_reads : (match Peers.Rd.Connections Loading.Fine.Disk.good.peers Peers.Ex.lib (ctx 200).env done.world.sh.reg with
    | .ok [p, q] => p.addr == peer && p.score == some score2 && (q.addr == peer3 && q.score == some score3)
    | _ => false) = true := by decide +kernel

theorem done_score : Chains.Rd.LeashScore Loading.Fine.Disk.good.chains done.world.sh.link peer = .ok score2 := by decide +kernel

theorem done_score3 : Chains.Rd.LeashScore Loading.Fine.Disk.good.chains done.world.sh.link peer3 = .ok score3 := by decide +kernel

theorem done_idle : done.world.own.active = false := by decide +kernel

theorem quiet_step {x : Sys} {i : Nat} (h : Quiet x) (hd : Doing x (i % 5)) :
    ∃ y, x.step Peers.Ex.lib (if i % 5 = 0 then .timer (ctx 200) else .go .good) = some (.ok y) ∧ Quiet y ∧ Doing y ((i + 1) % 5) := by
  have hm := h.main
  obtain ⟨p, q, hp, ⟨hpa, hps⟩, hqa, hqs⟩ : ∃ p q, Peers.Rd.Connections Loading.Fine.Disk.good.peers Peers.Ex.lib (ctx 200).env done.world.sh.reg = .ok [p, q] ∧
      (p.addr = peer ∧ p.score = some score2) ∧ q.addr = peer3 ∧ q.score = some score3 := by
    have := done_reads
    split at this
    · rename_i p q hp
      simp only [Bool.and_eq_true, beq_iff_eq] at this
      exact ⟨p, q, hp, this⟩
    · cases this
  obtain ⟨K, K2, K3, k1, k2, k3, k4⟩ := quiet_sync (ctx 200) done_idle hpa hps hqa hqs
  obtain h0 | h0 | h0 | h0 | h0 : i % 5 = 0 ∨ i % 5 = 1 ∨ i % 5 = 2 ∨ i % 5 = 3 ∨ i % 5 = 4 := by omega
  · have h1 : (i + 1) % 5 = 1 := by omega
    rw [h0] at hd
    rw [h0, if_pos rfl, h1]
    have hw : x.waits = true := by
      have : x.world.todo = none := hd
      simp [Sys.waits, this, h.up]
    refine ⟨{ x with world := x.world.receive (ctx 200) .timer }, ?_, ⟨h.sh, h.own, h.log, h.dist, hm, h.up⟩, ?_⟩
    · simp only [Sys.step, if_neg hm, guarded, hw, if_true]
    · show some (sync (ctx 200) x.world.own) = _
      rw [h.own]
  · have h1 : (i + 1) % 5 = 2 := by omega
    rw [h0] at hd
    rw [h0, if_neg (by decide), h1]
    have ht : x.world.todo = some (.call (.connections (ctx 200).env) K) := by rw [← k1]; exact hd
    have hr : K ((Call.connections (ctx 200).env).resRd .good Peers.Ex.lib x.world.sh) = .call (.leashScore peer) K2 := by
      rw [← k2, h.sh]
      exact congrArg K hp
    refine ⟨{ x with world := { x.world with todo := some (.call (.leashScore peer) K2) } }, ?_, ⟨h.sh, h.own, h.log, h.dist, hm, h.up⟩, ⟨K2, K3, rfl, k3, k4⟩⟩
    simp only [Sys.step, if_neg hm]
    exact go_call ht rfl hr (fun e he => by cases he)
  · have h1 : (i + 1) % 5 = 3 := by omega
    rw [h0] at hd
    rw [h0, if_neg (by decide), h1]
    obtain ⟨K2, K3, ht, hK, hK3⟩ := hd
    have hr : K2 ((Call.leashScore peer).resRd .good Peers.Ex.lib x.world.sh) = .call (.leashScore peer3) (K3 score2) := by
      rw [← hK score2, h.sh]
      exact congrArg K2 done_score
    refine ⟨{ x with world := { x.world with todo := some (.call (.leashScore peer3) (K3 score2)) } }, ?_, ⟨h.sh, h.own, h.log, h.dist, hm, h.up⟩,
      ⟨K3 score2, rfl, fun sd hsd => hK3 _ sd (Nat.le_refl _) hsd⟩⟩
    simp only [Sys.step, if_neg hm]
    exact go_call ht rfl hr (fun e he => by cases he)
  · have h1 : (i + 1) % 5 = 4 := by omega
    rw [h0] at hd
    rw [h0, if_neg (by decide), h1]
    obtain ⟨K3, ht, hK⟩ := hd
    have hr : K3 ((Call.leashScore peer3).resRd .good Peers.Ex.lib x.world.sh) = .ret (.ok done.world.own) := by
      rw [← hK score3 (Nat.le_refl _), h.sh]
      exact congrArg K3 done_score3
    refine ⟨{ x with world := { x.world with todo := some (.ret (.ok done.world.own)) } }, ?_, ⟨h.sh, h.own, h.log, h.dist, hm, h.up⟩, rfl⟩
    simp only [Sys.step, if_neg hm]
    exact go_call ht rfl hr (fun e he => by cases he)
  · have h1 : (i + 1) % 5 = 0 := by omega
    rw [h0] at hd
    rw [h0, if_neg (by decide), h1]
    have ht : x.world.todo = some (.ret (.ok done.world.own)) := hd
    refine ⟨{ x with world := { x.world with own := done.world.own, todo := none } }, ?_, ⟨h.sh, rfl, h.log, h.dist, hm, h.up⟩, rfl⟩
    simp only [Sys.step, if_neg hm, Sys.go, ht]

theorem calmEv_late (k : Nat) : calmEv (49 + k) = if k % 5 = 0 then .timer (ctx 200) else .go .good := by
  unfold calmEv
  rw [List.getElem?_eq_none (by rw [week_length]; omega), show 49 + k - 49 = k by omega]
  rfl

theorem calm_done : calmRun 49 = done := by rw [calm_at 49 (Nat.le_refl _)]; rfl

theorem calm_late : ∀ k, Quiet (calmRun (49 + k)) ∧ Doing (calmRun (49 + k)) (k % 5)
  | 0 => by
    rw [Nat.add_zero, calm_done]
    have : done.world.todo.isNone = true := by decide +kernel
    exact ⟨⟨rfl, rfl, rfl, by decide +kernel, by decide +kernel, by decide +kernel⟩, Option.isNone_iff_eq_none.mp this⟩
  | k + 1 => by
    obtain ⟨h1, h2⟩ := calm_late k
    obtain ⟨y, h3, h4⟩ := quiet_step h1 h2
    have : calmRun (49 + (k + 1)) = y := by
      rw [← calmEv_late] at h3
      show (match (calmRun (49 + k)).step Peers.Ex.lib (calmEv (49 + k)) with
        | some (.ok y) => y
        | _ => calmRun (49 + k)) = y
      rw [h3]
    rw [this]
    exact h4

theorem calm_endless : Endless Peers.Ex.lib calmRun calmEv := by
  intro n
  by_cases hn : n < 49
  · rw [calm_step hn (calm_at n (by omega)), calm_at (n + 1) (by omega)]
  · obtain ⟨k, rfl⟩ : ∃ k, n = 49 + k := ⟨n - 49, by omega⟩
    obtain ⟨h1, h2⟩ := calm_late k
    obtain ⟨y, h3, h4⟩ := quiet_step h1 h2
    rw [← calmEv_late] at h3
    have : calmRun (49 + k + 1) = y := by
      show (match (calmRun (49 + k)).step Peers.Ex.lib (calmEv (49 + k)) with
        | some (.ok y) => y
        | _ => calmRun (49 + k)) = y
      rw [h3]
    rw [h3, this]

/-! ### the hypotheses of C112 -/

/-- what is true of the store and the registry up to the end of the synchronisations is true for ever -/
theorem calm_always {Q : Loading.Fine.Shared → Prop} (h : ∀ n, n < 50 → Q (at' (arrived ++ week.take n)).world.sh) (n : Nat) : Q (calmRun n).world.sh := by
  by_cases hn : n < 49
  · rw [calm_at n (by omega)]; exact h n (by omega)
  · obtain ⟨k, rfl⟩ : ∃ k, n = 49 + k := ⟨n - 49, by omega⟩
    rw [(calm_late k).1.sh]
    exact h 49 (by decide)

theorem calm_active (n : Nat) : (calmRun n).world.own.active = true ↔ 7 ≤ n ∧ n < 26 ∨ 33 ≤ n ∧ n < 49 := by
  by_cases hn : n < 49
  · have h : ∀ n, n < 49 → ((at' (arrived ++ week.take n)).world.own.active = decide (7 ≤ n ∧ n < 26 ∨ 33 ≤ n ∧ n < 49)) := by decide +kernel
    rw [calm_at n (by omega), h n hn]
    simp
  · obtain ⟨k, rfl⟩ : ∃ k, n = 49 + k := ⟨n - 49, by omega⟩
    rw [(calm_late k).1.own, done_idle]
    constructor
    · intro h; cases h
    · intro h; omega

theorem calm_who {n : Nat} (h : (calmRun n).world.own.active = true) : (calmRun n).world.own.peerID = if n < 26 then peer else peer3 := by
  have hn := (calm_active n).mp h
  have hw : ∀ n, n < 49 → 7 ≤ n ∧ n < 26 ∨ 33 ≤ n ∧ n < 49 → (at' (arrived ++ week.take n)).world.own.peerID = if n < 26 then peer else peer3 := by decide +kernel
  rw [calm_at n (by omega)]
  exact hw n (by omega) hn

theorem calmEv_mem (n : Nat) : calmEv n ∈ week ∨ calmEv n = .timer (ctx 200) ∨ calmEv n = .go .good := by
  unfold calmEv
  cases h : week[n]? with
  | none =>
    right
    show (if _ then _ else _) = _ ∨ (if _ then _ else _) = _
    split
    · exact Or.inl rfl
    · exact Or.inr rfl
  | some e => exact Or.inl (List.mem_of_getElem? h)

/-- what is true of all events of the synchronisations -/
def Fair : Ev → Prop
  | .go D => D = .good
  | .take c => ∃ t, c = ctx t
  | .message D c _ m => D = .good ∧ (∃ t, c = ctx t) ∧ m.Truthful truth2
  | _ => True

theorem go_fair {k : Nat} {e : Ev} (h : e ∈ go k) : Fair e := by
  rw [List.eq_of_mem_replicate h]
  rfl

theorem one_fair {a e : Ev} (ha : Fair a) (h : e ∈ [a]) : Fair e := by rw [List.mem_singleton.mp h]; exact ha

theorem two_fair {a b e : Ev} (ha : Fair a) (hb : Fair b) (h : e ∈ [a, b]) : Fair e := by
  rcases List.mem_cons.mp h with rfl | h
  · exact ha
  · exact one_fair hb h

theorem true1 : truth2 (bid 1) = blk 1 0 := by decide +kernel
theorem true2 : truth2 (bid 2) = blk 2 1 := by decide +kernel
theorem true4 : truth2 (bid 4) = blk 4 1 := by decide +kernel
theorem true5 : truth2 (bid 5) = blk 5 4 := by decide +kernel

theorem both_fair {xs ys : List Ev} (hx : ∀ e, e ∈ xs → Fair e) (hy : ∀ e, e ∈ ys → Fair e) : ∀ e, e ∈ xs ++ ys → Fair e := by
  intro e h
  rcases List.mem_append.mp h with h | h
  · exact hx e h
  · exact hy e h

theorem said_fair {t : Int} {q : Sender} {m : Message} (h : m.Truthful truth2) : Fair (.message .good (ctx t) q m) := ⟨rfl, ⟨t, rfl⟩, h⟩
theorem took_fair (t : Int) : Fair (.take (ctx t)) := ⟨t, rfl⟩
theorem timer_fair (t : Int) : Fair (.timer (ctx t)) := trivial

theorem week_fair : ∀ e, e ∈ week → Fair e := by
  unfold week
  repeat' refine both_fair ?_ ?_
  · exact fun _ => one_fair (timer_fair _)
  · exact fun _ => go_fair
  · exact fun _ => two_fair (said_fair trivial) (took_fair _)
  · exact fun _ => go_fair
  · exact fun _ => one_fair (said_fair true1)
  · exact fun _ => go_fair
  · exact fun _ => one_fair (took_fair _)
  · exact fun _ => go_fair
  · exact fun _ => two_fair (said_fair true2) (took_fair _)
  · exact fun _ => go_fair
  · exact fun _ => two_fair (said_fair true1) (took_fair _)
  · exact fun _ => go_fair
  · exact fun _ => one_fair (timer_fair _)
  · exact fun _ => go_fair
  · exact fun _ => two_fair (said_fair trivial) (took_fair _)
  · exact fun _ => go_fair
  · exact fun _ => two_fair (said_fair true5) (took_fair _)
  · exact fun _ => go_fair
  · exact fun _ => two_fair (said_fair true4) (took_fair _)
  · exact fun _ => go_fair

theorem week_goes (D : Loading.Fine.Disk) (h : Ev.go D ∈ week) : D = .good := week_fair _ h

theorem week_takes (c : Ctx) (h : Ev.take c ∈ week) : ∃ t, c = ctx t := week_fair _ h

theorem week_messages {D : Loading.Fine.Disk} {c : Ctx} {q : Sender} {m : Message} (h : Ev.message D c q m ∈ week) :
    D = .good ∧ (∃ t, c = ctx t) ∧ m.Truthful truth2 := week_fair _ h

theorem calm_sincere (n : Nat) : Sincere truth2 (arrived ++ upto calmEv n) := by
  intro D c p m hm
  rcases List.mem_append.mp hm with h | h
  · simp only [arrived, List.mem_cons, List.not_mem_nil, or_false, reduceCtorEq, false_or, Ev.message.injEq] at h
    rcases h with ⟨_, _, _, rfl⟩ | ⟨_, _, _, rfl⟩ <;> trivial
  · obtain ⟨i, _, he⟩ := List.mem_map.mp h
    rcases calmEv_mem i with h | h | h
    · rw [he] at h; exact (week_messages h).2.2
    · rw [he] at h; cases h
    · rw [he] at h; cases h

theorem calm_room (n : Nat) : Chains.Spec.inserts (calmRun n).world.calls < 1000 := by
  have h : ∀ n, n < 50 → Chains.Spec.inserts (at' (arrived ++ week.take n)).world.calls < 1000 := by decide +kernel
  by_cases hn : n < 49
  · rw [calm_at n (by omega)]; exact h n (by omega)
  · obtain ⟨k, rfl⟩ : ∃ k, n = 49 + k := ⟨n - 49, by omega⟩
    unfold Loading.Fine.World.calls
    rw [(calm_late k).1.log]
    exact h 49 (by decide)

theorem calm_told : Chains.Spec.Told truth2 g0 l0 := ⟨_, [], Chains.Ex.fresh, by decide, fun o ho => (by cases ho), rfl⟩

/-! ### what the peers send during the synchronisations -/

/-- a check that does not cover the events in which ids are taken -/
def patientB (a : Addr) (x : Sys) : Ev → Bool
  | .go _ => true
  | .message _ _ _ (.blockIds _) => true
  | .message _ _ q (.block (some _)) => x.world.todo.isNone || q.remote.all (fun a' => a'.plain != a.plain)
  | .message _ _ q (.pbBlock (some _)) => x.world.todo.isNone || q.remote.all (fun a' => a'.plain != a.plain)
  | .take _ => match x.dist with
    | .sending (.block _ _) => true
    | _ => false
  | _ => false

theorem patient_forth {a : Addr} {s : Nat} {ch : List ProtoBlock} {x : Sys} {D : Loading.Fine.Disk} {c : Ctx} {q : Sender} {m : Message}
    (hs : ∀ b, m ≠ .score b) (h : (x.world.todo.isNone || q.remote.all (fun a' => a'.plain != a.plain)) = true) : Patient a s ch x (.message D c q m) where
  disk := fun _ h => (by cases h)
  score := fun _ _ _ _ h => (by cases h; exact absurd rfl (hs _))
  ids := fun _ _ h => (by cases h)
  forth := fun ht a' id hab hp => by
    exfalso
    rw [Bool.or_eq_true] at h
    rcases h with h | h
    · exact ht (Option.isNone_iff_eq_none.mp h)
    · have hq : q.remote = some a' := by
        unfold Ev.about at hab
        split at hab
        · rename_i he; cases he
          simp only [Option.map_eq_some_iff, Prod.mk.injEq] at hab
          obtain ⟨_, h, rfl, _⟩ := hab; exact h
        · rename_i he; cases he
          simp only [Option.map_eq_some_iff, Prod.mk.injEq] at hab
          obtain ⟨_, h, rfl, _⟩ := hab; exact h
        · rename_i he; cases he
          simp only [Option.map_eq_some_iff, Prod.mk.injEq] at hab
          obtain ⟨_, h, rfl, _⟩ := hab; exact h
        · cases hab
      rw [hq] at h
      simp only [Option.all_some, bne_iff_ne, ne_eq] at h
      exact h hp.symm
  take := fun _ h => (by cases h)
  tick := fun _ h => (by cases h)

theorem patientB_sound {a : Addr} {s : Nat} {ch : List ProtoBlock} {x : Sys} {e : Ev} (hg : ∀ D, e = .go D → D = .good)
    (ht : ∀ c, e = .take c → ∃ t, c = ctx t) (h : patientB a x e = true) : Patient a s ch x e := by
  unfold patientB at h
  split at h
  · rename_i D
    cases hg D rfl
    exact (civil_go (s0 := 0) x).toPatient
  · exact { disk := fun _ h => (by cases h), score := fun _ _ _ _ h => (by cases h), ids := fun _ _ h => (by cases h),
            forth := fun _ _ _ h => (by cases h), take := fun _ h => (by cases h), tick := fun _ h => (by cases h) }
  · exact patient_forth (fun _ h => by cases h) h
  · exact patient_forth (fun _ h => by cases h) h
  · rename_i c
    obtain ⟨t, rfl⟩ := ht c rfl
    split at h
    · rename_i hd
      exact { disk := fun _ h => (by cases h), score := fun _ _ _ _ h => (by cases h), ids := fun _ _ _ hd' => (by rw [hd] at hd'; cases hd'),
              forth := fun _ _ _ h => (by cases h), take := fun _ h => (by cases h; exact fun _ => rfl), tick := fun _ h => (by cases h) }
    · cases h
  · cases h

/-- the events in which ids are taken -/
theorem patient_ids_taken {a : Addr} {s : Nat} {ch : List ProtoBlock} {x : Sys} {t : Int} {ids : List BlockID} {m : Loading.Sent} {r : List BlockID}
    (hd : x.dist = .sending (.ids a ids)) (hl : x.world.own.out.getLast? = some m) (hm : m.msg = .getBlockIds r) (hf : Loading.Follows ch r ids) : Patient a s ch x (.take (ctx t)) where
  disk := fun _ h => (by cases h)
  score := fun _ _ _ _ h => (by cases h)
  ids := fun _ ids' _ hd' _ _ m' req hm' hr => by
    rw [hd] at hd'; cases hd'
    replace hm' := hl.symm.trans hm'
    cases hm'
    rw [hm] at hr
    obtain ⟨rfl, _⟩ := hr
    exact hf
  forth := fun _ _ _ h => (by cases h)
  take := fun _ h => (by cases h; exact fun _ => rfl)
  tick := fun _ h => (by cases h)

theorem calm_patient {n : Nat} {a : Addr} (h : (calmRun n).world.own.active = true) (ha : (calmRun n).world.own.peerID = a) :
    Patient a (top g0 (hists a)) (hists a) (calmRun n) (calmEv n) := by
  have hw := calm_who h
  have hn := (calm_active n).mp h
  rw [ha] at hw
  have hat := calm_at n (by omega)
  have hc : ∀ n, n < 49 → 7 ≤ n ∧ n < 26 ∨ 33 ≤ n ∧ n < 49 → n ≠ 8 → n ≠ 34 → patientB (if n < 26 then peer else peer3) (at' (arrived ++ week.take n)) (calmEv n) = true := by
    decide +kernel
  by_cases h8 : n = 8
  · subst h8
    rw [if_pos (by decide)] at hw
    subst hw
    rw [hat, hists2]
    exact patient_ids_taken (t := 102) (ids := [bid 0, bid 1, bid 2]) (m := ⟨100 * second, Peers.Ex.conn 65, .getBlockIds [bid 0]⟩) (r := [bid 0]) (by decide +kernel)
      (by decide +kernel) rfl ⟨[], g0, [], 0, 2, rfl, by simp, rfl, by decide, by decide, by decide, Or.inl (by decide +kernel)⟩
  · by_cases h34 : n = 34
    · subst h34
      rw [if_neg (by decide)] at hw
      subst hw
      rw [hat, hists3]
      exact patient_ids_taken (t := 132) (ids := [bid 1, bid 4, bid 5]) (m := ⟨130 * second, Peers.Ex.conn 66, .getBlockIds [bid 1, bid 0]⟩) (r := [bid 1, bid 0]) (by decide +kernel)
        (by decide +kernel) rfl ⟨[], blk 1 0, [bid 0], 1, 3, rfl, by simp, rfl, by decide, by decide, by decide, Or.inl (by decide +kernel)⟩
    · rw [hw, hat]
      refine patientB_sound (fun D hD => ?_) (fun c hc => ?_) (hc n (by omega) hn h8 h34)
      · rcases calmEv_mem n with h' | h' | h'
        · rw [hD] at h'; exact week_goes D h'
        · rw [hD] at h'; cases h'
        · rw [hD] at h'; cases h'; rfl
      · rcases calmEv_mem n with h' | h' | h'
        · rw [hc] at h'; exact week_takes c h'
        · rw [hc] at h'; cases h'
        · rw [hc] at h'; cases h'

/-- everything is answered in a synchronisation from the moment `n` to the moment `n + L` -/
theorem calm_responsive {n L : Nat} {a : Addr} {m : Loading.Sent} {es : List Ev} (hL : n + L ≤ 49) (hend : (calmRun (n + L)).world.own.active = false)
    (he : upto (fun k => calmEv (n + k)) L = es)
    (h : settles a (.said m :: talk Peers.Ex.lib (at' (arrived ++ week.take n)) es) = true) :
    Responsive Peers.Ex.lib a m (fun k => calmRun (n + k)) (fun k => calmEv (n + k)) := by
  refine Responsive.of (L := L) (fun k => calm_endless (n + k)) hend ?_
  rw [he]
  show AllAnswered _ _ (_ :: talk _ (calmRun n) _)
  rw [calm_at n (by omega)]
  exact settles_sound _ h

theorem calm_connected (n : Nat) (a : Addr) : a ∈ [peer, peer3] ↔ ∃ cn, (a, cn) ∈ (calmRun n).world.sh.reg.connections := by
  have h := calm_always (Q := fun x => x.reg.connections.map (·.1) = [peer, peer3] ∨ x.reg.connections.map (·.1) = [peer3, peer]) (by decide +kernel) n
  have : a ∈ [peer, peer3] ↔ a ∈ (calmRun n).world.sh.reg.connections.map (·.1) := by
    rcases h with h | h
    · rw [h]
    · rw [h]; simp [or_comm]
  rw [this]
  simp [List.mem_map]

theorem calm_announced (n : Nat) (a : Addr) (ha : a ∈ [peer, peer3]) : Loading.Announced (calmRun n).world.sh.reg a (top g0 (hists a)) := by
  have h := calm_always (Q := fun x => [peer, peer3].all (fun a => (match Peers.PeerOf x.reg a with | .ok p => p.score == some (top g0 (hists a)) | .error _ => false)) = true)
    (by decide +kernel) n
  have h := List.all_eq_true.mp h a ha
  split at h
  · rename_i p hp; exact ⟨p, hp, beq_iff_eq.mp h⟩
  · cases h

theorem calm_forth (n : Nat) (a a' : Addr) (id : BlockID) (ha : a ∈ [peer, peer3]) (hl : ¬ (calmRun n).Loads a) (hab : (calmEv n).about = some (a', id))
    (hp : a.plain = a'.plain) : Loading.Fine.NotBehind a (hists a) (calmRun n).world.sh id := by
  by_cases hn : n < 49
  · have hc : ∀ n, n < 49 → n ≠ 12 → (calmEv n).about.all (fun q => (7 ≤ n ∧ n < 26 ∨ 33 ≤ n ∧ n < 49) && q.1.plain == (if n < 26 then peer else peer3).plain) = true := by
      decide +kernel
    by_cases h12 : n = 12
    · subst h12
      have h1 : (calmEv 12).about = some (peer3, bid 1) := by decide +kernel
      rw [h1] at hab
      cases hab
      have h3 : a = peer3 := by
        rcases List.mem_cons.mp ha with rfl | ha
        · exact absurd hp (by decide +kernel)
        · exact List.mem_singleton.mp ha
      subst h3
      have h4 : LeashOf (calmRun 12).world.sh.link peer3 = .ok (bid 0) := by rw [calm_at 12 (by decide)]; decide +kernel
      intro i y hy hle
      rw [h4] at hle
      have h0 := chain3_true.history.index (i := i) (j := 0) (b := g0) (by rw [hists3] at hy; exact hy) rfl (Except.ok.inj hle).symm
      exact ⟨1, blk 1 0, by omega, by rw [hists3]; rfl, rfl⟩
    · exfalso
      have := hc n hn h12
      rw [hab] at this
      simp only [Option.all_some, Bool.and_eq_true, decide_eq_true_eq, beq_iff_eq] at this
      have hact := (calm_active n).mpr this.1
      exact hl ⟨hact, by rw [calm_who hact, ← this.2]; exact hp⟩
  · exfalso
    obtain ⟨k, rfl⟩ : ∃ k, n = 49 + k := ⟨n - 49, by omega⟩
    rw [calmEv_late] at hab
    split at hab <;> cases hab

theorem calm : Calm Peers.Ex.lib truth2 g0 [peer, peer3] hists calmRun calmEv where
  history := by
    intro a ha
    rcases List.mem_cons.mp ha with rfl | ha
    · rw [hists2]; exact chain2_true
    · cases List.mem_singleton.mp ha; rw [hists3]; exact chain3_true
  connected := calm_connected
  announced := calm_announced
  placed := by
    intro a ha
    rcases List.mem_cons.mp ha with rfl | ha
    · exact ⟨g0, by rw [hists2]; simp [chain2], by decide +kernel⟩
    · cases List.mem_singleton.mp ha
      exact ⟨g0, by rw [hists3]; simp [chain3], by decide +kernel⟩
  forth := calm_forth
  patient := fun n a _ hact hid => calm_patient hact hid
  undamaged := by
    intro n a _ _ _ D c q m b hm _ _
    have hm := List.mem_singleton.mp hm
    rcases calmEv_mem n with h | h | h
    · rw [← hm] at h
      obtain ⟨h1, ⟨t, h2⟩, _⟩ := week_messages h
      exact ⟨h1, by rw [h2]; exact fun _ => rfl⟩
    · rw [h] at hm; cases hm
    · rw [h] at hm; cases hm
  answers := by
    intro n m hi ha ho
    have h1 := (calm_active (n + 1)).mp ha
    have h2 : ¬ (7 ≤ n ∧ n < 26 ∨ 33 ≤ n ∧ n < 49) := fun h => by rw [(calm_active n).mpr h] at hi; cases hi
    have hend : ∀ k, k = 26 ∨ k = 49 → (calmRun k).world.own.active = false := by
      intro k hk
      cases h : (calmRun k).world.own.active with
      | false => rfl
      | true => have := (calm_active k).mp h; omega
    obtain rfl | rfl : n = 6 ∨ n = 32 := by omega
    · rw [calm_who ha, if_pos (by decide)]
      have hm : m = ⟨100 * second, Peers.Ex.conn 65, .getBlockIds [bid 0]⟩ := by
        have := ho.last
        rw [calm_at (6 + 1) (by decide)] at this
        have hl : (at' (arrived ++ week.take 7)).world.own.out.getLast? = some ⟨100 * second, Peers.Ex.conn 65, .getBlockIds [bid 0]⟩ := by decide +kernel
        exact Option.some.inj (this.symm.trans hl)
      obtain ⟨L, hL⟩ : ∃ L, L = 19 := ⟨_, rfl⟩
      refine calm_responsive (L := L) (es := (week.take 26).drop 7) (by omega) (hend _ (by omega)) (by rw [hL]; rfl) ?_
      rw [hm]
      decide +kernel
    · rw [calm_who ha, if_neg (by decide)]
      have hm : m = ⟨130 * second, Peers.Ex.conn 66, .getBlockIds [bid 1, bid 0]⟩ := by
        have := ho.last
        rw [calm_at (32 + 1) (by decide)] at this
        have hl : (at' (arrived ++ week.take 33)).world.own.out.getLast? = some ⟨130 * second, Peers.Ex.conn 66, .getBlockIds [bid 1, bid 0]⟩ := by decide +kernel
        exact Option.some.inj (this.symm.trans hl)
      obtain ⟨L, hL⟩ : ∃ L, L = 16 := ⟨_, rfl⟩
      refine calm_responsive (L := L) (es := week.drop 33) (by omega) (hend _ (by omega)) (by rw [hL]; rfl) ?_
      rw [hm]
      decide +kernel
  reads := by
    intro n D h
    rcases calmEv_mem n with h' | h' | h'
    · rw [h] at h'; exact week_goes D h'
    · rw [h] at h'; cases h'
    · rw [h] at h'; cases h'; rfl
  timers := fun n => ⟨49 + 5 * n, by omega, ctx 200, by rw [calmEv_late, if_pos (by omega)]⟩
  goes := fun n _ => ⟨49 + (5 * n + 1), by omega, .good, by rw [calmEv_late, if_neg (by omega)]⟩
  takes := by
    intro n p hp
    by_cases hk : n ≤ 43
    · exact ⟨43, hk, ctx 136, rfl⟩
    · exfalso
      by_cases hn : n < 49
      · have hd : ∀ n, n < 49 → 43 < n → (at' (arrived ++ week.take n)).dist = .ready := by decide +kernel
        rw [calm_at n (by omega), hd n hn (by omega)] at hp
        cases hp
      · obtain ⟨k, rfl⟩ : ∃ k, n = 49 + k := ⟨n - 49, by omega⟩
        rw [(calm_late k).1.dist] at hp
        cases hp

end Ex

end Verif.Services.Fine
