import Verif.Chains.LeashSteps
import Verif.Chains.Examples
/-
Properties C06-C09: leashes.
-/
set_option autoImplicit false

namespace Verif.Props

open Verif KV Chains Spec

/-! ## C06: a peer's leash is the last block it was successfully moved to -/

/-- Along every history of calls by any peers in which no write is applied behind a reported error,
`Leash(a)` is the block of the most recent successful call made for `a`, or else the genesis block
the running process was started with, and `HasLeash(a)` tells whether there was such a call. -/
theorem C06_leash_is_last_success {g : ProtoBlock} {l0 : Linkage} (hf : Fresh g l0) (ops : List Op)
    (hb : inserts ops + 2 < 2 ^ 32) (hl : ∀ o, o ∈ ops → lossy o = false) (a : Addr) :
    LeashOf (exec l0 ops) a = .ok ((lastMoved l0 ops a).getD (openedWith g.id ops)) ∧
    HasLeash (exec l0 ops).db a = .ok (lastMoved l0 ops a).isSome := by
  obtain ⟨ga, sc, _, _, hgen, R0⟩ := fresh_rep hf
  have h0 : getLeash l0.db a = fail .notFound := fresh_no_leash hf a
  suffices H : ∀ (ops : List Op) (l : Linkage) (ns : List Node) (hs : List Nat), Rep l.db ns hs →
      ns.length + 1 + inserts ops < 2 ^ 32 → (∀ o, o ∈ ops → lossy o = false) →
      (exec l ops).genesis = openedWith l.genesis ops ∧
      getLeash (exec l ops).db a = match lastMoved l ops a with | some id => .ok id | none => getLeash l.db a by
    obtain ⟨h1, h2⟩ := H ops l0 _ _ R0 (by simp; omega) hl
    rw [h0] at h2
    rw [LeashOf, HasLeash, h2, h1, hgen]
    cases lastMoved l0 ops a <;> simp [fail]
  clear hl hb h0 R0 hgen hf
  intro ops
  induction ops with
  | nil => intro l ns hs R _ _; exact ⟨rfl, rfl⟩
  | cons o ops ih =>
    intro l ns hs R hb hl
    obtain ⟨ns', hs', R', _, hb'⟩ := R.step_next o ops hb
    obtain ⟨i1, i2⟩ := ih (step l o).1 ns' hs' R' hb' (fun x hx => hl x (List.mem_cons_of_mem _ hx))
    have he : exec l (o :: ops) = exec (step l o).1 ops := rfl
    have hlo := hl o (by simp)
    have hout := R.step_outcome (by omega) o
    rw [he]
    constructor
    · rw [i1]
      cases o with
      | reopen g f => simp only [Spec.step, NewLinkage, R.reopen f g, openedWith]
      | _ => rfl
    · rw [i2]
      simp only [lastMoved]
      cases hlm : lastMoved (step l o).1 ops a with
      | some id => rfl
      | none =>
        cases ht : target o with
        | none => rw [ht] at hout; simp only at hout ⊢; rw [hout]
        | some p =>
          obtain ⟨a0, id⟩ := p
          rw [ht] at hout
          simp only at hout ⊢
          rcases hout with ⟨hr, hm, _⟩ | ⟨hr, hs⟩ | ⟨_, hx, _⟩
          · rw [hm a]
            by_cases hp : a0.plain = a.plain
            · simp [hp, hr]
            · simp [hp, Ne.symm hp]
          · simp only [hr, and_false, if_false]; exact hs a
          · rw [hlo] at hx; cases hx

/-- With lost acknowledgements the leash is the block of the most recent successful call (or none),
or the block of a later failed call that had a lost acknowledgement. -/
theorem C06_leash_with_lost_acks {g : ProtoBlock} {l0 : Linkage} (hf : Fresh g l0) (ops : List Op)
    (hb : inserts ops + 2 < 2 ^ 32) (a : Addr) :
    ∃ v, v ∈ possible l0 ops a [none] ∧ LeashOf (exec l0 ops) a = .ok (v.getD (openedWith g.id ops)) ∧
      HasLeash (exec l0 ops).db a = .ok v.isSome := by
  obtain ⟨ga, sc, _, _, hgen, R0⟩ := fresh_rep hf
  have h0 : getLeash l0.db a = fail .notFound := fresh_no_leash hf a
  suffices H : ∀ (ops : List Op) (l : Linkage) (ns : List Node) (hs : List Nat) (S : List (Option BlockID)), Rep l.db ns hs →
      ns.length + 1 + inserts ops < 2 ^ 32 →
      (∃ v, v ∈ S ∧ getLeash l.db a = match v with | some id => .ok id | none => fail .notFound) →
      (exec l ops).genesis = openedWith l.genesis ops ∧
      ∃ v, v ∈ possible l ops a S ∧ getLeash (exec l ops).db a = match v with | some id => .ok id | none => fail .notFound by
    obtain ⟨h1, v, hv, h2⟩ := H ops l0 _ _ [none] R0 (by simp; omega) ⟨none, by simp, h0⟩
    refine ⟨v, hv, ?_⟩
    rw [LeashOf, HasLeash, h2, h1, hgen]
    cases v <;> simp [fail]
  clear hb h0 R0 hgen hf
  intro ops
  induction ops with
  | nil => intro l ns hs S R _ h; exact ⟨rfl, h⟩
  | cons o ops ih =>
    intro l ns hs S R hb hS
    obtain ⟨ns', hs', R', _, hb'⟩ := R.step_next o ops hb
    have he : exec l (o :: ops) = exec (step l o).1 ops := rfl
    have hout := R.step_outcome (by omega) o
    rw [he]
    obtain ⟨i1, i2⟩ := ih (step l o).1 ns' hs' (match target o with
       | some (a0, id) =>
         if a0.plain = a.plain then
           if (step l o).2 = .ok () then [some id] else if lossy o then some id :: S else S
         else S
       | none => S) R' hb' (by
        obtain ⟨v, hv, hg⟩ := hS
        cases ht : target o with
        | none => rw [ht] at hout; simp only at hout ⊢; rw [hout]; exact ⟨v, hv, hg⟩
        | some p =>
          obtain ⟨a0, id⟩ := p
          rw [ht] at hout
          simp only at hout ⊢
          by_cases hp : a0.plain = a.plain
          · rw [if_pos hp]
            rcases hout with ⟨hr, hm, _⟩ | ⟨hr, hs⟩ | ⟨hr, hx, hm, _⟩
            · rw [if_pos hr]; exact ⟨some id, by simp, by rw [hm a]; simp [hp]⟩
            · rw [if_neg hr, hs a]
              refine ⟨v, ?_, hg⟩
              split
              · exact List.mem_cons_of_mem _ hv
              · exact hv
            · rw [if_neg hr, if_pos hx]
              exact ⟨some id, by simp, by rw [hm a]; simp [hp]⟩
          · rw [if_neg hp]
            refine ⟨v, hv, ?_⟩
            have : getLeash (step l o).1.db a = getLeash l.db a := by
              rcases hout with ⟨_, hm, _⟩ | ⟨_, hs⟩ | ⟨_, _, hm, _⟩
              · rw [hm a]; simp [Ne.symm hp]
              · exact hs a
              · rw [hm a]; simp [Ne.symm hp]
            rw [this]; exact hg)
    refine ⟨?_, i2⟩
    rw [i1]
    cases o with
    | reopen g f => simp only [Spec.step, NewLinkage, R.reopen f g, openedWith]
    | _ => rfl

-- in the example history peer 1 ends on block 2, peer 9 was never moved; a failed call is not counted
example : Fresh Ex.g0 Ex.l0 ∧ (∀ o, o ∈ Ex.ops1 → lossy o = false) ∧
    lastMoved Ex.l0 Ex.ops1 (Ex.ip 1) = some (Ex.bid 2) ∧ lastMoved Ex.l0 Ex.ops1 (Ex.ip 9) = none ∧
    lastMoved Ex.l0 (Ex.ops1 ++ [.moveLeash (Ex.bid 4) (Ex.ip 1) .fail]) (Ex.ip 1) = some (Ex.bid 2) ∧
    possible Ex.l0 (Ex.ops1 ++ [.moveLeash (Ex.bid 4) (Ex.ip 1) .lostAck]) (Ex.ip 1) [none] =
      [some (Ex.bid 4), some (Ex.bid 2)] :=
  ⟨Ex.fresh, by decide +kernel, by decide +kernel, by decide +kernel, by decide +kernel, by decide +kernel⟩

/-! ## C07: peers do not interfere through leashes -/

/-- A call made for one peer, successful or not, leaves `Leash` and `HasLeash` of every other peer as
they were.  Addresses the store can tell apart are those that differ other than by an IPv6 zone. -/
theorem C07_isolation {g : ProtoBlock} {l : Linkage} (h : Reachable g l) (o : Op) (a0 : Addr) (id : BlockID)
    (ho : target o = some (a0, id)) (a : Addr) (ha : a.plain ≠ a0.plain) :
    LeashOf (step l o).1 a = LeashOf l a ∧ HasLeash (step l o).1.db a = HasLeash l.db a := by
  obtain ⟨ns, hs, R, hb⟩ := reachable_rep h
  have hout := R.step_outcome hb o
  rw [ho] at hout
  have hl : getLeash (step l o).1.db a = getLeash l.db a := by
    rcases hout with ⟨_, hm, _⟩ | ⟨_, hs⟩ | ⟨_, _, hm, _⟩
    · rw [hm a, if_neg ha]
    · exact hs a
    · rw [hm a, if_neg ha]
  have hg : (step l o).1.genesis = l.genesis := step_genesis_of_target (by rw [ho]; simp)
  exact ⟨by rw [LeashOf, LeashOf, hl, hg], by rw [HasLeash, HasLeash, hl]⟩

/-- distinct IPv4 addresses and distinct zone-less IPv6 addresses can be told apart -/
theorem C07_told_apart (a b : Addr) (ha : a = a.plain) (hb : b = b.plain) : a.plain = b.plain ↔ a = b := by
  rw [← ha, ← hb]

/-- a link-local address in two zones -/
def zoned (z : String) : Addr := .v6 ⟨[0xfe, 0x80, 0, 0, 0, 0, 0, 0, 0, 0, 0, 0, 0, 0, 0, 1], rfl⟩ z

/-- Addresses that differ by zone only share one leash. -/
theorem C07_zones_share : zoned "eth0" ≠ zoned "eth1" ∧ ∃ l, Reachable Ex.g0 l ∧
    LeashOf l (zoned "eth1") ≠ LeashOf (step l (.moveLeash (Ex.bid 4) (zoned "eth0") .ok)).1 (zoned "eth1") :=
  ⟨by decide, Ex.l1, Ex.reach1, by decide +kernel⟩

example : target (Ex.pb 6 5 2) = some (Ex.ip 2, Ex.bid 6) ∧ (Ex.ip 1).plain ≠ (Ex.ip 2).plain := by decide

/-! ## C08: Leashes() lists every leashed peer exactly once -/

/-- `Leashes()` always answers; no address occurs twice; every entry is right; and every leashed
zone-less peer occurs, except the invalid address and the all-ones IPv6 address, which lie outside
the scanned key range.  Missing for the full claim: those two, and addresses with a zone (which
are listed without it); see the witness below. -/
theorem C08_leashes_partial {g : ProtoBlock} {l : Linkage} (h : Reachable g l) :
    ∃ ls, Leashes l.db = .ok ls ∧ (ls.map (·.addr)).Nodup ∧
      (∀ a id, { addr := a, blockID := id } ∈ ls → HasLeash l.db a = .ok true ∧ LeashOf l a = .ok id) ∧
      ∀ a, a = a.plain → a ≠ .zero → (∀ z, a ≠ .v6 ⟨List.replicate 16 0xff, rfl⟩ z) → HasLeash l.db a = .ok true →
        ∃ id, LeashOf l a = .ok id ∧ { addr := a, blockID := id } ∈ ls := by
  obtain ⟨ns, hs, R, _⟩ := reachable_rep h
  obtain ⟨ls, hls, hnd, hmem⟩ := R.leashes
  refine ⟨ls, hls, hnd, ?_, ?_⟩
  · intro a id hm
    obtain ⟨_, _, hg⟩ := (hmem a id).mp hm
    simp [HasLeash, LeashOf, hg]
  · intro a hp hz h6 hh
    have hL : Listed a := by
      cases a with
      | zero => exact absurd rfl hz
      | v4 b => trivial
      | v6 b z =>
        intro e
        apply h6 z
        congr 1
        exact Subtype.ext e
    rcases R.getLeash_cases a with ⟨id, hid⟩ | hn
    · exact ⟨id, by simp [LeashOf, hid], (hmem a id).mpr ⟨hL, hp, hid⟩⟩
    · simp [HasLeash, hn, fail] at hh

/-- the all-ones IPv6 address -/
def allOnes : Addr := .v6 ⟨List.replicate 16 0xff, rfl⟩ ""

/-- The claim fails at the edges: the all-ones and the invalid address have a leash but are not
listed. -/
theorem C08_missed : ∃ l, Reachable Ex.g0 l ∧
    HasLeash l.db allOnes = .ok true ∧ HasLeash l.db .zero = .ok true ∧ Leashes l.db = .ok [] := by
  refine ⟨exec Ex.l0 [.moveLeash (Ex.bid 0) allOnes .ok, .moveLeash (Ex.bid 0) .zero .ok],
    ⟨Ex.l0, _, Ex.fresh, by decide +kernel, rfl⟩, by decide +kernel, by decide +kernel, by decide +kernel⟩

example : Reachable Ex.g0 Ex.l1 ∧ (Leashes Ex.l1.db).map (·.map (fun l => (l.addr, l.blockID))) =
    .ok [(Ex.ip 1, Ex.bid 2), (Ex.ip 2, Ex.bid 4)] := ⟨Ex.reach1, by decide +kernel⟩

/-! ## C09: leashes never dangle -/

/-- If every `MoveLeash` names a block stored at the time of the call, then after every history,
with whatever write failures and crash points, every leash is a stored block and its record
resolves. -/
theorem C09_no_dangling {g : ProtoBlock} {l0 : Linkage} (hf : Fresh g l0) (ops : List Op)
    (hb : inserts ops + 2 < 2 ^ 32) (hd : Disciplined l0 ops) (a : Addr) (id : BlockID)
    (h : getLeash (exec l0 ops).db a = .ok id) :
    Stored (exec l0 ops).db id ∧ ∃ r, getBlockByID (exec l0 ops).db id = .ok r ∧ r.id = id.1 := by
  obtain ⟨ga, sc, _, _, _, R0⟩ := fresh_rep hf
  suffices H : ∀ (ops : List Op) (l : Linkage) (ns : List Node) (hs : List Nat), Rep l.db ns hs →
      ns.length + 1 + inserts ops < 2 ^ 32 → Disciplined l ops →
      (∀ a id, getLeash l.db a = .ok id → Stored l.db id) →
      (∃ ns' hs', Rep (exec l ops).db ns' hs') ∧ ∀ a id, getLeash (exec l ops).db a = .ok id → Stored (exec l ops).db id by
    obtain ⟨⟨ns, hs, R⟩, hall⟩ := H ops l0 _ _ R0 (by simp; omega) hd
      (by intro a id hg; rw [fresh_no_leash hf a] at hg; simp [fail] at hg)
    have hst := hall a id h
    obtain ⟨n, hn⟩ := R.stored_iff.mp hst
    obtain ⟨x, hx, hxe⟩ := numOf_some hn
    exact ⟨hst, x.br, R.getBlockByID_some hn hx, hxe⟩
  clear h hd hb R0 hf
  intro ops
  induction ops with
  | nil => intro l ns hs R _ _ h; exact ⟨⟨ns, hs, R⟩, h⟩
  | cons o ops ih =>
    intro l ns hs R hb hd hall
    obtain ⟨ns', hs', R', hpre, hb'⟩ := R.step_next o ops hb
    obtain ⟨hd1, hd2⟩ := hd
    refine ih (step l o).1 ns' hs' R' hb' hd2 ?_
    have keep : ∀ id, Stored l.db id → Stored (step l o).1.db id := by
      intro id hs
      obtain ⟨n, hn⟩ := R.stored_iff.mp hs
      exact R'.stored_iff.mpr ⟨n, numOf_prefix R'.tree hpre hn⟩
    have hout := R.step_outcome (by omega) o
    intro a id hg
    cases ht : target o with
    | none => rw [ht] at hout; simp only at hout; rw [hout] at hg ⊢; exact hall a id hg
    | some p =>
      obtain ⟨a0, tid⟩ := p
      rw [ht] at hout
      simp only at hout
      have fin : Moved l.db (step l o).1.db a0 tid →
          (isMove o = false → Stored (step l o).1.db tid) → Stored (step l o).1.db id := by
        intro hm hs
        rw [hm a] at hg
        by_cases hp : a.plain = a0.plain
        · rw [if_pos hp] at hg; cases hg
          cases o with
          | putBlock b a f1 f2 => exact hs rfl
          | putMicro b a f1 f2 => exact hs rfl
          | moveLeash i a f => simp only [target, Option.some.injEq, Prod.mk.injEq] at ht; exact keep _ (ht.2 ▸ hd1)
          | reopen g f => simp [target] at ht
        · rw [if_neg hp] at hg; exact keep _ (hall a id hg)
      rcases hout with ⟨_, hm, hs⟩ | ⟨_, hs⟩ | ⟨_, _, hm, hs⟩
      · exact fin hm hs
      · rw [hs a] at hg; exact keep _ (hall a id hg)
      · exact fin hm hs

/-- The condition is needed: `MoveLeash` itself does not check, and one dangling leash makes the fork
report fail for everybody. -/
theorem C09_condition_needed (env : Env) : ∃ l, Reachable Ex.g0 l ∧
    LeashOf l (Ex.ip 7) = .ok (Ex.bid 77) ∧ ¬ Stored l.db (Ex.bid 77) ∧ (Forks env l.db [Ex.ip 7]) = fail .notFound := by
  refine ⟨exec Ex.l0 (Ex.ops1 ++ [.moveLeash (Ex.bid 77) (Ex.ip 7) .ok]), ⟨Ex.l0, _, Ex.fresh, by decide +kernel, rfl⟩,
    by decide +kernel, by unfold Stored; decide +kernel, ?_⟩
  have h1 : leashes (exec Ex.l0 (Ex.ops1 ++ [.moveLeash (Ex.bid 77) (Ex.ip 7) .ok])).db =
      .ok [⟨Ex.ip 1, Ex.bid 2⟩, ⟨Ex.ip 2, Ex.bid 4⟩, ⟨Ex.ip 7, Ex.bid 77⟩] := by decide +kernel
  have h2 : BlockOf (exec Ex.l0 (Ex.ops1 ++ [.moveLeash (Ex.bid 77) (Ex.ip 7) .ok])).db (Ex.bid 77) = fail .notFound := by
    decide +kernel
  have h3 : groupLeashes (selected [Ex.ip 7] [⟨Ex.ip 1, Ex.bid 2⟩, ⟨Ex.ip 2, Ex.bid 4⟩, ⟨Ex.ip 7, Ex.bid 77⟩])
      = [(Ex.bid 77, [Ex.ip 7])] := by decide +kernel
  have h4 : env.mapOrder [(Ex.bid 77, [Ex.ip 7])] = [(Ex.bid 77, [Ex.ip 7])] :=
    List.perm_singleton.mp (env.mapOrder_perm _)
  simp only [Forks, h1, go_bind_ok, h3, h4, mapGo, h2, fail, go_bind_error]

example : Disciplined Ex.l0 (Ex.ops1 ++ [.moveLeash (Ex.bid 4) (Ex.ip 7) .lostAck]) ∧
    getLeash (exec Ex.l0 (Ex.ops1 ++ [.moveLeash (Ex.bid 4) (Ex.ip 7) .lostAck])).db (Ex.ip 7) = .ok (Ex.bid 4) := by
  refine ⟨?_, by decide +kernel⟩
  refine ⟨trivial, trivial, trivial, trivial, trivial, trivial, ?_⟩
  exact ⟨by unfold Stored; decide +kernel, trivial⟩

end Verif.Props
