import Verif.Props.Genuine
import Verif.Props.Forks
import Verif.Props.Api
/-
Property C96: the reports show the forks that there are.
-/

set_option autoImplicit false

namespace Verif.Props

open Verif
open Verif.Chains (Addr BlockID ProtoBlock Linkage LeashOf Leashes Leash BlockRec getBlockByID Forks Fork Env)
open Verif.Chains.Spec (Stored Truth Genuine Told Holds Below Steps LastCommon Selected)
open Verif.Peers (Lib)
open Verif.Services

variable {lib : Lib} {g : ProtoBlock} {T : Truth} {l : Linkage}

/-- When nobody lied (C95 says when a store is such), every entry of a report is true, whatever the filter: its last common block
is the last block that the true chains of its head and of the first head have in common, its length is the number of
blocks from there to its head, and it has the true height, score, time and generator of its head.  The length is zero exactly
for the heads on the chain of the first head. -/
theorem C96_report (h : Holds T g l) (env : Env) (filter : List Addr) {f0 : Fork} {rest : List Fork}
    (hf : Forks env l.db filter = .ok (f0 :: rest)) (f : Fork) (hm : f ∈ f0 :: rest) :
    LastCommon T g f0.headBlock f.headBlock f.lastCommonBlock ∧
    (∃ k : Nat, Steps T g k f.headBlock f.lastCommonBlock ∧ f.length = k) ∧
    (∃ r, Genuine T g f.headBlock r ∧ f.headHeight = r.height ∧ f.score = r.score ∧ f.headTimestamp = r.timestamp ∧
      f.headGenerator = r.generator) ∧
    (f.length = 0 ↔ Below T g f.headBlock f0.headBlock) := by
  obtain ⟨_, _, hent⟩ := C17_lengths h.reachable env filter hf
  obtain ⟨hl, r, rc, hr, hrc, hlen, _, h1, h2, h3, h4⟩ := hent f hm
  obtain ⟨_, r0, _, hr0, _⟩ := hent f0 List.mem_cons_self
  have s0 := Chains.stored_of_record h.reachable hr0
  have sf := Chains.stored_of_record h.reachable hr
  have L := (Chains.holds_isLCA h s0 sf _).mp hl
  obtain ⟨hle, hst⟩ := Chains.holds_steps h L.2.1 hr hrc
  have hk : f.length = ((r.height.toNat - rc.height.toNat : Nat) : Int) := by rw [hlen]; omega
  refine ⟨L, ⟨_, hst, hk⟩, ⟨r, h.record _ _ hr, h1, h4, h2, h3⟩, ?_⟩
  constructor
  · intro hz
    have : r.height.toNat - rc.height.toNat = 0 := by rw [hk] at hz; omega
    rw [this] at hst
    have e : f.headBlock = f.lastCommonBlock := by
      generalize f.headBlock = a, f.lastCommonBlock = b at hst
      cases hst; rfl
    rw [e]; exact L.1
  · intro hb
    have hb' := L.2.2 f.headBlock hb (.refl _)
    obtain ⟨hle', _⟩ := Chains.holds_steps h hb' hrc hr
    rw [hlen]; omega

/-- Two peers that are reported on are in one entry exactly when they are on the same block, and each is in one.  If their blocks
are on different branches, then at least one of the two entries has a positive length. -/
theorem C96_detected (h : Holds T g l) (env : Env) (filter : List Addr) {fs : List Fork} (hf : Forks env l.db filter = .ok fs)
    {ls : List Leash} (hls : Leashes l.db = .ok ls) {p q : Addr} {a b : BlockID} (hp : Selected filter ls p a) (hq : Selected filter ls q b) :
    ∃ x y, x ∈ fs ∧ y ∈ fs ∧ x.headBlock = a ∧ y.headBlock = b ∧ (∀ f, f ∈ fs → (p ∈ f.peers ↔ f = x)) ∧ (∀ f, f ∈ fs → (q ∈ f.peers ↔ f = y)) ∧
      (x = y ↔ a = b) ∧ (¬ Below T g a b → ¬ Below T g b a → 1 ≤ x.length ∨ 1 ≤ y.length) := by
  obtain ⟨ls', hls', hnd, hids, hent⟩ := C15_partition h.reachable env filter hf
  rw [hls] at hls'; cases hls'
  obtain ⟨x, hx, hxa⟩ := List.mem_map.mp ((hids a).mpr ⟨p, hp⟩)
  obtain ⟨y, hy, hyb⟩ := List.mem_map.mp ((hids b).mpr ⟨q, hq⟩)
  have inj : ∀ {u v : Fork}, u ∈ fs → v ∈ fs → u.headBlock = v.headBlock → u = v := by
    intro u v hu hv e
    exact Chains.nodup_map_inj hnd hu hv e
  have uniq : ∀ {r : Addr} {i j : BlockID}, Selected filter ls r i → Selected filter ls r j → i = j := by
    intro r i j hi hj
    obtain ⟨ns, hs, R, _⟩ := Chains.reachable_rep h.reachable
    obtain ⟨ls', hls', _, hleash⟩ := R.leashes
    rw [show Chains.leashes l.db = .ok ls from hls] at hls'; cases hls'
    have e1 := ((hleash _ _).mp hi.1).2.2
    have e2 := ((hleash _ _).mp hj.1).2.2
    rw [e1] at e2; cases e2; rfl
  have only : ∀ {r : Addr} {i : BlockID} {u : Fork}, Selected filter ls r i → u ∈ fs → u.headBlock = i → ∀ f, f ∈ fs → (r ∈ f.peers ↔ f = u) := by
    intro r i u hr hu hui f hm
    rw [(hent f hm).1 r]
    constructor
    · intro hs; exact inj hm hu ((uniq hs hr).trans hui.symm)
    · rintro rfl; rw [hui]; exact hr
  refine ⟨x, y, hx, hy, hxa, hyb, only hp hx hxa, only hq hy hyb, ⟨?_, ?_⟩, ?_⟩
  · rintro rfl; rw [← hxa, ← hyb]
  · intro e; exact inj hx hy (by rw [hxa, hyb, e])
  · intro hab hba
    obtain ⟨f0, rest, rfl, _⟩ := C16_ranked h.reachable env filter hf
    obtain ⟨_, ⟨i, _, hi⟩, _, zx⟩ := C96_report h env filter hf x hx
    obtain ⟨_, ⟨j, _, hj⟩, _, zy⟩ := C96_report h env filter hf y hy
    rw [hxa] at zx
    rw [hyb] at zy
    by_cases h1 : x.length = 0
    · by_cases h2 : y.length = 0
      · rcases (zx.mp h1).linear (zy.mp h2) with h | h
        · exact absurd h hab
        · exact absurd h hba
      · right; rw [hj] at h2 ⊢; omega
    · left; rw [hi] at h1 ⊢; omega

/-- Without a filter the first entry is the best chain: no block that a listed peer is on has a greater true score. -/
theorem C96_best (h : Holds T g l) (env : Env) {f0 : Fork} {rest : List Fork} (hf : Forks env l.db [] = .ok (f0 :: rest))
    {ls : List Leash} (hls : Leashes l.db = .ok ls) {p : Addr} {c : BlockID} (hp : { addr := p, blockID := c } ∈ ls) :
    ∃ r r0, Genuine T g c r ∧ Genuine T g f0.headBlock r0 ∧ r.score ≤ r0.score := by
  obtain ⟨_, s0, ⟨r0, hr0, e0⟩, hall⟩ := C16_first_is_best h.reachable env hf ls hls
  obtain ⟨s, ⟨r, hr, e⟩, hle⟩ := hall c (List.mem_map.mpr ⟨_, hp, rfl⟩)
  refine ⟨r, r0, h.record _ _ hr, h.record _ _ hr0, ?_⟩
  rw [e, e0]
  rcases hle with h | ⟨h, _⟩ <;> omega

/-- The answer about one peer is true in the same way, against a best block. -/
theorem C96_fork (h : Holds T g l) (w : Web) (env : Env) (db1 : Chains.DB) (addr : List Char) {a : Addr} (ha : w.parse addr = some a)
    {ls : List Leash} (hls : Leashes l.db = .ok ls) {id : BlockID} (hin : { addr := a, blockID := id } ∈ ls) {f : Fork}
    (hf : w.fork env db1 l.db addr = .ok f) :
    f.headBlock = id ∧ (∃ r, Genuine T g id r ∧ f.headHeight = r.height ∧ f.score = r.score ∧ f.headTimestamp = r.timestamp ∧
      f.headGenerator = r.generator) ∧
    ∃ best, Chains.Spec.IsBest l.db ls best ∧ (f.longest = true ↔ best = id) ∧ LastCommon T g best id f.lastCommonBlock ∧
      ∃ k : Nat, Steps T g k id f.lastCommonBlock ∧ f.length = k := by
  obtain ⟨h1, _, _, _, _, r, best, hr, hb, h2, h3, h4, h5, h6, h7, h8⟩ := C56_fork_partial h.reachable w env db1 addr ha hls hin hf
  refine ⟨h1, ⟨r, h.record _ _ hr, h4, h5, h2, h3⟩, best, hb, h6, ?_⟩
  by_cases e : best = id
  · obtain ⟨e1, e2⟩ := h7 e
    rw [e, e1, e2]
    exact ⟨⟨.refl _, .refl _, fun d hd _ => hd⟩, 0, .zero _, rfl⟩
  · obtain ⟨hl, rc, hrc, hlen⟩ := h8 e
    obtain ⟨_, ⟨_, ⟨rb, hrb, _⟩, _⟩⟩ := hb
    have L := (Chains.holds_isLCA h (Chains.stored_of_record h.reachable hrb) (Chains.stored_of_record h.reachable hr) _).mp hl
    obtain ⟨hle, hst⟩ := Chains.holds_steps h L.2.1 hr hrc
    exact ⟨L, _, hst, by rw [hlen]; omega⟩

/-- The running program: if the store told the truth at the start and every message since then did, the report of the forks
answered at this moment is the true one. -/
theorem C96_program {lk : Linkage} {n : Nat} {es : List Ev} {s : Prog} (R : Services.Run lib g lk n es s) (h0 : Told T g lk) (ht : Sincere T es)
    (env : Env) (filter : List Addr) {f0 : Fork} {rest : List Fork} (hf : Forks env s.l.link.db filter = .ok (f0 :: rest)) (f : Fork)
    (hm : f ∈ f0 :: rest) :
    LastCommon T g f0.headBlock f.headBlock f.lastCommonBlock ∧ (∃ k : Nat, Steps T g k f.headBlock f.lastCommonBlock ∧ f.length = k) ∧
    (f.length = 0 ↔ Below T g f.headBlock f0.headBlock) := by
  obtain ⟨h1, h2, _, h4⟩ := C96_report (C95_program R h0 ht) env filter hf f hm
  exact ⟨h1, h2, h4⟩

/-- what the ids of the examples stand for: blocks 1, 2 and 5 on the genesis block, 3 on block 1, and 4 is block 3 with a micro-block -/
def Ex.fork : Truth := fun id =>
  if id = Chains.Ex.bid 1 then Chains.Ex.blk 1 0
  else if id = Chains.Ex.bid 2 then Chains.Ex.blk 2 1
  else if id = Chains.Ex.bid 3 then Chains.Ex.blk 3 1
  else if id = Chains.Ex.bid 4 then { Chains.Ex.blk 3 1 with id := Chains.Ex.bid 4 }
  else if id = Chains.Ex.bid 5 then Chains.Ex.blk 5 2
  else if id = Chains.Ex.bid 9 then Chains.Ex.blk 9 8
  else { Chains.Ex.g0 with id := id }

/-- peers 1 and 2 are on different branches; the report shows it -/
example : Holds Ex.fork Chains.Ex.g0 Chains.Ex.l1 ∧
    (Forks Chains.Ex.env Chains.Ex.l1.db []).map (·.map (fun f => (f.headBlock, f.peers, f.lastCommonBlock, f.length))) =
      .ok [(Chains.Ex.bid 2, [Chains.Ex.ip 1], Chains.Ex.bid 2, 0), (Chains.Ex.bid 4, [Chains.Ex.ip 2], Chains.Ex.bid 1, 1)] ∧
    Leashes Chains.Ex.l1.db = .ok [⟨Chains.Ex.ip 1, Chains.Ex.bid 2⟩, ⟨Chains.Ex.ip 2, Chains.Ex.bid 4⟩] ∧
    ¬ Below Ex.fork Chains.Ex.g0 (Chains.Ex.bid 2) (Chains.Ex.bid 4) ∧ ¬ Below Ex.fork Chains.Ex.g0 (Chains.Ex.bid 4) (Chains.Ex.bid 2) ∧
    Steps Ex.fork Chains.Ex.g0 1 (Chains.Ex.bid 4) (Chains.Ex.bid 1) := by
  refine ⟨C95_store ⟨_, Chains.Ex.ops1, Chains.Ex.fresh, by decide +kernel, ?_, rfl⟩, by rfl, by decide +kernel, ?_, ?_,
    .succ (by decide +kernel) (.zero _)⟩
  · intro o ho
    simp only [Chains.Ex.ops1, List.mem_cons, List.not_mem_nil, or_false] at ho
    rcases ho with rfl | rfl | rfl | rfl | rfl | rfl <;> · show _ = _; decide +kernel
  · refine Chains.not_below (by decide +kernel) (fun _ => Chains.not_below (by decide +kernel) (fun _ => Chains.not_below (by decide +kernel) (fun h => ?_)))
    exact absurd (by decide +kernel) h
  · refine Chains.not_below (by decide +kernel) (fun _ => Chains.not_below (by decide +kernel) (fun _ => Chains.not_below (by decide +kernel) (fun h => ?_)))
    exact absurd (by decide +kernel) h

end Verif.Props
