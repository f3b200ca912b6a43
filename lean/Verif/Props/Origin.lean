import Verif.Services.OriginEx
import Verif.Props.Forks
/-
Properties C86 and C87: where the positions of peers and the stored blocks come
from.
-/

set_option autoImplicit false

namespace Verif.Props

open Verif
open Verif.Chains (Addr BlockID ProtoBlock MicroInv Linkage LeashOf Leashes Forks Fork Env getLeash getBlockByID BlockRec)
open Verif.Chains.Spec (Stored)
open Verif.Peers (Lib)
open Verif.Services

variable {lib : Lib} {g : ProtoBlock} {lk : Linkage} {n : Nat} {es : List Ev} {s : Prog}

/-! ### C86 -/

/-- The block at which the program sees a peer is the one it saw the peer at when it was started, or one that a connection from
the very address of the peer named in a message: as the block in it, as the block made by an announced micro-block, or in
a list of ids. -/
theorem C86_position (R : Run lib g lk n es s) (a : Addr) (id : BlockID) (h : LeashOf s.l.link a = .ok id) :
    LeashOf lk a = .ok id ∨
      ∃ c p m a0, Ev.message c p m ∈ es ∧ p.remote = some a0 ∧ a0.plain = a.plain ∧ id ∈ m.blockIDs := by
  have T := R.traced
  unfold LeashOf at h ⊢
  cases hl : getLeash s.l.link.db a with
  | ok x =>
    rw [hl] at h
    cases h
    rcases T.leash a id hl with h | ⟨a0, hp, m, ⟨c, p, hm, hr⟩, hid⟩
    · left; rw [h]
    · exact Or.inr ⟨c, p, m, a0, hm, hr, hp, hid⟩
  | error e =>
    left
    rw [hl] at h
    cases hk : getLeash lk.db a with
    | ok y =>
      obtain ⟨z, hz⟩ := T.leashed a ⟨y, hk⟩
      rw [hz] at hl; cases hl
    | error e' =>
      obtain ⟨ns, hs, R', _⟩ := Chains.reachable_rep R.alive.running.serving.reachable
      have h0 : ∃ ns0 hs0, Chains.Rep lk.db ns0 hs0 := by
        clear T hl hk h R' hs
        induction R with
        | start _ hs => obtain ⟨ns, hs, R, _⟩ := Chains.reachable_rep hs.reachable; exact ⟨ns, hs, R⟩
        | step _ _ _ ih => exact ih
      obtain ⟨ns0, hs0, R0⟩ := h0
      have e0 : e = .err .notFound := by
        rcases R'.getLeash_cases a with ⟨x, hx⟩ | hx
        · rw [hl] at hx; cases hx
        · rw [hl] at hx; cases hx; rfl
      have e1 : e' = .err .notFound := by
        rcases R0.getLeash_cases a with ⟨x, hx⟩ | hx
        · rw [hk] at hx; cases hx
        · rw [hk] at hx; cases hx; rfl
      subst e0; subst e1
      rw [← T.genesis]; exact h

/-- No peer is moved by anybody else: the position of a peer that sent nothing is what it was at the start, whatever all other
peers sent and whatever became of the writes. -/
theorem C86_silent (R : Run lib g lk n es s) (a : Addr)
    (h : ∀ c p m a0, Ev.message c p m ∈ es → p.remote = some a0 → a0.plain ≠ a.plain) : LeashOf s.l.link a = LeashOf lk a := by
  obtain ⟨id, hid, _⟩ := R.alive.running.serving.leash a
  rcases C86_position R a id hid with h' | ⟨c, p, m, a0, hm, hr, hp, _⟩
  · rw [hid, h']
  · exact absurd hp (h c p m a0 hm hr)

/-- Every peer that a fork report lists under a head block named that very block in a message, or stood there when the program
was started. -/
theorem C86_forks (R : Run lib g lk n es s) (env : Env) (filter : List Addr) {fs : List Fork}
    (hf : Forks env s.l.link.db filter = .ok fs) (f : Fork) (hm : f ∈ fs) (a : Addr) (ha : a ∈ f.peers) :
    getLeash lk.db a = .ok f.headBlock ∨
      ∃ c p m a0, Ev.message c p m ∈ es ∧ p.remote = some a0 ∧ a0.plain = a.plain ∧ f.headBlock ∈ m.blockIDs := by
  have S := R.alive.running.serving.reachable
  obtain ⟨ls, hls, _, _, hent⟩ := C15_partition S env filter hf
  have hsel := ((hent f hm).1 a).mp ha
  obtain ⟨ns, hs, R', _⟩ := Chains.reachable_rep S
  obtain ⟨ls', hls', _, hleash⟩ := R'.leashes
  rw [show Chains.leashes s.l.link.db = .ok ls from hls] at hls'; cases hls'
  have hl := ((hleash _ _).mp hsel.1).2.2
  rcases R.traced.leash a _ hl with h | ⟨a0, hp, m, ⟨c, p, hm, hr⟩, hid⟩
  · exact Or.inl h
  · exact Or.inr ⟨c, p, m, a0, hm, hr, hp, hid⟩

/-- peer 10.0.0.2 sends block 1, peer 10.0.0.3 announces a micro-block on it -/
def told : List Ev :=
  Ex.joined ++ [.message (Loading.Ex.ctx 5) Ex.p2 (.block (some (Chains.Ex.blk 1 0))), .take (Loading.Ex.ctx 6),
    .message (Loading.Ex.ctx 7) Ex.p3 (.microBlockInv (some ⟨Chains.Ex.bid 7, Chains.Ex.bid 1⟩))]

example : Run Peers.Ex.lib Chains.Ex.g0 Chains.Ex.l0 1000 told (Ex.after told) ∧
    LeashOf (Ex.after told).l.link Loading.Ex.peer = .ok (Chains.Ex.bid 1) ∧
    LeashOf (Ex.after told).l.link Loading.Ex.peer3 = .ok (Chains.Ex.bid 7) ∧
    LeashOf (Ex.after told).l.link (.v4 ⟨[10, 0, 0, 9], rfl⟩) = .ok Chains.Ex.g0.id ∧
    (∃ fs, Forks Chains.Ex.env (Ex.after told).l.link.db [] = .ok fs ∧ fs.map (·.headBlock) ≠ []) :=
  ⟨Ex.runs 1000 told (by decide +kernel) (by decide +kernel), by decide +kernel, by decide +kernel, by decide +kernel,
    _, rfl, by decide +kernel⟩

/-! ### C87 -/

/-- Every block in the store was there when the program was started, or some connection sent it, with that parent, time and
generator, or some connection announced the micro-block that makes it, and then it has the parent, height, score, time and
generator of the stored block that the micro-block was said to be on. -/
theorem C87_blocks (R : Run lib g lk n es s) (id : BlockID) (r : BlockRec) (h : getBlockByID s.l.link.db id = .ok r) :
    getBlockByID lk.db id = .ok r ∨
      (∃ c p b, (Ev.message c p (.block (some b)) ∈ es ∨ Ev.message c p (.pbBlock (some b)) ∈ es) ∧ b.id = id ∧
        r.parent = b.parent.1 ∧ r.timestamp = b.timestamp ∧ some r.generator = b.generator) ∨
      ∃ c p inv r0, Ev.message c p (.microBlockInv (some inv)) ∈ es ∧ inv.totalBlockID = id ∧
        getBlockByID s.l.link.db inv.reference = .ok r0 ∧ r = { r0 with id := id.1 } := by
  rcases R.traced.record id r h with h | ⟨o, hdue, hcall⟩
  · exact Or.inl h
  · cases hdue with
    | block b a f1 f2 hid h1 h2 h3 =>
      obtain ⟨m, ⟨c, p, hm, _⟩, hb⟩ := hcall
      refine Or.inr (Or.inl ⟨c, p, b, ?_, hid, h1, h2, h3⟩)
      cases m with
      | block b' => cases hb; exact Or.inl hm
      | pbBlock b' => cases hb; exact Or.inr hm
      | _ => cases hb
    | micro inv a f1 f2 hid r0 h0 hr =>
      obtain ⟨c, p, hm, _⟩ := hcall
      exact Or.inr (Or.inr ⟨c, p, inv, r0, hm, hid, h0, by rw [hr, hid]⟩)

example : (getBlockByID (Ex.after told).l.link.db (Chains.Ex.bid 1)).toOption ≠ none ∧
    (getBlockByID (Ex.after told).l.link.db (Chains.Ex.bid 7)).toOption ≠ none ∧
    (getBlockByID Chains.Ex.l0.db (Chains.Ex.bid 1)).toOption = none ∧
    (getBlockByID Chains.Ex.l0.db (Chains.Ex.bid 7)).toOption = none := by decide +kernel

end Verif.Props
