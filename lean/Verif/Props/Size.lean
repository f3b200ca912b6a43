import Verif.Chains.Size
import Verif.Chains.Examples
/-
Property C120: how large the database of blocks is.
-/
set_option autoImplicit false

namespace Verif.Props

open Verif KV Chains Spec

/-! ## C120: the database grows only with new blocks and new peers -/

/-- After every history (with write failures, crash points and reopenings) the database has exactly two
counters, three records for every stored block, two for every head and one for every peer with a
leash: there is nothing else in it, and nothing is left behind by calls that failed half way. -/
theorem C120_size {g : ProtoBlock} {l : Linkage} (h : Reachable g l) :
    ∃ (B : List BlockID) (hd : List Head) (A : List Addr),
      B.Nodup ∧ (∀ id, id ∈ B ↔ Stored l.db id) ∧
      Heads l.db = .ok hd ∧ hd.length ≤ B.length ∧
      A.Nodup ∧ (∀ a, a ∈ A ↔ a = a.plain ∧ HasLeash l.db a = .ok true) ∧
      l.db.length = 2 + 3 * B.length + 2 * hd.length + A.length := by
  obtain ⟨ns, hs, A, R, Z, _⟩ := reachable_sized h
  obtain ⟨B, h1, h2, h3⟩ := R.blockList
  obtain ⟨hd, h4, _, h5⟩ := R.heads
  have h6 : hd.length = hs.length := by simpa using congrArg List.length h5
  refine ⟨B, hd, A, h1, h2, h4, ?_, Z.list.1, fun a => ?_, ?_⟩
  · rw [h3, h6]; exact R.hbound
  · rw [Z.list.2, R.hasLeash_iff]
  · rw [h3, h6]; exact Z.size

/-- One call for the block `id` from the peer `a`, whatever happens to its writes: no record is lost; at most six are added; at most
one if the block was there before or is refused; at most five if the peer had a leash; and none at all if both. -/
theorem C120_call {g : ProtoBlock} {l : Linkage} (h : Reachable g l) (o : Op) {a : Addr} {id : BlockID} (ht : target o = some (a, id)) :
    l.db.length ≤ (step l o).1.db.length ∧
    (step l o).1.db.length ≤ l.db.length + 6 ∧
    (Stored l.db id ∨ ¬ Stored (step l o).1.db id → (step l o).1.db.length ≤ l.db.length + 1) ∧
    (HasLeash l.db a = .ok true → (step l o).1.db.length ≤ l.db.length + 5) ∧
    (Stored l.db id ∨ ¬ Stored (step l o).1.db id → HasLeash l.db a = .ok true → (step l o).1.db.length = l.db.length) := by
  obtain ⟨ns, hs, R, hb⟩ := reachable_rep h
  exact R.step_length hb o ht

/-- Opening the database again leaves every record as it is. -/
theorem C120_reopen {g : ProtoBlock} {l : Linkage} (h : Reachable g l) (g' : ProtoBlock) (f : Fate) :
    (step l (.reopen g' f)).1.db = l.db := by
  obtain ⟨ns, hs, R, _⟩ := reachable_rep h
  simp only [Spec.step, NewLinkage, R.reopen f g']

/-- However often the peers repeat themselves, the size is bounded by what they talk about: at most five
records for every block and one for every peer ever named, and two more. -/
theorem C120_bound {g : ProtoBlock} {l0 : Linkage} (hf : Fresh g l0) (ops : List Op) (hb : inserts ops + 2 < 2 ^ 32)
    (I : List BlockID) (P : List Addr) (hg : g.id ∈ I) (hI : ∀ o a id, o ∈ ops → target o = some (a, id) → id ∈ I)
    (hP : ∀ o a id, o ∈ ops → target o = some (a, id) → a.plain ∈ P) :
    (exec l0 ops).db.length ≤ 2 + 5 * I.length + P.length := by
  have hr : Reachable g (exec l0 ops) := ⟨l0, ops, hf, hb, rfl⟩
  obtain ⟨B, hd, A, h1, h2, _, h4, h5, h6, h7⟩ := C120_size hr
  obtain ⟨ga, sc, hga, hsc, _, R0⟩ := fresh_rep hf
  obtain ⟨ns, hs, R, _⟩ := reachable_rep hr
  have hB : B.length ≤ I.length := by
    apply length_le_of_nodup_subset h1
    intro id hid
    obtain ⟨n, hn⟩ := R.stored_iff.mp ((h2 id).mp hid)
    obtain ⟨x, hx, _⟩ := numOf_some hn
    rcases R0.exec_record ops (by simp; omega) (R.getBlockByID_some hn hx) with h | ⟨o, ho, hdue⟩
    · rw [R0.getBlockByID] at h
      cases hn0 : numOf [genesisNode g ga sc] id with
      | none => rw [hn0] at h; simp [fail] at h
      | some k =>
        obtain ⟨y, hy, he⟩ := numOf_some hn0
        have := at1_le hy
        simp at this
        obtain rfl : k = 1 := by omega
        simp [at1] at hy
        subst hy
        have : id = g.id := Subtype.ext (by rw [← he]; rfl)
        rw [this]; exact hg
    · cases hdue with
      | block b a f1 f2 hid hp ht hg => subst hid; exact hI _ a b.id ho rfl
      | micro inv a f1 f2 hid r0 h0 hr => subst hid; exact hI _ a inv.totalBlockID ho rfl
  have hA : A.length ≤ P.length := by
    apply length_le_of_nodup_subset h5
    intro a ha
    obtain ⟨hp, hl⟩ := (h6 a).mp ha
    rcases R.getLeash_cases a with ⟨id, hid⟩ | hn
    · rcases R0.exec_leash ops (by simp; omega) hid with h | ⟨o, ho, a0, ht, he⟩
      · obtain ⟨ns1, hs1, R1, h1, Z⟩ := sized_genesis hf
        have : HasLeash l0.db a = .ok true := by simp [HasLeash, h]
        rw [R1.hasLeash_iff] at this
        have := (Z.list.2 a).mpr ⟨hp, this⟩
        simp at this
      · have := hP o a0 id ho ht
        rw [he, ← hp] at this
        exact this
    · simp [HasLeash, hn, fail] at hl
  omega

/-- The records do not grow either: the record that links a block to its ancestors has at most 32 entries. -/
theorem C120_links {g : ProtoBlock} {l : Linkage} (h : Reachable g l) {n : UInt64} {r : LinkRec}
    (hr : get l.db (numKey chainPrefix n) = some (.lnk r)) : r.parents.length ≤ 32 := by
  obtain ⟨ns, hs, R, _⟩ := reachable_rep h
  rw [R.links] at hr
  cases hx : at1 ns n.toNat with
  | none => rw [hx] at hr; simp at hr
  | some x =>
    rw [hx] at hr
    simp only [Option.map_some, Option.some.injEq, Val.lnk.injEq] at hr
    rw [← hr, linkOf_parents_length, ht_of_some hx]
    rcases Nat.lt_or_ge 32 (clog2 x.br.height.toNat) with hlt | hge
    · have := lt_clog2.mp hlt
      have := x.br.height.toNat_lt
      omega
    · exact hge

/-- a history with two branches, a micro-block, a block written without its leash and an orphan: six blocks, two heads, two leashes -/
example : Reachable Ex.g0 Ex.l1 ∧ Ex.l1.db.length = 2 + 3 * 6 + 2 * 2 + 2 := ⟨Ex.reach1, by decide +kernel⟩

/-- four calls that name two blocks and two peers besides the genesis block: three blocks, two heads, two leashes -/
example : Fresh Ex.g0 Ex.l0 ∧ (exec Ex.l0 [Ex.pb 1 0 1, Ex.pb 1 0 1, Ex.pb 2 0 2, Ex.pb 2 0 1]).db.length = 2 + 3 * 3 + 2 * 2 + 2 ∧
    (exec Ex.l0 [Ex.pb 1 0 1, Ex.pb 1 0 1, Ex.pb 2 0 2, Ex.pb 2 0 1]).db.length ≤ 2 + 5 * [Ex.bid 0, Ex.bid 1, Ex.bid 2].length + [Ex.ip 1, Ex.ip 2].length :=
  ⟨Ex.fresh, by decide +kernel, by decide +kernel⟩

/-- six, five, one and no new records -/
example : let l := exec Ex.l0 [Ex.pb 1 0 1]
    target (Ex.pb 2 0 2) = some (Ex.ip 2, Ex.bid 2) ∧ (step l (Ex.pb 2 0 2)).1.db.length = l.db.length + 6 ∧
    HasLeash l.db (Ex.ip 1) = .ok true ∧ (step l (Ex.pb 2 0 1)).1.db.length = l.db.length + 5 ∧
    Stored l.db (Ex.bid 1) ∧ (step l (Ex.pb 1 0 2)).1.db.length = l.db.length + 1 ∧
    (step l (Ex.pb 1 0 1)).1.db.length = l.db.length ∧
    ¬ Stored (step l (Ex.pb 5 4 1)).1.db (Ex.bid 5) ∧ (step l (Ex.pb 5 4 1)).1.db.length = l.db.length := by
  unfold Stored; decide +kernel

end Verif.Props
