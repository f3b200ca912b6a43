import Verif.Chains.LeashSteps
/-
Which node every call adds.
-/
set_option autoImplicit false

namespace Verif.Chains

open Verif KV Spec

variable {db : DB} {ns : List Node} {hs : List Nat}

/-- what one call does to the tree, in terms of `newEdge` -/
def EdgeStep (ns : List Node) (hs : List Nat) (e : Option (BlockID × BlockID)) (ns' : List Node) (hs' : List Nat) : Prop :=
  (ns' = ns ∧ hs' = hs ∧ e = none) ∨
  ∃ x i j, ns' = ns ++ [x] ∧ hs' = newHeads hs (ns.length + 1) x.ext ∧ NewOK ns x ∧ e = some (i, j) ∧
    x.br.id = i.1 ∧ numOf ns j = some x.ext

theorem Rep.has_eq (R : Rep db ns hs) (id : BlockID) : HasBlock db id = .ok (numOf ns id).isSome := R.hasBlock id

theorem Rep.insertThenLeash_edge (R : Rep db ns hs) (hb : ns.length + 1 < 2 ^ 32) (f1 f2 : Fate) {x : Node} {id j : BlockID}
    (N : NewOK ns x) (hid : x.br.id = id.1) (hj : numOf ns j = some x.ext) (a : Addr) (hn : numOf ns id = none) :
    ∃ ns' hs', Rep (insertThenLeash f1 f2 db (insBatch ns hs id x) a id).1 ns' hs' ∧
      EdgeStep ns hs (edgeOf db (insertThenLeash f1 f2 db (insBatch ns hs id x) a id).1 id j) ns' hs' := by
  have h0 : HasBlock db id = .ok false := by rw [R.has_eq, hn]; rfl
  have R1 := R.insert N id hid hb
  have hnum : numOf (ns ++ [x]) id = some (ns.length + 1) := by rw [numOf_append N.fresh]; simp [hid]
  have done : ∀ d, Rep d (ns ++ [x]) (newHeads hs (ns.length + 1) x.ext) →
      ∃ ns' hs', Rep d ns' hs' ∧ EdgeStep ns hs (edgeOf db d id j) ns' hs' := by
    intro d Rd
    have h1 : HasBlock d id = .ok true := by rw [Rd.has_eq, hnum]; rfl
    exact ⟨_, _, Rd, Or.inr ⟨x, id, j, rfl, rfl, N, by simp [edgeOf, h0, h1], hid, hj⟩⟩
  have same : ∃ ns' hs', Rep db ns' hs' ∧ EdgeStep ns hs (edgeOf db db id j) ns' hs' :=
    ⟨ns, hs, R, Or.inl ⟨rfl, rfl, by simp [edgeOf, h0]⟩⟩
  cases f1 with
  | ok =>
    cases f2 with
    | ok => exact done _ (R1.putLeash a id)
    | fail => exact done _ R1
    | lostAck => exact done _ (R1.putLeash a id)
  | fail => exact same
  | lostAck => exact done _ R1

theorem Rep.edge_same (R : Rep db ns hs) (id j : BlockID) :
    ∃ ns' hs', Rep db ns' hs' ∧ EdgeStep ns hs (edgeOf db db id j) ns' hs' := by
  refine ⟨ns, hs, R, Or.inl ⟨rfl, rfl, ?_⟩⟩
  simp only [edgeOf, R.has_eq]
  cases (numOf ns id).isSome <;> simp

theorem Rep.edge_leash (R : Rep db ns hs) (f : Fate) (a : Addr) (id j : BlockID) :
    ∃ ns' hs', Rep (updateLeash f db a id).1 ns' hs' ∧ EdgeStep ns hs (edgeOf db (updateLeash f db a id).1 id j) ns' hs' := by
  have R' : Rep (updateLeash f db a id).1 ns hs := by
    cases f with
    | ok => exact R.putLeash a id
    | fail => exact R
    | lostAck => exact R.putLeash a id
  refine ⟨ns, hs, R', Or.inl ⟨rfl, rfl, ?_⟩⟩
  simp only [edgeOf, R.has_eq, R'.has_eq]
  cases (numOf ns id).isSome <;> simp

theorem Rep.step_edge {l : Linkage} (R : Rep l.db ns hs) (hb : ns.length + 1 < 2 ^ 32) (o : Op) :
    ∃ ns' hs', Rep (Spec.step l o).1.db ns' hs' ∧ EdgeStep ns hs (newEdge l o) ns' hs' := by
  cases o with
  | putBlock b a f1 f2 =>
    simp only [newEdge, Spec.step]
    cases h : numOf ns b.id with
    | some n => rw [R.PutBlock_known h]; exact R.edge_leash f1 a b.id b.parent
    | none =>
      cases hp : numOf ns b.parent with
      | none => rw [R.PutBlock_orphan h hp]; exact R.edge_same b.id b.parent
      | some p =>
        obtain ⟨y, hy, _⟩ := numOf_some hp
        rw [R.PutBlock_new hb h hp hy]
        cases b.generator with
        | none => exact R.edge_same b.id b.parent
        | some ga =>
          cases calculateScore b.baseTarget with
          | error e => exact R.edge_same b.id b.parent
          | ok sc => exact R.insertThenLeash_edge hb f1 f2 (R.newOK_block hb h hp hy) rfl hp a h
  | putMicro b a f1 f2 =>
    simp only [newEdge, Spec.step]
    cases h : numOf ns b.totalBlockID with
    | some n => rw [R.PutMicro_known h]; exact R.edge_leash f1 a b.totalBlockID b.reference
    | none =>
      cases hp : numOf ns b.reference with
      | none => rw [R.PutMicro_orphan h hp]; exact R.edge_same b.totalBlockID b.reference
      | some r =>
        obtain ⟨y, hy, _⟩ := numOf_some hp
        rw [R.PutMicro_new h hp hy]
        by_cases h1 : r = 1
        · simp only [h1, if_true]; exact R.edge_same b.totalBlockID b.reference
        · simp only [h1, if_false]
          exact R.insertThenLeash_edge hb f1 f2 (R.newOK_micro h hy h1) rfl hp a h
  | moveLeash id a f =>
    refine ⟨ns, hs, ?_, Or.inl ⟨rfl, rfl, rfl⟩⟩
    exact step_nonInsert_len R (.moveLeash id a f) rfl
  | reopen g f =>
    refine ⟨ns, hs, ?_, Or.inl ⟨rfl, rfl, rfl⟩⟩
    exact step_nonInsert_len R (.reopen g f) rfl

theorem EdgeStep.length_le {ns' : List Node} {hs' : List Nat} {e : Option (BlockID × BlockID)}
    (h : EdgeStep ns hs e ns' hs') : hs.length ≤ hs'.length := by
  rcases h with ⟨_, rfl, _⟩ | ⟨x, i, j, _, rfl, _⟩
  · exact Nat.le_refl _
  · unfold newHeads; split <;> simp

/-- the calls that insert nothing leave no edge -/
theorem newEdge_none_of_inserts {l : Linkage} {o : Op} (h : inserts [o] = 0) : newEdge l o = none := by
  cases o <;> first | rfl | simp [inserts] at h

/-- `E` lists exactly the nodes other than genesis, with the nodes they extend -/
def EdgesOK (ns : List Node) (E : List (BlockID × BlockID)) : Prop :=
  ∀ i j, (i, j) ∈ E ↔ ∃ m y, at1 ns m = some y ∧ m ≠ 1 ∧ y.br.id = i.1 ∧ numOf ns j = some y.ext

theorem EdgesOK.step {ns' : List Node} {hs' : List Nat} {E : List (BlockID × BlockID)} {e : Option (BlockID × BlockID)}
    (T : TreeOK ns) (H : EdgesOK ns E) (S : EdgeStep ns hs e ns' hs') : EdgesOK ns' (E ++ e.toList) := by
  rcases S with ⟨rfl, _, rfl⟩ | ⟨x, i0, j0, rfl, _, N, rfl, hi, hj⟩
  · simpa using H
  · have T' := T.append N
    have hlen := T.len_pos
    have old : ∀ j n, n ≤ ns.length → (numOf (ns ++ [x]) j = some n ↔ numOf ns j = some n) := by
      intro j n hn
      rw [numOf_append N.fresh]
      by_cases hjx : j.1 = x.br.id
      · rw [if_pos hjx]
        constructor
        · intro h; have := Option.some.inj h; omega
        · intro h
          obtain ⟨y, hy, hye⟩ := numOf_some h
          exact absurd (hye.trans hjx) (N.fresh n y hy)
      · rw [if_neg hjx]
    have extle : ∀ m y, at1 ns m = some y → m ≠ 1 → y.ext ≤ ns.length := by
      intro m y hy h1
      obtain ⟨_, _, _, _, _, _, _, h⟩ := T.node m y hy h1
      have := at1_le hy; omega
    have extx : x.ext ≤ ns.length := by
      obtain ⟨z, hz⟩ := N.ext; exact (at1_le hz).2
    intro i j
    simp only [Option.toList, List.mem_append, List.mem_singleton, Prod.mk.injEq]
    rw [H i j]
    constructor
    · rintro (⟨m, y, hy, h1, hyi, hyj⟩ | ⟨rfl, rfl⟩)
      · exact ⟨m, y, at1_append_of_some hy, h1, hyi, (old j _ (extle m y hy h1)).mpr hyj⟩
      · exact ⟨ns.length + 1, x, at1_append_new, by omega, hi, (old j _ extx).mpr hj⟩
    · rintro ⟨m, y, hy, h1, hyi, hyj⟩
      rcases at1_append_cases hy with hy | ⟨rfl, rfl⟩
      · exact Or.inl ⟨m, y, hy, h1, hyi, (old j _ (extle m y hy h1)).mp hyj⟩
      · refine Or.inr ⟨Subtype.ext (hyi.symm.trans hi), ?_⟩
        have hyj := (old j _ extx).mp hyj
        obtain ⟨z, hz, hze⟩ := numOf_some hyj
        obtain ⟨z', hz', hze'⟩ := numOf_some hj
        rw [hz] at hz'; cases hz'
        exact Subtype.ext (hze.symm.trans hze')

/-- edges along a history -/
theorem Rep.exec_edges {l : Linkage} {E : List (BlockID × BlockID)} (R : Rep l.db ns hs) (H : EdgesOK ns E) (ops : List Op)
    (hb : ns.length + inserts ops < 2 ^ 32) :
    ∃ ns' hs', Rep (Spec.exec l ops).db ns' hs' ∧ EdgesOK ns' (E ++ edges l ops) ∧ hs.length ≤ hs'.length ∧ ns <+: ns' ∧
      ns'.length ≤ ns.length + inserts ops := by
  induction ops generalizing l ns hs E with
  | nil => exact ⟨ns, hs, R, by simpa [edges] using H, Nat.le_refl _, List.prefix_refl _, by simp⟩
  | cons o ops ih =>
    rw [inserts_cons] at hb ⊢
    have : ∃ ns' hs', Rep (Spec.step l o).1.db ns' hs' ∧ EdgeStep ns hs (newEdge l o) ns' hs' ∧
        ns'.length ≤ ns.length + inserts [o] := by
      by_cases ho : inserts [o] = 0
      · exact ⟨ns, hs, step_nonInsert_len R o ho, Or.inl ⟨rfl, rfl, newEdge_none_of_inserts ho⟩, by omega⟩
      · have h1 := inserts_le_one o
        obtain ⟨ns', hs', R', S⟩ := R.step_edge (by omega) o
        refine ⟨ns', hs', R', S, ?_⟩
        rcases S with ⟨rfl, _⟩ | ⟨x, _, _, rfl, _⟩
        · omega
        · simp; omega
    obtain ⟨ns1, hs1, R1, S1, hl1⟩ := this
    obtain ⟨ns2, hs2, R2, H2, hl2, hp2, hn2⟩ := ih R1 (H.step R.tree S1) (by omega)
    refine ⟨ns2, hs2, R2, ?_, Nat.le_trans S1.length_le hl2, ?_, by omega⟩
    · simpa [edges, List.append_assoc] using H2
    · refine List.IsPrefix.trans ?_ hp2
      rcases S1 with ⟨rfl, _⟩ | ⟨x, _, _, rfl, _⟩
      · exact List.prefix_refl _
      · exact List.prefix_append _ _

theorem edgesOK_genesis {g : ProtoBlock} {ga : WavesAddr} {sc : Nat} : EdgesOK [genesisNode g ga sc] [] := by
  intro i j
  constructor
  · intro h; simp at h
  · rintro ⟨m, y, hy, h1, _⟩
    have := at1_le hy
    simp at this; omega

/-- a walk along node numbers is a walk -/
theorem Rep.isWalk_of_map (R : Rep db ns hs) : ∀ {ids : List BlockID} {n k : Nat},
    ids.map (·.1) = (walkNums ns n k).map (idOf ns) → k ≤ ht ns n → IsWalk db ids := by
  intro ids
  induction ids with
  | nil => intro n k _ _; trivial
  | cons a ids ih =>
    intro n k h hk
    cases k with
    | zero => simp [walkNums] at h
    | succ k =>
      obtain ⟨x, hx⟩ := ht_pos_some (ns := ns) (n := n) (by omega)
      rw [walkNums_succ R.tree hx] at h
      simp only [List.map_cons, List.cons.injEq] at h
      have hna : numOf ns a = some n := R.tree.numOf_eq hx (by rw [h.1, idOf_some hx])
      have hht := R.tree.ht_parN n
      cases ids with
      | nil => exact R.stored_iff.mpr ⟨n, hna⟩
      | cons b rest =>
        refine ⟨(R.isParent_iff hna).mpr ?_, ih h.2 (by omega)⟩
        cases k with
        | zero => simp [walkNums] at h
        | succ k =>
          obtain ⟨y, hy⟩ := ht_pos_some (ns := ns) (n := parN ns n) (by omega)
          have h2 := h.2
          rw [walkNums_succ R.tree hy] at h2
          simp only [List.map_cons, List.cons.injEq] at h2
          refine ⟨?_, R.tree.numOf_eq hy (by rw [h2.1, idOf_some hy])⟩
          rintro rfl
          obtain ⟨g, hg, _, _, hh, _⟩ := R.tree.genesis
          rw [ht_of_some hg, hh] at hk
          simp at hk

end Verif.Chains
