import Verif.Chains.ForkOk
/-
The tree is determined by what was delivered, not by the order of delivery.
-/
set_option autoImplicit false

namespace Verif.Chains

open Verif KV Spec

variable {db : DB} {ns : List Node} {hs : List Nat}

/-- the node comes from the given delivery, on top of nodes of `ns` -/
def MadeBy (ns : List Node) (x : Node) (id : BlockID) : Content → Prop
  | .blk b => id = b.id ∧ ∃ p y ga sc, numOf ns b.parent = some p ∧ at1 ns p = some y ∧ b.generator = some ga ∧
      calculateScore b.baseTarget = .ok sc ∧ x = blockNode b ga sc p y
  | .micro ref => ∃ r y, numOf ns ref = some r ∧ at1 ns r = some y ∧ r ≠ 1 ∧ x = microNode ⟨id, ref⟩ r y

theorem MadeBy.id {x : Node} {i : BlockID} {c : Content} (h : MadeBy ns x i c) : x.br.id = i.1 := by
  cases c with
  | blk b => obtain ⟨rfl, p, y, ga, sc, _, _, _, _, rfl⟩ := h; rfl
  | micro ref => obtain ⟨r, y, _, _, _, rfl⟩ := h; rfl

theorem MadeBy.mono {ns' : List Node} (T : TreeOK ns') (hp : ns <+: ns') {x : Node} {i : BlockID} {c : Content}
    (h : MadeBy ns x i c) : MadeBy ns' x i c := by
  have hat : ∀ {n : Nat} {y : Node}, at1 ns n = some y → at1 ns' n = some y := by
    intro n y hy; obtain ⟨t, rfl⟩ := hp; exact at1_append_of_some hy
  cases c with
  | blk b =>
    obtain ⟨hi, p, y, ga, sc, h1, h2, h3, h4, h5⟩ := h
    exact ⟨hi, p, y, ga, sc, numOf_prefix T hp h1, hat h2, h3, h4, h5⟩
  | micro ref =>
    obtain ⟨r, y, h1, h2, h3, h4⟩ := h
    exact ⟨r, y, numOf_prefix T hp h1, hat h2, h3, h4⟩

theorem Trans.of_insert (f1 f2 : Fate) {x : Node} {id : BlockID} (N : NewOK ns x) (hid : x.br.id = id.1) (a : Addr) :
    ∃ ns' hs', Trans db ns hs (insertThenLeash f1 f2 db (insBatch ns hs id x) a id).1 ns' hs' ∧
      (ns' = ns ∨ ns' = ns ++ [x]) := by
  cases f1 with
  | ok =>
    cases f2 with
    | ok => exact ⟨_, _, .both x id N hid a, Or.inr rfl⟩
    | fail => exact ⟨_, _, .node x id N hid, Or.inr rfl⟩
    | lostAck => exact ⟨_, _, .both x id N hid a, Or.inr rfl⟩
  | fail => exact ⟨_, _, .none, Or.inl rfl⟩
  | lostAck => exact ⟨_, _, .node x id N hid, Or.inr rfl⟩

/-- every call adds nothing, or a node made from its delivery -/
theorem Rep.step_made {l : Linkage} (R : Rep l.db ns hs) (o : Op) (hb : ns.length + inserts [o] < 2 ^ 32) :
    ∃ ns' hs', Rep (Spec.step l o).1.db ns' hs' ∧
      (ns' = ns ∨ ∃ x id c, ns' = ns ++ [x] ∧ content o = some (id, c) ∧ MadeBy ns x id c) ∧
      ns'.length ≤ ns.length + inserts [o] := by
  by_cases ho : inserts [o] = 0
  · exact ⟨ns, hs, step_nonInsert_len R o ho, Or.inl rfl, by omega⟩
  · have h1 := inserts_le_one o
    have hb' : ns.length + 1 < 2 ^ 32 := by omega
    suffices h : ∃ ns' hs', Trans l.db ns hs (Spec.step l o).1.db ns' hs' ∧
        (ns' = ns ∨ ∃ x id c, ns' = ns ++ [x] ∧ content o = some (id, c) ∧ MadeBy ns x id c) by
      obtain ⟨ns', hs', t, h⟩ := h
      refine ⟨ns', hs', t.rep R hb', h, ?_⟩
      rcases h with rfl | ⟨x, id, c, rfl, _⟩
      · omega
      · simp; omega
    cases o with
    | putBlock b a f1 f2 =>
      simp only [Spec.step]
      cases h : numOf ns b.id with
      | some n => rw [R.PutBlock_known h]; exact ⟨_, _, updateLeash_trans _ _ _, Or.inl rfl⟩
      | none =>
        cases hp : numOf ns b.parent with
        | none => rw [R.PutBlock_orphan h hp]; exact ⟨_, _, .none, Or.inl rfl⟩
        | some p =>
          obtain ⟨y, hy, _⟩ := numOf_some hp
          rw [R.PutBlock_new hb' h hp hy]
          cases hg : b.generator with
          | none => exact ⟨_, _, .none, Or.inl rfl⟩
          | some ga =>
            cases hsc : calculateScore b.baseTarget with
            | error e => exact ⟨_, _, .none, Or.inl rfl⟩
            | ok sc =>
              obtain ⟨ns', hs', t, hc⟩ := Trans.of_insert (db := l.db) (hs := hs) f1 f2 (R.newOK_block hb' h hp hy (ga := ga) (sc := sc)) (id := b.id) rfl a
              refine ⟨ns', hs', t, hc.imp (fun h => h) (fun h => ⟨_, b.id, .blk b, h, rfl, rfl, p, y, ga, sc, hp, hy, hg, hsc, rfl⟩)⟩
    | putMicro b a f1 f2 =>
      simp only [Spec.step]
      cases h : numOf ns b.totalBlockID with
      | some n => rw [R.PutMicro_known h]; exact ⟨_, _, updateLeash_trans _ _ _, Or.inl rfl⟩
      | none =>
        cases hp : numOf ns b.reference with
        | none => rw [R.PutMicro_orphan h hp]; exact ⟨_, _, .none, Or.inl rfl⟩
        | some r =>
          obtain ⟨y, hy, _⟩ := numOf_some hp
          rw [R.PutMicro_new h hp hy]
          by_cases h1 : r = 1
          · simp only [h1, if_true]; exact ⟨_, _, .none, Or.inl rfl⟩
          · simp only [h1, if_false]
            obtain ⟨ns', hs', t, hc⟩ := Trans.of_insert (db := l.db) (hs := hs) f1 f2 (R.newOK_micro h hy h1) (id := b.totalBlockID) rfl a
            exact ⟨ns', hs', t, hc.imp (fun h => h) (fun h => ⟨_, b.totalBlockID, .micro b.reference, h, rfl, r, y, hp, hy, h1, rfl⟩)⟩
    | moveLeash id a f => simp [inserts] at ho
    | reopen g f => simp [inserts] at ho

/-- every node except the first comes from a delivery -/
def Origin (ns : List Node) (ops : List Op) : Prop :=
  ∀ n x, at1 ns n = some x → n ≠ 1 → ∃ o id c, o ∈ ops ∧ content o = some (id, c) ∧ MadeBy ns x id c

theorem Rep.exec_origin {l : Linkage} {ops0 : List Op} (R : Rep l.db ns hs) (O : Origin ns ops0) (ops : List Op)
    (hb : ns.length + inserts ops < 2 ^ 32) :
    ∃ ns' hs', Rep (Spec.exec l ops).db ns' hs' ∧ Origin ns' (ops0 ++ ops) ∧ ns <+: ns' ∧
      ns'.length ≤ ns.length + inserts ops := by
  induction ops generalizing l ns hs ops0 with
  | nil => exact ⟨ns, hs, R, by simpa using O, List.prefix_refl _, by simp⟩
  | cons o ops ih =>
    rw [inserts_cons] at hb ⊢
    obtain ⟨ns1, hs1, R1, hstep, hl1⟩ := R.step_made o (by omega)
    have hpre : ns <+: ns1 := by
      rcases hstep with rfl | ⟨x, _, _, rfl, _⟩
      · exact List.prefix_refl _
      · exact List.prefix_append _ _
    have O1 : Origin ns1 (ops0 ++ [o]) := by
      intro n x hx h1
      have old : at1 ns n = some x → ∃ o' id c, o' ∈ ops0 ++ [o] ∧ content o' = some (id, c) ∧ MadeBy ns1 x id c := by
        intro hx
        obtain ⟨o', id, c, hm, hc, hmade⟩ := O n x hx h1
        exact ⟨o', id, c, by simp [hm], hc, hmade.mono R1.tree hpre⟩
      rcases hstep with rfl | ⟨z, id, c, rfl, hc, hmade⟩
      · exact old hx
      · rcases at1_append_cases hx with hx | ⟨_, rfl⟩
        · exact old hx
        · exact ⟨o, id, c, by simp, hc, hmade.mono R1.tree hpre⟩
    obtain ⟨ns2, hs2, R2, O2, hp2, hl2⟩ := ih R1 O1 (by omega)
    exact ⟨ns2, hs2, R2, by simpa using O2, hpre.trans hp2, by omega⟩

/-! ### common blocks have the same record -/

/-- two stores of the same genesis and deliveries that agree -/
structure Twin (ns1 ns2 : List Node) : Prop where
  t1 : TreeOK ns1
  t2 : TreeOK ns2
  root : at1 ns1 1 = at1 ns2 1
  made : ∃ ops1 ops2, Origin ns1 ops1 ∧ Origin ns2 ops2 ∧ Agree (ops1 ++ ops2)

variable {ns1 ns2 : List Node}

theorem Twin.same (W : Twin ns1 ns2) : ∀ (n1 : Nat) (x1 : Node) (id : BlockID) (n2 : Nat), at1 ns1 n1 = some x1 → x1.br.id = id.1 →
    numOf ns2 id = some n2 → ∃ x2, at1 ns2 n2 = some x2 ∧ x2.br = x1.br ∧
      ((n1 = 1 ∧ n2 = 1) ∨ (n1 ≠ 1 ∧ n2 ≠ 1 ∧ ∃ ext : BlockID, numOf ns1 ext = some x1.ext ∧ numOf ns2 ext = some x2.ext)) := by
  obtain ⟨ops1, ops2, O1, O2, A⟩ := W.made
  intro n1
  induction n1 using Nat.strongRecOn with
  | _ n1 ih =>
    intro x1 id n2 hx1 hid hn2
    obtain ⟨x2, hx2, hid2⟩ := numOf_some hn2
    obtain ⟨g, hg, _⟩ := W.t1.genesis
    have hg2 : at1 ns2 1 = some g := by rw [← W.root, hg]
    refine ⟨x2, hx2, ?_⟩
    by_cases h1 : n1 = 1
    · subst h1
      rw [hg] at hx1; cases hx1
      have : n2 = 1 := W.t2.inj _ _ _ _ hx2 hg2 (hid2.trans hid.symm)
      subst this
      rw [hg2] at hx2; cases hx2
      exact ⟨rfl, Or.inl ⟨rfl, rfl⟩⟩
    · have h2 : n2 ≠ 1 := by
        rintro rfl
        rw [hg2] at hx2; cases hx2
        exact h1 (W.t1.inj _ _ _ _ hx1 hg (hid.trans hid2.symm))
      obtain ⟨o1, i1, c1, hm1, hc1, hmade1⟩ := O1 n1 x1 hx1 h1
      obtain ⟨o2, i2, c2, hm2, hc2, hmade2⟩ := O2 n2 x2 hx2 h2
      have e1 : i1 = id := Subtype.ext (hmade1.id.symm.trans hid)
      have e2 : i2 = id := Subtype.ext (hmade2.id.symm.trans hid2)
      subst e1 e2
      have := A o1 o2 _ c1 c2 (by simp [hm1]) (by simp [hm2]) hc1 hc2
      subst this
      have hext := (W.t1.node n1 x1 hx1 h1).choose_spec.2.2.2.2.2.2
      cases c1 with
      | blk b =>
        obtain ⟨_, p1, y1, ga, sc, hp1, hy1, hga, hsc, rfl⟩ := hmade1
        obtain ⟨_, p2, y2, ga', sc', hp2, hy2, hga', hsc', rfl⟩ := hmade2
        rw [hga] at hga'; cases hga'
        rw [hsc] at hsc'; cases hsc'
        obtain ⟨z1, hz1, hze1⟩ := numOf_some hp1
        rw [hy1] at hz1; cases hz1
        obtain ⟨z2, hz2, hbr, _⟩ := ih p1 hext y1 b.parent p2 hy1 hze1 hp2
        rw [hy2] at hz2; cases hz2
        refine ⟨?_, Or.inr ⟨h1, h2, b.parent, hp1, hp2⟩⟩
        simp only [blockNode, hbr]
      | micro ref =>
        obtain ⟨r1, y1, hr1, hy1, _, rfl⟩ := hmade1
        obtain ⟨r2, y2, hr2, hy2, _, rfl⟩ := hmade2
        obtain ⟨z1, hz1, hze1⟩ := numOf_some hr1
        rw [hy1] at hz1; cases hz1
        obtain ⟨z2, hz2, hbr, _⟩ := ih r1 hext y1 ref r2 hy1 hze1 hr2
        rw [hy2] at hz2; cases hz2
        refine ⟨?_, Or.inr ⟨h1, h2, ref, hr1, hr2⟩⟩
        simp only [microNode, hbr]

/-! ### equal records make equal answers -/

theorem Rep.isLCA_unique (R : Rep db ns hs) {a b c c' : BlockID} (ha : Stored db a)
    (h1 : IsLCA db a b c) (h2 : IsLCA db a b c') : c = c' := by
  have k1 := h2.2.2 c h1.1 h1.2.1
  have k2 := h1.2.2 c' h2.1 h2.2.1
  obtain ⟨n, hn⟩ := R.stored_iff.mp ha
  obtain ⟨i, _, hc⟩ := (R.anc_iff hn).mp h1.1
  obtain ⟨j, _, hc'⟩ := (R.anc_iff hn).mp h2.1
  obtain ⟨p, _, e1⟩ := (R.anc_iff hc').mp k1
  obtain ⟨q, _, e2⟩ := (R.anc_iff hc).mp k2
  have l1 := R.tree.up_le (up ns n j) p
  have l2 := R.tree.up_le (up ns n i) q
  rw [hc] at e1
  rw [hc'] at e2
  have e1 := Option.some.inj e1
  have e2 := Option.some.inj e2
  have : up ns n i = up ns n j := by omega
  obtain ⟨x, hx, hxe⟩ := numOf_some hc
  obtain ⟨y, hy, hye⟩ := numOf_some hc'
  rw [this, hy] at hx; cases hx
  exact Subtype.ext (hxe.symm.trans hye)

section same

variable {db1 db2 : DB} {hs1 hs2 : List Nat}

theorem numOf_iff_record (R : Rep db ns hs) (id : BlockID) : (∃ n, numOf ns id = some n) ↔ ∃ r, getBlockByID db id = .ok r := by
  constructor
  · rintro ⟨n, hn⟩
    obtain ⟨x, hx, _⟩ := numOf_some hn
    exact ⟨_, R.getBlockByID_some hn hx⟩
  · rintro ⟨r, hr⟩
    cases hn : numOf ns id with
    | none => simp [R.getBlockByID, hn, fail] at hr
    | some n => exact ⟨n, rfl⟩

theorem same_anc (e : ∀ id, getBlockByID db2 id = getBlockByID db1 id) {a b : BlockID} (h : Anc db1 a b) : Anc db2 a b := by
  induction h with
  | refl => exact .refl _
  | step _ hp ih =>
    obtain ⟨r, hr, hpar⟩ := hp
    exact .step ih ⟨r, by rw [e]; exact hr, hpar⟩

theorem same_isLCA (e : ∀ id, getBlockByID db2 id = getBlockByID db1 id) {a b c : BlockID} (h : IsLCA db1 a b c) : IsLCA db2 a b c :=
  ⟨same_anc e h.1, same_anc e h.2.1, fun d h1 h2 => same_anc e (h.2.2 d (same_anc (fun i => (e i).symm) h1) (same_anc (fun i => (e i).symm) h2))⟩

theorem same_walk (R1 : Rep db1 ns1 hs1) (R2 : Rep db2 ns2 hs2) (e : ∀ id, getBlockByID db2 id = getBlockByID db1 id) :
    ∀ (k : Nat) (id : BlockID) (n1 n2 : Nat), numOf ns1 id = some n1 → numOf ns2 id = some n2 →
      ht ns2 n2 = ht ns1 n1 ∧ (walkNums ns2 n2 k).map (idOf ns2) = (walkNums ns1 n1 k).map (idOf ns1) := by
  have hht : ∀ (id : BlockID) (n1 n2 : Nat), numOf ns1 id = some n1 → numOf ns2 id = some n2 → ht ns2 n2 = ht ns1 n1 := by
    intro id n1 n2 h1 h2
    have := (R1.heightOf h1).mpr rfl
    obtain ⟨r, hr, hh⟩ := this
    rw [← e] at hr
    exact (R2.heightOf h2).mp ⟨r, hr, hh⟩
  intro k
  induction k with
  | zero => intro id n1 n2 h1 h2; exact ⟨hht id n1 n2 h1 h2, by simp [walkNums_zero]⟩
  | succ k ih =>
    intro id n1 n2 h1 h2
    refine ⟨hht id n1 n2 h1 h2, ?_⟩
    obtain ⟨x1, hx1, he1⟩ := numOf_some h1
    obtain ⟨x2, hx2, he2⟩ := numOf_some h2
    rw [walkNums_succ R1.tree hx1, walkNums_succ R2.tree hx2]
    simp only [List.map_cons, List.cons.injEq]
    refine ⟨by rw [idOf_some hx1, idOf_some hx2, he1, he2], ?_⟩
    by_cases hg : ht ns1 n1 = 1
    · have g1 : ht ns1 (parN ns1 n1) = 0 := by rw [R1.tree.ht_parN]; omega
      have g2 : ht ns2 (parN ns2 n2) = 0 := by rw [R2.tree.ht_parN, hht id n1 n2 h1 h2]; omega
      simp [walkNums, g1, g2]
    · have hpos := R1.tree.ht_pos hx1
      have hne1 : n1 ≠ 1 := by
        rintro rfl
        obtain ⟨g, hg', _, _, hh, _⟩ := R1.tree.genesis
        rw [ht_of_some hg', hh] at hg; exact hg rfl
      have hne2 : n2 ≠ 1 := by
        rintro rfl
        obtain ⟨g, hg', _, _, hh, _⟩ := R2.tree.genesis
        have := hht id n1 1 h1 h2
        rw [ht_of_some hg', hh] at this; exact hg this.symm
      obtain ⟨p1, hp1, _, _, hpar1, _⟩ := R1.tree.node n1 x1 hx1 hne1
      have hlen := R1.tree.idlen _ _ hp1
      have hnum1 : numOf ns1 ⟨p1.br.id, hlen⟩ = some (parN ns1 n1) := by
        rw [parN_of_some hx1]; exact R1.tree.numOf_eq hp1 rfl
      have hnum2 : numOf ns2 ⟨p1.br.id, hlen⟩ = some (parN ns2 n2) := by
        have h3 : IsParent db1 ⟨p1.br.id, hlen⟩ id := (R1.isParent_iff h1).mpr ⟨hne1, hnum1⟩
        obtain ⟨r, hr, hrp⟩ := h3
        rw [← e] at hr
        exact ((R2.isParent_iff h2).mp ⟨r, hr, hrp⟩).2
      exact (ih _ _ _ hnum1 hnum2).2

theorem map_val_inj {l1 l2 : List BlockID} (h : l1.map (·.1) = l2.map (·.1)) : l1 = l2 := by
  induction l1 generalizing l2 with
  | nil => cases l2 with
    | nil => rfl
    | cons => simp at h
  | cons a l1 ih =>
    cases l2 with
    | nil => simp at h
    | cons b l2 =>
      simp only [List.map_cons, List.cons.injEq] at h
      rw [Subtype.ext h.1, ih h.2]

/-- stores with equal records answer chain queries equally -/
theorem same_queries (R1 : Rep db1 ns1 hs1) (R2 : Rep db2 ns2 hs2) (e : ∀ id, getBlockByID db2 id = getBlockByID db1 id) :
    (∀ id, HasBlock db2 id = HasBlock db1 id) ∧ (∀ id, BlockOf db2 id = BlockOf db1 id) ∧
    (∀ id c, LastIDs db2 id c = LastIDs db1 id c) ∧ (∀ id c, getBlocks db2 id c = getBlocks db1 id c) ∧
    (∀ a b, lca db2 a b = lca db1 a b) := by
  have hnum : ∀ id, (∃ n, numOf ns2 id = some n) ↔ ∃ n, numOf ns1 id = some n := by
    intro id; rw [numOf_iff_record R1, numOf_iff_record R2, e]
  have hnone : ∀ id, numOf ns1 id = none → numOf ns2 id = none := by
    intro id h
    cases h2 : numOf ns2 id with
    | none => rfl
    | some n => obtain ⟨m, hm⟩ := (hnum id).mp ⟨n, h2⟩; rw [h] at hm; cases hm
  have hblock : ∀ id, BlockOf db2 id = BlockOf db1 id := fun id => by simp [BlockOf, e]
  have hlast : ∀ id c, LastIDs db2 id c = LastIDs db1 id c := by
    intro id c
    cases h1 : numOf ns1 id with
    | none => simp [LastIDs, getAncestors, R1.getNum, R2.getNum, h1, hnone id h1, fail]
    | some n1 =>
      obtain ⟨n2, h2⟩ := (hnum id).mpr ⟨n1, h1⟩
      by_cases hc : c < 0
      · simp [LastIDs, getAncestors, R1.getNum, R2.getNum, h1, h2, hc]
      · obtain ⟨k, rfl⟩ := Int.eq_ofNat_of_zero_le (show 0 ≤ c by omega)
        obtain ⟨ids1, e1, m1⟩ := R1.LastIDs h1 k
        obtain ⟨ids2, e2, m2⟩ := R2.LastIDs h2 k
        have := (same_walk R1 R2 e k id n1 n2 h1 h2).2
        rw [e1, e2, map_val_inj (m2.trans (this.trans m1.symm))]
  refine ⟨?_, hblock, hlast, ?_, ?_⟩
  · intro id
    cases h1 : numOf ns1 id with
    | none => simp [R1.has_eq, R2.has_eq, h1, hnone id h1]
    | some n1 =>
      obtain ⟨n2, h2⟩ := (hnum id).mpr ⟨n1, h1⟩
      simp [R1.has_eq, R2.has_eq, h1, h2]
  · intro id c
    cases h1 : numOf ns1 id with
    | none => simp [getBlocks, R1.getNum, R2.getNum, h1, hnone id h1, fail]
    | some n1 =>
      obtain ⟨n2, h2⟩ := (hnum id).mpr ⟨n1, h1⟩
      by_cases hc : c < 0
      · simp [getBlocks, R1.getNum, R2.getNum, h1, h2, hc]
      · obtain ⟨k, rfl⟩ := Int.eq_ofNat_of_zero_le (show 0 ≤ c by omega)
        obtain ⟨ids1, e1, _, m1⟩ := R1.getBlocks_ids (R1.stored_iff.mpr ⟨n1, h1⟩) k
        obtain ⟨ids2, e2, _, m2⟩ := R2.getBlocks_ids (R2.stored_iff.mpr ⟨n2, h2⟩) k
        rw [hlast, e1] at e2
        have := Except.ok.inj e2
        subst this
        rw [show getBlocks db1 id (k : Int) = _ from m1, show getBlocks db2 id (k : Int) = _ from m2]
        exact mapGo_congr (by simp [hblock])
  · intro a b
    cases ha1 : numOf ns1 a with
    | none => simp [lca, R1.getLinkByID_none ha1, R2.getLinkByID_none (hnone a ha1), fail]
    | some n1 =>
      obtain ⟨n2, ha2⟩ := (hnum a).mpr ⟨n1, ha1⟩
      obtain ⟨x1, hx1, _⟩ := numOf_some ha1
      obtain ⟨x2, hx2, _⟩ := numOf_some ha2
      cases hb1 : numOf ns1 b with
      | none =>
        simp [lca, R1.getLinkByID_none hb1, R2.getLinkByID_none (hnone b hb1), R1.getLinkByID ha1 hx1, R2.getLinkByID ha2 hx2, fail]
      | some m1 =>
        obtain ⟨m2, hb2⟩ := (hnum b).mpr ⟨m1, hb1⟩
        obtain ⟨c1, cid1, hc1, D1, l1⟩ := R1.lca_nums ha1 hb1
        obtain ⟨c2, cid2, hc2, D2, l2⟩ := R2.lca_nums ha2 hb2
        have hl1 := same_isLCA e (R1.isLCA ha1 hb1 hc1 D1)
        have := R2.isLCA_unique (R2.stored_iff.mpr ⟨n2, ha2⟩) hl1 (R2.isLCA ha2 hb2 hc2 D2)
        subst this
        have e1 := (same_walk R1 R2 e 0 _ _ _ ha1 ha2).1
        have e2 := (same_walk R1 R2 e 0 _ _ _ hb1 hb2).1
        have e3 := (same_walk R1 R2 e 0 _ _ _ hc1 hc2).1
        rw [l1, l2, e1, e2, e3]

theorem Rep.mem_heads (R : Rep db ns hs) {hd : List Head} (h : Heads db = .ok hd) (id : BlockID) :
    id ∈ hd.map (·.blockID) ↔ ∃ n, n ∈ hs ∧ numOf ns id = some n := by
  obtain ⟨hd', hh, _, hid⟩ := R.heads
  rw [show Chains.heads db = .ok hd from h] at hh; cases hh
  have h1 : id ∈ hd.map (·.blockID) ↔ id.1 ∈ hd.map (fun h => h.blockID.1) := by
    simp only [List.mem_map]
    constructor
    · rintro ⟨h, hm, rfl⟩; exact ⟨h, hm, rfl⟩
    · rintro ⟨h, hm, he⟩; exact ⟨h, hm, Subtype.ext he⟩
  rw [h1, hid, List.mem_map]
  constructor
  · rintro ⟨n, hn, he⟩
    obtain ⟨⟨x, hx⟩, _⟩ := (R.hok.mem n).mp hn
    rw [idOf_some hx] at he
    exact ⟨n, hn, R.tree.numOf_eq hx he⟩
  · rintro ⟨n, hn, he⟩
    obtain ⟨x, hx, hxe⟩ := numOf_some he
    exact ⟨n, hn, by rw [idOf_some hx, hxe]⟩

theorem Twin.symm (W : Twin ns1 ns2) : Twin ns2 ns1 := by
  obtain ⟨o1, o2, O1, O2, A⟩ := W.made
  refine ⟨W.t2, W.t1, W.root.symm, o2, o1, O2, O1, ?_⟩
  intro o o' i c c' h h'
  exact A o o' i c c' (by simp only [List.mem_append] at h ⊢; exact h.symm) (by simp only [List.mem_append] at h' ⊢; exact h'.symm)

/-- a head of one store is a head of the other -/
theorem Twin.head (W : Twin ns1 ns2) (R1 : Rep db1 ns1 hs1) (R2 : Rep db2 ns2 hs2)
    (hst : ∀ id, Stored db2 id ↔ Stored db1 id) {id : BlockID} {n1 : Nat} (hm : n1 ∈ hs1) (hn : numOf ns1 id = some n1) :
    ∃ n2, n2 ∈ hs2 ∧ numOf ns2 id = some n2 := by
  obtain ⟨n2, h2⟩ := R2.stored_iff.mp ((hst id).mpr (R1.stored_iff.mpr ⟨n1, hn⟩))
  refine ⟨n2, ?_, h2⟩
  obtain ⟨x2, hx2, _⟩ := numOf_some h2
  refine (R2.hok.mem n2).mpr ⟨⟨x2, hx2⟩, ?_⟩
  intro m2 y2 hy2 hext
  obtain ⟨_, hno⟩ := (R1.hok.mem n1).mp hm
  -- the extending node exists in the first store as well
  have hlen := R2.tree.idlen _ _ hy2
  have hnum2 : numOf ns2 ⟨y2.br.id, hlen⟩ = some m2 := R2.tree.numOf_eq hy2 rfl
  obtain ⟨m1, hm1⟩ := R1.stored_iff.mp ((hst ⟨y2.br.id, hlen⟩).mp (R2.stored_iff.mpr ⟨m2, hnum2⟩))
  obtain ⟨y1, hy1, hye1⟩ := numOf_some hm1
  obtain ⟨y2', hy2', _, hcase⟩ := W.same m1 y1 ⟨y2.br.id, hlen⟩ m2 hy1 hye1 hnum2
  rw [hy2] at hy2'; cases hy2'
  rcases hcase with ⟨_, rfl⟩ | ⟨_, _, ex, he1, he2⟩
  · obtain ⟨g, hg, _, h0, _⟩ := R2.tree.genesis
    rw [hy2] at hg; cases hg
    have := (at1_le hx2).1
    omega
  · rw [hext] at he2
    obtain ⟨z, hz, hze⟩ := numOf_some he2
    obtain ⟨z', hz', hze'⟩ := numOf_some h2
    rw [hz] at hz'; cases hz'
    have : ex = id := Subtype.ext (hze.symm.trans hze')
    subst this
    rw [hn] at he1
    exact hno m1 y1 hy1 (Option.some.inj he1).symm

/-- stores of the same blocks are the same up to the order of the heads -/
theorem Twin.sameChains (W : Twin ns1 ns2) (R1 : Rep db1 ns1 hs1) (R2 : Rep db2 ns2 hs2)
    (hst : ∀ id, Stored db2 id ↔ Stored db1 id) : SameChains db1 db2 := by
  have e : ∀ id, getBlockByID db2 id = getBlockByID db1 id := by
    intro id
    cases h1 : numOf ns1 id with
    | none =>
      have h2 : numOf ns2 id = none := by
        cases h2 : numOf ns2 id with
        | none => rfl
        | some n =>
          obtain ⟨m, hm⟩ := R1.stored_iff.mp ((hst id).mp (R2.stored_iff.mpr ⟨n, h2⟩))
          rw [h1] at hm; cases hm
      simp [R1.getBlockByID, R2.getBlockByID, h1, h2]
    | some n1 =>
      obtain ⟨n2, h2⟩ := R2.stored_iff.mp ((hst id).mpr (R1.stored_iff.mpr ⟨n1, h1⟩))
      obtain ⟨x1, hx1, he1⟩ := numOf_some h1
      obtain ⟨x2, hx2, hbr, _⟩ := W.same n1 x1 id n2 hx1 he1 h2
      rw [R1.getBlockByID_some h1 hx1, R2.getBlockByID_some h2 hx2, hbr]
  obtain ⟨q1, q2, q3, q4, q5⟩ := same_queries R1 R2 e
  refine ⟨q1, e, q2, q3, q4, q5, ?_⟩
  intro hd hd' h h' id
  rw [R1.mem_heads h, R2.mem_heads h']
  constructor
  · rintro ⟨n, hm, hn⟩; exact W.symm.head R2 R1 (fun id => (hst id).symm) hm hn
  · rintro ⟨n, hm, hn⟩; exact W.head R1 R2 hst hm hn

end same

/-! ### delivering blocks parent first -/

theorem Rep.deliver_stored {l : Linkage} (R : Rep l.db ns hs) (bs : List (ProtoBlock × Addr)) (known : List BlockID)
    (hb : ns.length + inserts (deliver bs) < 2 ^ 32) (hk : ∀ id, Stored l.db id ↔ id ∈ known)
    (hpf : ParentFirst known bs) (hv : ∀ p, p ∈ bs → p.1.generator ≠ none ∧ p.1.baseTarget.toNat < 2 ^ 63) :
    ∀ id, Stored (Spec.exec l (deliver bs)).db id ↔ id ∈ known ∨ id ∈ bs.map (fun p => p.1.id) := by
  induction bs generalizing l ns hs known with
  | nil => intro id; simpa [deliver, Spec.exec] using hk id
  | cons p bs ih =>
    obtain ⟨b, a⟩ := p
    obtain ⟨hpar, hpf⟩ := hpf
    obtain ⟨hgen, hbt⟩ := hv (b, a) (by simp)
    have hins : inserts (deliver ((b, a) :: bs)) = 1 + inserts (deliver bs) := by
      simp [deliver, inserts]; omega
    rw [hins] at hb
    have hstep : ∃ ns' hs', Rep (Spec.step l (.putBlock b a .ok .ok)).1.db ns' hs' ∧ ns'.length ≤ ns.length + 1 ∧
        ∀ id, Stored (Spec.step l (.putBlock b a .ok .ok)).1.db id ↔ id ∈ b.id :: known := by
      simp only [Spec.step]
      obtain ⟨pn, hpn⟩ := R.stored_iff.mp ((hk b.parent).mpr hpar)
      obtain ⟨y, hy, _⟩ := numOf_some hpn
      cases hn : numOf ns b.id with
      | some n =>
        rw [R.PutBlock_known hn]
        have R' : Rep (updateLeash .ok l.db a b.id).1 ns hs := R.putLeash a b.id
        refine ⟨ns, hs, R', by omega, ?_⟩
        intro id
        rw [R'.stored_iff, ← R.stored_iff, hk, List.mem_cons]
        constructor
        · exact Or.inr
        · rintro (rfl | h)
          · exact (hk b.id).mp (R.stored_iff.mpr ⟨n, hn⟩)
          · exact h
      | none =>
        rw [R.PutBlock_new (by omega) hn hpn hy]
        cases hge : b.generator with
        | none => exact absurd hge hgen
        | some ga =>
          rw [calculateScore_eq hbt]
          have N := R.newOK_block (by omega) hn hpn hy (ga := ga) (sc := blockScore b.baseTarget.toNat)
          have R' := (R.insert N b.id rfl (by omega)).putLeash a b.id
          refine ⟨_, _, R', by simp, ?_⟩
          intro id
          refine Iff.trans (R'.stored_iff (a := id)) ?_
          rw [List.mem_cons, ← hk, R.stored_iff]
          rw [numOf_append N.fresh]
          by_cases hid : id = b.id
          · simp [hid, blockNode]
          · have : ¬ id.1 = b.id.1 := fun e => hid (Subtype.ext e)
            simp [hid, blockNode, this]
    obtain ⟨ns', hs', R', hl, hst⟩ := hstep
    have := ih R' (b.id :: known) (by omega) hst hpf (fun p hp => hv p (List.mem_cons_of_mem _ hp))
    intro id
    have h2 := this id
    simp only [deliver, List.map_cons, Spec.exec, List.foldl_cons] at h2 ⊢
    rw [h2]
    simp only [List.mem_cons, List.mem_map]
    constructor
    · rintro ((h | h) | h) <;> simp [h]
    · rintro (h | h | h) <;> simp [h]

end Verif.Chains
