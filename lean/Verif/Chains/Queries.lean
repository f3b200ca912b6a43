import Verif.Chains.Lca
/-
What the queries return under the representation invariant.
-/
set_option autoImplicit false

namespace Verif.Chains

open Verif KV Spec

variable {db : DB} {ns : List Node} {hs : List Nat}

/-! ### `mapGo` -/

theorem mapGo_total {α β : Type} {f : α → Go β} {g : α → β} {l : List α} (h : ∀ a, a ∈ l → f a = .ok (g a)) :
    mapGo f l = .ok (l.map g) := by
  induction l with
  | nil => rfl
  | cons a l ih =>
    rw [mapGo, h a (by simp)]
    simp only [go_bind_ok, ih (fun b hb => h b (List.mem_cons_of_mem _ hb))]
    rfl

theorem mapGo_cons_ok {α β : Type} {f : α → Go β} {a : α} {l : List α} {r : List β} (h : mapGo f (a :: l) = .ok r) :
    ∃ b r', f a = .ok b ∧ mapGo f l = .ok r' ∧ r = b :: r' := by
  rw [mapGo] at h
  cases hb : f a with
  | error e => rw [hb] at h; simp at h
  | ok b =>
    rw [hb] at h
    simp only [go_bind_ok] at h
    cases hr : mapGo f l with
    | error e => rw [hr] at h; simp at h
    | ok r' =>
      rw [hr] at h
      simp only [go_bind_ok, go_pure, Except.ok.injEq] at h
      exact ⟨b, r', rfl, rfl, h.symm⟩

theorem mapGo_map {α β γ : Type} {f : α → Go β} (p : β → γ) (q : α → γ) (hpq : ∀ a b, f a = .ok b → p b = q a)
    {l : List α} {r : List β} (h : mapGo f l = .ok r) : r.map p = l.map q := by
  induction l generalizing r with
  | nil => simp only [mapGo, Except.ok.injEq] at h; subst h; rfl
  | cons a l ih =>
    obtain ⟨b, r', hb, hr, rfl⟩ := mapGo_cons_ok h
    simp [hpq a b hb, ih hr]

theorem mapGo_mem {α β : Type} {f : α → Go β} {l : List α} {r : List β} (h : mapGo f l = .ok r) {b : β} (hb : b ∈ r) :
    ∃ a, a ∈ l ∧ f a = .ok b := by
  induction l generalizing r with
  | nil => simp only [mapGo, Except.ok.injEq] at h; subst h; simp at hb
  | cons a l ih =>
    obtain ⟨b', r', hb', hr, rfl⟩ := mapGo_cons_ok h
    rcases List.mem_cons.mp hb with rfl | hb
    · exact ⟨a, by simp, hb'⟩
    · obtain ⟨a', ha', he⟩ := ih hr hb
      exact ⟨a', List.mem_cons_of_mem _ ha', he⟩

theorem mapGo_mem' {α β : Type} {f : α → Go β} {l : List α} {r : List β} (h : mapGo f l = .ok r) {a : α} (ha : a ∈ l) :
    ∃ b, b ∈ r ∧ f a = .ok b := by
  induction l generalizing r with
  | nil => simp at ha
  | cons a' l ih =>
    obtain ⟨b', r', hb', hr, rfl⟩ := mapGo_cons_ok h
    rcases List.mem_cons.mp ha with rfl | ha
    · exact ⟨b', by simp, hb'⟩
    · obtain ⟨b, hb, he⟩ := ih hr ha
      exact ⟨b, List.mem_cons_of_mem _ hb, he⟩

theorem mapGo_length {α β : Type} {f : α → Go β} {l : List α} {r : List β} (h : mapGo f l = .ok r) :
    r.length = l.length := by
  have := congrArg List.length (mapGo_map (fun _ => ()) (fun _ => ()) (fun _ _ _ => rfl) h)
  simpa using this

theorem mapGo_error {α β : Type} {f : α → Go β} {l : List α} {e : Fault} (h : mapGo f l = .error e) :
    ∃ a, a ∈ l ∧ f a = .error e := by
  induction l with
  | nil => simp [mapGo] at h
  | cons a l ih =>
    rw [mapGo] at h
    cases hb : f a with
    | error e' =>
      rw [hb] at h
      simp only [go_bind_error, Except.error.injEq] at h
      subst h
      exact ⟨a, by simp, hb⟩
    | ok b =>
      rw [hb] at h
      simp only [go_bind_ok] at h
      cases hr : mapGo f l with
      | error e' =>
        rw [hr] at h
        simp only [go_bind_error, Except.error.injEq] at h
        subst h
        obtain ⟨a', ha', he⟩ := ih hr
        exact ⟨a', List.mem_cons_of_mem _ ha', he⟩
      | ok r' => rw [hr] at h; simp at h

/-! ### sorted databases are determined by their members -/

theorem sorted_ext {V : Type} : ∀ {l1 l2 : KV.DB V}, Sorted l1 → Sorted l2 → (∀ p, p ∈ l1 ↔ p ∈ l2) → l1 = l2 := by
  intro l1
  induction l1 with
  | nil =>
    intro l2 _ _ h
    cases l2 with
    | nil => rfl
    | cons q l2 => have := (h q).mpr (by simp); simp at this
  | cons p l1 ih =>
    intro l2 h1 h2 h
    cases l2 with
    | nil => have := (h p).mp (by simp); simp at this
    | cons q l2 =>
      have hh1 := List.pairwise_cons.mp h1
      have hh2 := List.pairwise_cons.mp h2
      have hpq : p = q := by
        rcases List.mem_cons.mp ((h p).mp (by simp)) with e | hm
        · exact e
        · rcases List.mem_cons.mp ((h q).mpr (by simp)) with e | hm'
          · exact e.symm
          · have h3 := hh2.1 _ hm
            have h4 := hh1.1 _ hm'
            have := bytesLt_trans h3 h4
            rw [bytesLt_irrefl] at this; cases this
      subst hpq
      congr 1
      apply ih hh1.2 hh2.2
      intro r
      have hne1 : r ∈ l1 → r ≠ p := by
        rintro hr rfl
        have := hh1.1 _ hr; rw [bytesLt_irrefl] at this; cases this
      have hne2 : r ∈ l2 → r ≠ p := by
        rintro hr rfl
        have := hh2.1 _ hr; rw [bytesLt_irrefl] at this; cases this
      have := h r
      simp only [List.mem_cons] at this
      constructor
      · intro hr; exact (this.mp (Or.inr hr)).resolve_left (hne1 hr)
      · intro hr; exact (this.mpr (Or.inr hr)).resolve_left (hne2 hr)

/-! ### blocks -/

theorem Rep.BlockOf_eq (R : Rep db ns hs) {id : BlockID} {n : Nat} {x : Node} (hn : numOf ns id = some n)
    (hx : at1 ns n = some x) : BlockOf db id = blockOfRec x.br := by
  simp [BlockOf, R.getBlockByID_some hn hx]

theorem numOf_prefix {ns' : List Node} (T : TreeOK ns') (hp : ns <+: ns') {id : BlockID} {n : Nat}
    (h : numOf ns id = some n) : numOf ns' id = some n := by
  obtain ⟨x, hx, he⟩ := numOf_some h
  obtain ⟨t, rfl⟩ := hp
  exact T.numOf_eq (at1_append_of_some hx) he

theorem getBlockByID_ext {db' : DB} {ns' : List Node} {hs' : List Nat} (R : Rep db ns hs) (R' : Rep db' ns' hs')
    (hp : ns <+: ns') {id : BlockID} {n : Nat} (h : numOf ns id = some n) :
    getBlockByID db' id = getBlockByID db id := by
  obtain ⟨x, hx, he⟩ := numOf_some h
  have hn' := numOf_prefix R'.tree hp h
  have hx' : at1 ns' n = some x := by
    obtain ⟨t, rfl⟩ := hp
    exact at1_append_of_some hx
  rw [R.getBlockByID_some h hx, R'.getBlockByID_some hn' hx']

/-- the block shown by the API for a node -/
def apiBlock (x : Node) (id par : BlockID) : Block :=
  { id := id, parent := par, height := x.br.height, generator := x.br.generator, score := x.br.score,
    timestamp := x.br.timestamp }

theorem Rep.blockOfRec_genesis (R : Rep db ns hs) {x : Node} (hx : at1 ns 1 = some x) {id : BlockID} (hid : x.br.id = id.1) :
    blockOfRec x.br = if x.br.timestamp.toNat < 2 ^ 63 - 1 then .ok (apiBlock x id zeroID) else goPanic := by
  obtain ⟨g, hg, _, _, _, hpar⟩ := R.tree.genesis
  rw [hx] at hg; cases hg
  simp only [blockOfRec, hid, newBlockIDFromBytes_val, hpar, safeTimestamp, go_bind_ok, List.length_nil, Nat.lt_irrefl,
    if_false, go_pure, apiBlock]
  split <;> simp [goPanic]

theorem blockOfRec_par {x : Node} {id par : BlockID} (hid : x.br.id = id.1) (hpar : x.br.parent = par.1) :
    blockOfRec x.br = if x.br.timestamp.toNat < 2 ^ 63 - 1 then .ok (apiBlock x id par) else goPanic := by
  have hl : 0 < par.1.length := by have := par.2; omega
  simp only [blockOfRec, hid, newBlockIDFromBytes_val, hpar, safeTimestamp, go_bind_ok, apiBlock]
  rw [if_pos hl]
  split <;> simp [goPanic]

theorem Rep.blockOfRec (R : Rep db ns hs) {n : Nat} {x : Node} (hx : at1 ns n = some x) :
    ∃ id par : BlockID, x.br.id = id.1 ∧ (n ≠ 1 → x.br.parent = par.1) ∧ (n = 1 → par = zeroID) ∧
      blockOfRec x.br = if x.br.timestamp.toNat < 2 ^ 63 - 1 then .ok (apiBlock x id par) else goPanic := by
  by_cases h1 : n = 1
  · subst h1
    exact ⟨⟨x.br.id, R.tree.idlen _ _ hx⟩, zeroID, rfl, by simp, by simp, R.blockOfRec_genesis hx rfl⟩
  · obtain ⟨p, hp, hpp⟩ := R.tree.parN_ge_one hx h1
    refine ⟨⟨x.br.id, R.tree.idlen _ _ hx⟩, ⟨p.br.id, R.tree.idlen _ _ hp⟩, rfl, fun _ => hpp, by simp [h1], ?_⟩
    exact blockOfRec_par rfl hpp

/-! ### walks -/

/-- ids of the first `k` nodes of the path from `n` to genesis -/
def walkNums (ns : List Node) (n k : Nat) : List Nat := (List.range (min k (ht ns n))).map (up ns n)

theorem walkNums_zero (n : Nat) : walkNums ns n 0 = [] := by simp [walkNums]

theorem walkNums_succ (T : TreeOK ns) {n : Nat} {x : Node} (hx : at1 ns n = some x) (k : Nat) :
    walkNums ns n (k + 1) = n :: walkNums ns (parN ns n) k := by
  have hpos := T.ht_pos hx
  have e : min (k + 1) (ht ns n) = min k (ht ns (parN ns n)) + 1 := by rw [T.ht_parN]; omega
  unfold walkNums
  rw [e, List.range_succ_eq_map, List.map_cons, List.map_map]
  congr 1
  apply List.map_congr_left
  intro i _
  show up ns n (i + 1) = up ns (parN ns n) i
  rw [Nat.add_comm, up_add]; rfl

theorem TreeOK.eq_one_of_ht (T : TreeOK ns) {n : Nat} {x : Node} (hx : at1 ns n = some x) :
    clog2 (ht ns n) = 0 ↔ n = 1 := by
  have hpos := T.ht_pos hx
  have h0 := lt_clog2 (i := 0) (h := ht ns n)
  constructor
  · intro h
    apply T.ht_eq_one
    simp only [Nat.pow_zero] at h0
    omega
  · rintro rfl
    obtain ⟨g, hg, _, _, hh, _⟩ := T.genesis
    rw [ht_of_some hg, hh]; rfl

/-- id of a node number -/
def idOf (ns : List Node) (n : Nat) : Bytes :=
  match at1 ns n with
  | some x => x.br.id
  | none => []

theorem idOf_some {n : Nat} {x : Node} (h : at1 ns n = some x) : idOf ns n = x.br.id := by simp [idOf, h]

theorem Rep.ancestorsLoop (R : Rep db ns hs) : ∀ (k n : Nat) (x : Node), at1 ns n = some x →
    ∃ ids, ancestorsLoop db k (UInt64.ofNat n) = .ok ids ∧ ids.map (·.1) = (walkNums ns n k).map (idOf ns) := by
  intro k
  induction k with
  | zero => intro n x hx; exact ⟨[], rfl, by simp [walkNums_zero]⟩
  | succ k ih =>
    intro n x hx
    obtain ⟨id, hid, hnew, _⟩ := newID_of_node R.tree hx
    rw [Chains.ancestorsLoop, R.getLink_ofNat hx]
    have hnew' : newBlockIDFromBytes (linkOf ns n x).blockID = .ok id := hnew
    simp only [go_bind_ok, hnew']
    rw [walkNums_succ R.tree hx]
    have hlen := linkOf_parents_length (ns := ns) n x
    by_cases h1 : n = 1
    · have h0 := (R.tree.eq_one_of_ht hx).mpr h1
      rw [h0] at hlen
      rw [List.length_eq_zero_iff.mp hlen]
      refine ⟨[id], rfl, ?_⟩
      have : ht ns (parN ns n) = 0 := by
        rw [R.tree.ht_parN]
        obtain ⟨g, hg, _, _, hh, _⟩ := R.tree.genesis
        rw [h1, ht_of_some hg, hh]; rfl
      simp [walkNums, this, idOf_some hx, hid]
    · obtain ⟨p, hp, hpp⟩ := R.tree.parN_ge_one hx h1
      have hgt : 2 ^ 0 < ht ns n := by
        have := R.tree.ht_pos hp
        rw [R.tree.ht_parN] at this
        simp; omega
      have hg := linkOf_parents_get (ns := ns) n x hgt
      cases hc : (linkOf ns n x).parents with
      | nil => rw [hc] at hg; simp at hg
      | cons q rest =>
        rw [hc] at hg
        simp only [List.getElem?_cons_zero, Option.some.injEq] at hg
        subst hg
        have hup : up ns n (2 ^ 0) = parN ns n := rfl
        obtain ⟨ids, hids, hmap⟩ := ih _ p hp
        simp only [hup, hids, go_bind_ok, go_pure]
        exact ⟨_, rfl, by simp [hmap, idOf_some hx, hid]⟩

theorem Rep.LastIDs (R : Rep db ns hs) {id : BlockID} {n : Nat} (hn : numOf ns id = some n) (count : Nat) :
    ∃ ids, LastIDs db id count = .ok ids ∧ ids.map (·.1) = (walkNums ns n count).map (idOf ns) := by
  obtain ⟨x, hx, _⟩ := numOf_some hn
  obtain ⟨ids, h1, h2⟩ := R.ancestorsLoop count n x hx
  refine ⟨ids, ?_, h2⟩
  simp only [Chains.LastIDs, getAncestors, R.getNum, hn, go_bind_ok]
  rw [if_neg (by omega)]
  simpa using h1

theorem Rep.blocksLoop (R : Rep db ns hs) : ∀ (k n : Nat) (x : Node), at1 ns n = some x →
    blocksLoop db k (UInt64.ofNat n) =
      mapGo (fun m => match at1 ns m with | some y => Chains.blockOfRec y.br | none => goPanic) (walkNums ns n k) := by
  intro k
  induction k with
  | zero => intro n x hx; simp [Chains.blocksLoop, walkNums_zero, mapGo]
  | succ k ih =>
    intro n x hx
    rw [Chains.blocksLoop, R.getBlock_ofNat hx, walkNums_succ R.tree hx, mapGo]
    simp only [go_bind_ok, hx]
    cases hb : Chains.blockOfRec x.br with
    | error e => simp
    | ok b =>
      simp only [go_bind_ok]
      by_cases h1 : n = 1
      · have hpe : x.br.parent = [] := by
          obtain ⟨g, hg, _, _, _, hpar⟩ := R.tree.genesis
          rw [← h1, hx] at hg; cases hg; exact hpar
        have : ht ns (parN ns n) = 0 := by
          rw [R.tree.ht_parN]
          obtain ⟨g, hg, _, _, hh, _⟩ := R.tree.genesis
          rw [h1, ht_of_some hg, hh]; rfl
        simp [hpe, walkNums, this, mapGo]
      · obtain ⟨p, hp, hpp⟩ := R.tree.parN_ge_one hx h1
        have hpl : x.br.parent.length ≠ 0 := by
          have := R.tree.idlen _ _ hp
          rw [hpp]; omega
        rw [if_neg hpl, R.getLink_ofNat hx]
        have hgt : 2 ^ 0 < ht ns n := by
          have := R.tree.ht_pos hp
          rw [R.tree.ht_parN] at this
          simp; omega
        rw [go_bind_ok, R.goIndex_parents x hgt]
        have hup : up ns n (2 ^ 0) = parN ns n := rfl
        simp only [hup, go_bind_ok, ih _ p hp]

/-! ### leashes -/

/-- addresses that `leashes` visits -/
def Listed : Addr → Prop
  | .zero => False
  | .v4 _ => True
  | .v6 b _ => b.1 ≠ List.replicate 16 0xff

instance (a : Addr) : Decidable (Listed a) := by
  cases a <;> unfold Listed <;> infer_instance

theorem getLeash_plain (db : DB) {a b : Addr} (h : a.plain = b.plain) : getLeash db a = getLeash db b := by
  have : addrKey a = addrKey b := by rw [addrKey_inj]; exact slice_eq_iff.mpr h
  simp [getLeash, this]

theorem bytesLt_cons_same (p : UInt8) (a b : Bytes) : bytesLt (p :: a) (p :: b) = bytesLt a b := by
  simp [bytesLt]

theorem not_lt_zeros (n : Nat) : ∀ (b : Bytes), n ≤ b.length → bytesLt b (List.replicate n 0) = false := by
  induction n with
  | zero => intro b _; cases b <;> simp [bytesLt]
  | succ n ih =>
    intro b hb
    cases b with
    | nil => simp at hb
    | cons x b =>
      simp only [List.replicate_succ, bytesLt]
      have := ih b (by simpa using hb)
      simp [this]

theorem lt_ones (n : Nat) : ∀ (b : Bytes), b.length ≤ n → b ≠ List.replicate n 0xff →
    bytesLt b (List.replicate n 0xff) = true := by
  induction n with
  | zero => intro b hb hne; simp at hb; subst hb; simp at hne
  | succ n ih =>
    intro b hb hne
    cases b with
    | nil => simp [List.replicate_succ, bytesLt]
    | cons x b =>
      simp only [List.replicate_succ, bytesLt]
      by_cases hx : x = 0xff
      · subst hx
        have : b ≠ List.replicate n 0xff := by
          intro e; apply hne; rw [e]; rfl
        simp [ih b (by simpa using hb) this]
      · have : x < 0xff := by
          rw [UInt8.lt_iff_toNat_lt]
          have h1 := x.toNat_lt
          have h2 : x.toNat ≠ 255 := fun h => hx (UInt8.toNat_inj.mp (by simpa using h))
          show x.toNat < 255
          omega
        simp [this]

theorem addrKey_in_range (a : Addr) :
    (bytesLt (addrKey a) leashesStart = false ∧ bytesLt (addrKey a) leashesLimit = true) ↔ Listed a := by
  unfold leashesStart leashesLimit addrKey
  rw [bytesLt_cons_same, bytesLt_cons_same]
  cases a with
  | zero => simp [Addr.slice, Listed, bytesLt]
  | v4 b =>
    simp only [Addr.slice, Listed, iff_true]
    constructor
    · exact not_lt_zeros 4 b.1 (by rw [b.2]; exact Nat.le_refl _)
    · apply lt_ones 16 b.1 (by rw [b.2]; omega)
      intro e; have := b.2; rw [e] at this; simp at this
  | v6 b z =>
    simp only [Addr.slice, Listed]
    constructor
    · rintro ⟨_, h⟩ he
      rw [he, bytesLt_irrefl] at h; cases h
    · intro h
      exact ⟨not_lt_zeros 4 b.1 (by rw [b.2]; omega), lt_ones 16 b.1 (by rw [b.2]; exact Nat.le_refl _) h⟩

theorem prefix_in_range {k : Bytes} (h1 : bytesLt k leashesStart = false) (h2 : bytesLt k leashesLimit = true) :
    ∃ r, k = leashPrefix :: r := by
  cases k with
  | nil => simp [leashesStart, addrKey, bytesLt] at h1
  | cons p r =>
    refine ⟨r, ?_⟩
    congr 1
    simp only [leashesStart, addrKey, bytesLt] at h1
    simp only [leashesLimit, addrKey, bytesLt] at h2
    have hn1 : ¬ p < leashPrefix := by
      intro h; simp [h] at h1
    have hn2 : ¬ leashPrefix < p := by
      intro h
      have hne : p ≠ leashPrefix := by
        rintro rfl; exact absurd h (by simp)
      simp [hne, hn1] at h2
    rw [UInt8.lt_iff_toNat_lt] at hn1 hn2
    exact UInt8.toNat_inj.mp (by omega)

theorem addrKeyFrom_addrKey {a : Addr} (h : Listed a) : addrKeyFrom (addrKey a) = .ok a.plain := by
  cases a with
  | zero => exact absurd h (by simp [Listed])
  | v4 b => simp [addrKeyFrom, addrKey, Addr.slice, b.2, Addr.plain]
  | v6 b z => simp [addrKeyFrom, addrKey, Addr.slice, b.2, Addr.plain]

theorem listed_plain (a : Addr) : Listed a.plain ↔ Listed a := by cases a <;> simp [Addr.plain, Listed]
theorem plain_plain (a : Addr) : a.plain.plain = a.plain := by cases a <;> simp [Addr.plain]

theorem Rep.getLeash_ok (R : Rep db ns hs) (a : Addr) (id : BlockID) :
    Chains.getLeash db a = .ok id ↔ KV.get db (addrKey a) = some (.raw id.1) := by
  rw [R.getLeash]
  cases h : KV.get db (addrKey a) with
  | none => simp [fail]
  | some v =>
    obtain ⟨id', rfl⟩ := R.lsh a v h
    simp only [newBlockIDFromBytes_val, Except.ok.injEq, Option.some.injEq, Val.raw.injEq]
    exact Subtype.ext_iff

theorem Rep.getLeash_cases (R : Rep db ns hs) (a : Addr) :
    (∃ id, Chains.getLeash db a = .ok id) ∨ Chains.getLeash db a = fail .notFound := by
  rw [R.getLeash]
  cases h : KV.get db (addrKey a) with
  | none => exact Or.inr rfl
  | some v =>
    obtain ⟨id', rfl⟩ := R.lsh a v h
    exact Or.inl ⟨id', by simp [newBlockIDFromBytes_val]⟩

theorem Rep.leashOf (R : Rep db ns hs) {k : Bytes} {v : Val} (h : (k, v) ∈ scan db leashesStart leashesLimit) :
    ∃ a id, Listed a ∧ a = a.plain ∧ k = addrKey a ∧ v = .raw id.1 ∧ Chains.getLeash db a = .ok id ∧
      leashOf (k, v) = .ok { addr := a, blockID := id } := by
  obtain ⟨hg, h1, h2⟩ := (mem_scan R.sorted).mp h
  obtain ⟨r, rfl⟩ := prefix_in_range h1 h2
  obtain ⟨a, rfl⟩ := R.k3 r v hg
  have hk : leashPrefix :: a.slice = addrKey a := rfl
  rw [hk] at hg h1 h2 ⊢
  have hl := (addrKey_in_range a).mp ⟨h1, h2⟩
  obtain ⟨id, rfl⟩ := R.lsh a v hg
  have hpk : addrKey a = addrKey a.plain := by
    rw [addrKey_inj]; exact slice_eq_iff.mpr (plain_plain a).symm
  refine ⟨a.plain, id, (listed_plain a).mpr hl, (plain_plain a).symm, hpk, rfl, ?_, ?_⟩
  · rw [getLeash_plain db (plain_plain a)]; exact (R.getLeash_ok a id).mpr hg
  · simp [Chains.leashOf, addrKeyFrom_addrKey hl, newBlockIDFromBytes_val]

theorem Rep.leashes (R : Rep db ns hs) : ∃ ls, leashes db = .ok ls ∧ (ls.map (·.addr)).Nodup ∧
    ∀ a id, { addr := a, blockID := id } ∈ ls ↔ Listed a ∧ a = a.plain ∧ Chains.getLeash db a = .ok id := by
  have hall : ∀ l : List (Bytes × Val), (∀ p, p ∈ l → p ∈ scan db leashesStart leashesLimit) →
      ∃ ls, mapGo Chains.leashOf l = .ok ls := by
    intro l
    induction l with
    | nil => intro _; exact ⟨[], rfl⟩
    | cons p l ih =>
      intro hl
      obtain ⟨ls, hls⟩ := ih (fun q hq => hl q (List.mem_cons_of_mem _ hq))
      obtain ⟨a, id, _, _, _, _, _, h⟩ := R.leashOf (k := p.1) (v := p.2) (hl p (by simp))
      exact ⟨_, by rw [mapGo, h]; simp only [go_bind_ok, hls]; rfl⟩
  obtain ⟨ls, hls⟩ := hall _ (fun _ h => h)
  refine ⟨ls, hls, ?_, ?_⟩
  · -- nodup: the keys are pairwise different
    have hsorted := sorted_scan R.sorted leashesStart leashesLimit
    have hkeys : (scan db leashesStart leashesLimit).Pairwise (fun p q => p.1 ≠ q.1) :=
      hsorted.imp (fun h => bytesLt_ne h)
    have key : ∀ (l : List (Bytes × Val)) (ls : List Leash), (∀ p, p ∈ l → p ∈ scan db leashesStart leashesLimit) →
        l.Pairwise (fun p q => p.1 ≠ q.1) → mapGo Chains.leashOf l = .ok ls → (ls.map (·.addr)).Nodup := by
      intro l
      induction l with
      | nil => intro ls _ _ h; simp only [mapGo, Except.ok.injEq] at h; subst h; simp
      | cons p l ih =>
        intro ls hl hp h
        obtain ⟨b, r', hb, hr, rfl⟩ := mapGo_cons_ok h
        have hp' := List.pairwise_cons.mp hp
        have ih' := ih r' (fun q hq => hl q (List.mem_cons_of_mem _ hq)) hp'.2 hr
        simp only [List.map_cons, List.nodup_cons]
        refine ⟨?_, ih'⟩
        intro hm
        obtain ⟨b2, hb2, he⟩ := List.mem_map.mp hm
        obtain ⟨q, hq, hqe⟩ := mapGo_mem hr hb2
        obtain ⟨a1, id1, _, _, hk1, _, _, hres1⟩ := R.leashOf (k := p.1) (v := p.2) (hl p (by simp))
        obtain ⟨a2, id2, _, _, hk2, _, _, hres2⟩ := R.leashOf (k := q.1) (v := q.2) (hl q (List.mem_cons_of_mem _ hq))
        have e1 : b = ⟨a1, id1⟩ := by have := hb.symm.trans hres1; simpa using this
        have e2 : b2 = ⟨a2, id2⟩ := by have := hqe.symm.trans hres2; simpa using this
        subst e1; subst e2
        simp only at he
        subst he
        exact hp'.1 q hq (hk1.trans hk2.symm)
    exact key _ ls (fun _ h => h) hkeys hls
  · intro a id
    constructor
    · intro h
      obtain ⟨p, hp, he⟩ := mapGo_mem hls h
      obtain ⟨a1, id1, hl, hpl, _, _, hg, hres⟩ := R.leashOf (k := p.1) (v := p.2) hp
      have : (⟨a, id⟩ : Leash) = ⟨a1, id1⟩ := by have := he.symm.trans hres; simpa using this
      cases this
      exact ⟨hl, hpl, hg⟩
    · rintro ⟨hl, hpl, hg⟩
      have hm : (addrKey a, Val.raw id.1) ∈ scan db leashesStart leashesLimit :=
        (mem_scan R.sorted).mpr ⟨(R.getLeash_ok a id).mp hg, (addrKey_in_range a).mpr hl⟩
      obtain ⟨b, hb, he⟩ := mapGo_mem' hls hm
      have : b = ⟨a, id⟩ := by
        simp only [Chains.leashOf, addrKeyFrom_addrKey hl, newBlockIDFromBytes_val, go_bind_ok, go_pure,
          Except.ok.injEq] at he
        rw [← he, ← hpl]
      rw [← this]; exact hb

/-! ### heads -/

theorem head_prefix_in_range {k : Bytes} (h1 : bytesLt k (numKey headToBlockPrefix 0) = false)
    (h2 : bytesLt k (numKey headToBlockPrefix (UInt64.ofNat (2 ^ 64 - 1))) = true) :
    ∃ r, k = headToBlockPrefix :: r := by
  cases k with
  | nil => simp [numKey, bytesLt] at h1
  | cons p r =>
    refine ⟨r, ?_⟩
    congr 1
    simp only [numKey, bytesLt] at h1 h2
    have hn1 : ¬ p < headToBlockPrefix := by
      intro h; simp [h] at h1
    have hn2 : ¬ headToBlockPrefix < p := by
      intro h
      have hne : p ≠ headToBlockPrefix := by
        rintro rfl; exact absurd h (by simp)
      simp [hne, hn1] at h2
    rw [UInt8.lt_iff_toNat_lt] at hn1 hn2
    exact UInt8.toNat_inj.mp (by omega)

/-- the key/value pairs of the heads index -/
def headPairs (hs : List Nat) : List (Bytes × Val) :=
  (List.range hs.length).map (fun i => (numKey headToBlockPrefix (UInt64.ofNat (i + 1)), rawNum ((at1 hs (i + 1)).getD 0)))

theorem Rep.scan_heads (R : Rep db ns hs) :
    scan db (numKey headToBlockPrefix 0) (numKey headToBlockPrefix (UInt64.ofNat (2 ^ 64 - 1))) = headPairs hs := by
  have hlen : hs.length < 2 ^ 32 := Nat.lt_of_le_of_lt R.hbound R.bound
  apply sorted_ext
  · exact sorted_scan R.sorted _ _
  · unfold Sorted headPairs
    rw [List.pairwise_map]
    refine List.Pairwise.imp_of_mem ?_ List.pairwise_lt_range
    intro i j hi hj hij
    simp only [List.mem_range] at hi hj
    rw [bytesLt_numKey, UInt64.lt_iff_toNat_lt, toNat_ofNat64 (by omega), toNat_ofNat64 (by omega)]
    omega
  · rintro ⟨k, v⟩
    rw [mem_scan R.sorted]
    simp only [headPairs, List.mem_map, List.mem_range, Prod.mk.injEq]
    constructor
    · rintro ⟨hg, h1, h2⟩
      obtain ⟨r, rfl⟩ := head_prefix_in_range h1 h2
      obtain ⟨n, rfl⟩ := R.k4 r v hg
      have hk : headToBlockPrefix :: be64 n = numKey headToBlockPrefix n := rfl
      rw [hk, R.h2b] at hg
      simp only [Option.map_eq_some_iff] at hg
      obtain ⟨m, hm, rfl⟩ := hg
      have hle := at1_le hm
      refine ⟨n.toNat - 1, by omega, ?_, ?_⟩
      · rw [hk]; congr 1
        rw [show n.toNat - 1 + 1 = n.toNat by omega]; exact UInt64.ofNat_toNat
      · rw [show n.toNat - 1 + 1 = n.toNat by omega, hm]; rfl
    · rintro ⟨i, hi, rfl, rfl⟩
      have e : (UInt64.ofNat (i + 1)).toNat = i + 1 := toNat_ofNat64 (by omega)
      obtain ⟨m, hm⟩ := at1_isSome (l := hs) (n := i + 1) (by omega) (by omega)
      refine ⟨?_, ?_, ?_⟩
      · rw [R.h2b, e, hm]; rfl
      · rw [Bool.eq_false_iff]
        intro h
        rw [bytesLt_numKey, UInt64.lt_iff_toNat_lt, e] at h
        simp at h
      · rw [bytesLt_numKey, UInt64.lt_iff_toNat_lt, e, toNat_ofNat64 (by omega)]
        omega

theorem Rep.heads (R : Rep db ns hs) : ∃ hd, heads db = .ok hd ∧ hd.map (·.num) =
      (List.range hs.length).map (fun i => UInt64.ofNat (i + 1)) ∧
      hd.map (fun h => h.blockID.1) = hs.map (idOf ns) := by
  have hlen : hs.length < 2 ^ 32 := Nat.lt_of_le_of_lt R.hbound R.bound
  -- first pass
  have hgh : getHeads db = .ok ((List.range hs.length).map
      (fun i => (UInt64.ofNat (i + 1), UInt64.ofNat ((at1 hs (i + 1)).getD 0)))) := by
    unfold getHeads
    rw [R.scan_heads, headPairs]
    have := mapGo_total (f := headOf) (g := fun p => ((Except.toOption (headOf p)).getD (0, 0)))
      (l := (List.range hs.length).map (fun i => (numKey headToBlockPrefix (UInt64.ofNat (i + 1)), rawNum ((at1 hs (i + 1)).getD 0))))
      (by
        intro p hp
        obtain ⟨i, _, rfl⟩ := List.mem_map.mp hp
        simp [headOf, numKeyFrom_numKey, rawNum, be64Dec_be64, Except.toOption])
    rw [this, List.map_map]
    congr 1
    apply List.map_congr_left
    intro i _
    simp [headOf, numKeyFrom_numKey, rawNum, be64Dec_be64, Except.toOption]
  unfold Chains.heads
  rw [hgh]
  simp only [go_bind_ok]
  let f : UInt64 × UInt64 → Go Head := fun p => do
    let bl ← getBlock db p.2
    let id ← newBlockIDFromBytes bl.id
    pure { num := p.1, blockID := id }
  have hnode : ∀ i, i < hs.length → ∃ m bid, hs[i]? = some m ∧ bid.1 = idOf ns m ∧
      f (UInt64.ofNat (i + 1), UInt64.ofNat ((at1 hs (i + 1)).getD 0)) = .ok { num := UInt64.ofNat (i + 1), blockID := bid } := by
    intro i hi
    obtain ⟨m, hm⟩ := at1_isSome (l := hs) (n := i + 1) (by omega) (by omega)
    obtain ⟨⟨x, hx⟩, _⟩ := (R.hok.mem m).mp (at1_mem hm)
    obtain ⟨bid, h1, h2, _⟩ := newID_of_node R.tree hx
    refine ⟨m, bid, by simpa using hm, by rw [h1, idOf_some hx], ?_⟩
    generalize UInt64.ofNat (i + 1) = w
    simp only [f, hm, Option.getD_some, R.getBlock_ofNat hx, go_bind_ok, h2, go_pure]
  have hok : ∀ p, p ∈ (List.range hs.length).map
      (fun i => (UInt64.ofNat (i + 1), UInt64.ofNat ((at1 hs (i + 1)).getD 0))) → f p = .ok ((Except.toOption (f p)).getD ⟨0, zeroID⟩) := by
    intro p hp
    obtain ⟨i, hi, rfl⟩ := List.mem_map.mp hp
    obtain ⟨m, bid, _, _, hf⟩ := hnode i (by simpa using hi)
    simp only [hf, Except.toOption, Option.getD_some]
  have htot := mapGo_total hok
  refine ⟨_, htot, ?_, ?_⟩
  · rw [List.map_map, List.map_map]
    apply List.map_congr_left
    intro i hi
    obtain ⟨m, bid, _, _, hf⟩ := hnode i (by simpa using hi)
    simp only [Function.comp, hf, Except.toOption, Option.getD_some]
  · rw [List.map_map, List.map_map]
    apply List.ext_getElem?
    intro i
    by_cases hi : i < hs.length
    · obtain ⟨m, bid, hm, hid, hf⟩ := hnode i hi
      rw [List.getElem?_map, List.getElem?_map, List.getElem?_range hi, hm]
      simp only [Option.map_some, Function.comp, hf, Except.toOption, Option.getD_some, hid]
    · rw [List.getElem?_eq_none (by simp; omega), List.getElem?_eq_none (by simp; omega)]

end Verif.Chains
