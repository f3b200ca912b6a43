import Verif.Services.Shown
import Verif.Services.Calm
import Verif.Props.TrueForks
/-
The report of the forks when all peers that are reported on are up to date: vocabulary and lemmas for property C113.
-/

set_option autoImplicit false

namespace Verif.Services

open Verif
open Verif.Chains (Addr BlockID ProtoBlock Linkage LeashOf Forks Fork Env Leash Leashes)
open Verif.Chains.Spec (Truth Below Steps LastCommon Selected Readable Close)
open Verif.Loading (Serving TrueHistory History worth base)
open Verif.Services.Fine (top)

/-- the number of blocks at the beginning that two histories have in common -/
def agree : List ProtoBlock → List ProtoBlock → Nat
  | x :: xs, y :: ys => if x.id = y.id then agree xs ys + 1 else 0
  | _, _ => 0

/-- The entry of the report for a peer with the history `ch`, when the best history is `best`: it has the last block of the history, with its height, score,
time and generator, the last block that the two have in common, and the number of blocks since then; it is marked as the longest if the last
block is the same. -/
structure Entry (g : ProtoBlock) (best ch : List ProtoBlock) (f : Fork) : Prop where
  head : ∃ b, ch.getLast? = some b ∧ f.headBlock = b.id ∧ f.headTimestamp = b.timestamp ∧ some f.headGenerator = b.generator
  height : f.headHeight.toNat = ch.length
  score : f.score = top g ch
  common : ∃ c, ch[agree best ch - 1]? = some c ∧ f.lastCommonBlock = c.id
  length : f.length = ch.length - agree best ch
  longest : f.longest = true ↔ ∃ b, best.getLast? = some b ∧ f.headBlock = b.id

variable {T : Truth} {g : ProtoBlock} {ch ch' : List ProtoBlock} {N : Nat} {lk : Linkage}

/-! ### histories -/

theorem agree_le : ∀ (xs ys : List ProtoBlock), agree xs ys ≤ xs.length ∧ agree xs ys ≤ ys.length
  | [], _ => ⟨Nat.zero_le _, Nat.zero_le _⟩
  | _ :: _, [] => ⟨Nat.zero_le _, Nat.zero_le _⟩
  | x :: xs, y :: ys => by
    obtain ⟨h1, h2⟩ := agree_le xs ys
    unfold agree
    split
    · exact ⟨Nat.succ_le_succ h1, Nat.succ_le_succ h2⟩
    · exact ⟨Nat.zero_le _, Nat.zero_le _⟩

/-- the blocks that they have in common -/
theorem agree_below : ∀ (xs ys : List ProtoBlock) (i : Nat), i < agree xs ys → ∃ x y, xs[i]? = some x ∧ ys[i]? = some y ∧ x.id = y.id
  | [], _, _, h => by cases h
  | _ :: _, [], _, h => by cases h
  | x :: xs, y :: ys, i, h => by
    unfold agree at h
    split at h
    · rename_i he
      cases i with
      | zero => exact ⟨x, y, rfl, rfl, he⟩
      | succ i => exact agree_below xs ys i (Nat.lt_of_succ_lt_succ h)
    · cases h

/-- if all blocks up to an index are the same, it is one of them -/
theorem lt_agree : ∀ (i : Nat) (xs ys : List ProtoBlock), (∀ j, j ≤ i → ∃ x y, xs[j]? = some x ∧ ys[j]? = some y ∧ x.id = y.id) → i < agree xs ys
  | i, xs, ys, h => by
    obtain ⟨x, y, h1, h2, h3⟩ := h 0 (Nat.zero_le _)
    cases xs with
    | nil => cases h1
    | cons x0 xs =>
      cases ys with
      | nil => cases h2
      | cons y0 ys =>
        cases h1; cases h2
        unfold agree
        rw [if_pos h3]
        cases i with
        | zero => exact Nat.succ_pos _
        | succ i => exact Nat.succ_lt_succ (lt_agree i xs ys (fun j hj => h (j + 1) (Nat.succ_le_succ hj)))

/-- a block has the same index in all true histories -/
theorem same_index (H : TrueHistory T g ch) (H' : TrueHistory T g ch') : ∀ (i j : Nat) (x y : ProtoBlock), ch[i]? = some x → ch'[j]? = some y → x.id = y.id →
    i = j ∧ ∀ k, k ≤ i → ∃ x y, ch[k]? = some x ∧ ch'[k]? = some y ∧ x.id = y.id
  | 0, 0, x, y, hx, hy, he => ⟨rfl, fun k hk => by cases Nat.le_zero.mp hk; exact ⟨x, y, hx, hy, he⟩⟩
  | 0, j + 1, x, y, hx, hy, he => by
    rw [H.first] at hx; cases hx
    exact absurd he.symm (H'.other hy)
  | i + 1, 0, x, y, hx, hy, he => by
    rw [H'.first] at hy; cases hy
    exact absurd he (H.other hx)
  | i + 1, j + 1, x, y, hx, hy, he => by
    obtain ⟨x1, hx1, hpx, _⟩ := H.below hx
    obtain ⟨y1, hy1, hpy, _⟩ := H'.below hy
    obtain ⟨h1, h2⟩ := same_index H H' i j x1 y1 hx1 hy1 (by rw [← hpx, ← hpy, he])
    subst h1
    refine ⟨rfl, fun k hk => ?_⟩
    by_cases hki : k ≤ i
    · exact h2 k hki
    · cases (show k = i + 1 by omega)
      exact ⟨x, y, hx, hy, he⟩

/-- the true chain of a block of a history is the part of the history up to it -/
theorem below_iff (H : TrueHistory T g ch) : ∀ (i : Nat) (x : ProtoBlock) (d : BlockID), ch[i]? = some x → (Below T g d x.id ↔ ∃ j y, j ≤ i ∧ ch[j]? = some y ∧ y.id = d)
  | 0, x, d, hx => by
    constructor
    · intro h
      rw [H.first] at hx; cases hx
      generalize hg : g.id = a at h
      cases h with
      | refl => exact ⟨0, _, Nat.le_refl _, H.first, hg⟩
      | step hne _ => exact absurd hg.symm hne
    · rintro ⟨j, y, hj, hy, rfl⟩
      cases Nat.le_zero.mp hj
      rw [hx] at hy; cases hy
      exact .refl _
  | i + 1, x, d, hx => by
    obtain ⟨x1, hx1, hpx, _⟩ := H.below hx
    have ih := below_iff H i x1 d hx1
    constructor
    · intro h
      generalize hg : x.id = a at h
      cases h with
      | refl => exact ⟨i + 1, x, Nat.le_refl _, hx, hg⟩
      | step _ h =>
        rw [← hg, hpx] at h
        obtain ⟨j, y, hj, h⟩ := ih.mp h
        exact ⟨j, y, by omega, h⟩
    · rintro ⟨j, y, hj, hy, rfl⟩
      by_cases hji : j ≤ i
      · exact .step (H.other hx) (by rw [hpx]; exact ih.mpr ⟨j, y, hji, hy, rfl⟩)
      · cases (show j = i + 1 by omega)
        rw [hx] at hy; cases hy
        exact .refl _

/-- the number of steps down to a block of the history -/
theorem steps_eq (H : TrueHistory T g ch) : ∀ (k i : Nat) (x : ProtoBlock) (d : BlockID), ch[i]? = some x → Steps T g k x.id d → k ≤ i ∧ ∃ y, ch[i - k]? = some y ∧ y.id = d
  | 0, i, x, d, hx, h => by
    generalize hg : x.id = a at h
    cases h
    exact ⟨Nat.zero_le _, x, hx, hg⟩
  | k + 1, i, x, d, hx, h => by
    generalize hg : x.id = a at h
    cases h with
    | succ hne h =>
      cases i with
      | zero => rw [H.first] at hx; cases hx; exact absurd hg.symm hne
      | succ i =>
        obtain ⟨x1, hx1, hpx, _⟩ := H.below hx
        rw [← hg, hpx] at h
        obtain ⟨h1, h2⟩ := steps_eq H k i x1 d hx1 h
        exact ⟨Nat.succ_le_succ h1, by rw [Nat.add_sub_add_right]; exact h2⟩

theorem agree_pos (H : TrueHistory T g ch) (H' : TrueHistory T g ch') : 0 < agree ch ch' :=
  lt_agree 0 _ _ (fun j hj => by cases Nat.le_zero.mp hj; exact ⟨g, g, H.first, H'.first, rfl⟩)

/-- a history that is the beginning of another one agrees with it -/
theorem agree_prefix : ∀ {xs ys : List ProtoBlock}, xs <+: ys → agree xs ys = xs.length ∧ agree ys xs = xs.length
  | [], ys, _ => by cases ys <;> exact ⟨rfl, rfl⟩
  | x :: xs, ys, h => by
    obtain ⟨t, rfl⟩ := h
    have := agree_prefix (xs := xs) (ys := xs ++ t) ⟨t, rfl⟩
    show (if x.id = x.id then _ else _) = _ ∧ (if x.id = x.id then _ else _) = _
    rw [if_pos rfl, if_pos rfl]
    exact ⟨congrArg (· + 1) this.1, congrArg (· + 1) this.2⟩

/-- a longer history has a higher score -/
theorem top_prefix (H : TrueHistory T g ch') (h : ch <+: ch') (hlt : ch.length < ch'.length) (hne : ch ≠ []) : top g ch < top g ch' := by
  obtain ⟨t, rfl⟩ := h
  have hpos := List.length_pos_iff.mpr hne
  have := Loading.worth_mono (s0 := base g) H.history (i := ch.length - 1) (j := (ch ++ t).length - 1) (by omega) (by omega)
  have he : ∀ i, i < ch.length → worth (base g) (ch ++ t) i = worth (base g) ch i := by
    intro i
    induction i with
    | zero => intro _; rfl
    | succ i ih =>
      intro hi
      rw [worth, worth, ih (by omega), List.getElem?_append_left hi]
  unfold top
  rw [← he _ (by omega)]
  exact this

/-- the last common block of the last blocks of two histories -/
theorem common_eq (H : TrueHistory T g ch) (H' : TrueHistory T g ch') {b b' : ProtoBlock} {c : BlockID} (hb : ch.getLast? = some b) (hb' : ch'.getLast? = some b')
    (h : LastCommon T g b.id b'.id c) : ∃ y, ch'[agree ch ch' - 1]? = some y ∧ c = y.id := by
  rw [List.getLast?_eq_getElem?] at hb hb'
  obtain ⟨h1, h2, h3⟩ := h
  have hpos := agree_pos H H'
  obtain ⟨l1, l2⟩ := agree_le ch ch'
  obtain ⟨i, x, hi, hx, hxc⟩ := (below_iff H _ b c hb).mp h1
  obtain ⟨j, y, hj, hy, hyc⟩ := (below_iff H' _ b' c hb').mp h2
  obtain ⟨rfl, hall⟩ := same_index H H' i j x y hx hy (hxc.trans hyc.symm)
  have hlt := lt_agree i ch ch' hall
  obtain ⟨u, v, hu, hv, huv⟩ := agree_below ch ch' (agree ch ch' - 1) (by omega)
  have hd := h3 u.id ((below_iff H _ b u.id hb).mpr ⟨_, u, by omega, hu, rfl⟩) ((below_iff H' _ b' u.id hb').mpr ⟨_, v, by omega, hv, huv.symm⟩)
  rw [← hxc] at hd
  obtain ⟨k, z, hk, hz, hzu⟩ := (below_iff H i x u.id hx).mp hd
  have hkk := H.history.index hz hu hzu
  have : i = agree ch ch' - 1 := by omega
  subst this
  exact ⟨y, hy, hyc.symm⟩

/-! ### the report -/

/-- the peer is up to date: its position is the last block of a true history -/
structure Placed (T : Truth) (g : ProtoBlock) (lk : Linkage) (a : Addr) (ch : List ProtoBlock) : Prop where
  history : TrueHistory T g ch
  two : 2 ≤ ch.length
  v4 : ∃ b, a = .v4 b
  last : ∃ b, ch.getLast? = some b ∧ LeashOf lk a = .ok b.id

/-- the position of the peer is listed, and no other one -/
theorem Placed.leash {a : Addr} (h : Placed T g lk a ch) (hH : Chains.Spec.Holds T g lk) (S : Serving g N lk) {ls : List Leash} (hls : Leashes lk.db = .ok ls)
    {b : ProtoBlock} (hb : ch.getLast? = some b) : ∀ id, { addr := a, blockID := id } ∈ ls ↔ id = b.id := by
  obtain ⟨ns, hs, R', _⟩ := Chains.reachable_rep hH.reachable
  obtain ⟨ls', hls', _, hmem⟩ := R'.leashes
  rw [show Chains.leashes lk.db = .ok ls from hls] at hls'; cases hls'
  obtain ⟨b', hb', hle⟩ := h.last
  rw [hb] at hb'; cases hb'
  have hlast : ch[ch.length - 1]? = some b := by rw [← List.getLast?_eq_getElem?]; exact hb
  have hne : b.id ≠ g.id := h.history.other (k := ch.length - 2) (by rw [show ch.length - 2 + 1 = ch.length - 1 by have := h.two; omega]; exact hlast)
  have hgl : Chains.getLeash lk.db a = .ok b.id := by
    unfold LeashOf at hle
    rw [S.genesis_eq] at hle
    split at hle
    · rename_i id hid; rw [hid]; exact hle
    · exact absurd (Except.ok.inj hle).symm hne
    · cases hle
  obtain ⟨b4, rfl⟩ := h.v4
  intro id
  rw [hmem, hgl]
  constructor
  · rintro ⟨_, _, he⟩; exact (Except.ok.inj he).symm
  · rintro rfl; exact ⟨trivial, rfl, rfl⟩

variable {hist : Addr → List ProtoBlock} {filter : List Addr}

/-- the report about peers that are all up to date -/
theorem forked (hH : Chains.Spec.Holds T g lk) (S : Serving g N lk) (hne : filter ≠ []) (hP : ∀ a, a ∈ filter → Placed T g lk a (hist a)) (env : Env)
    {ks : List Fork} (hf : Forks env lk.db filter = .ok ks) :
    ∃ lead, lead ∈ filter ∧ (∀ a, a ∈ filter → top g (hist a) ≤ top g (hist lead)) ∧ (ks.map (·.headBlock)).Nodup ∧
      (∀ a, a ∈ filter → ∃ f, f ∈ ks ∧ a ∈ f.peers) ∧
      ∀ f, f ∈ ks → (∃ a, a ∈ f.peers) ∧ ∀ a, (a ∈ f.peers ↔ a ∈ filter ∧ ∃ b, (hist a).getLast? = some b ∧ f.headBlock = b.id) ∧
        (a ∈ f.peers → Entry g (hist lead) (hist a) f) := by
  obtain ⟨ls, hls, hnd, hids, hent⟩ := Props.C15_partition hH.reachable env filter hf
  obtain ⟨f0, rest, rfl, hlong, hshort, hpair, hscore⟩ := Props.C16_ranked hH.reachable env filter hf
  have hsel : ∀ a id, Selected filter ls a id ↔ a ∈ filter ∧ ∃ b, (hist a).getLast? = some b ∧ id = b.id := by
    intro a id
    constructor
    · rintro ⟨h1, h2⟩
      have ha : a ∈ filter := by
        rcases h2 with h | h
        · exact absurd h hne
        · exact h
      obtain ⟨b, hb, _⟩ := (hP a ha).last
      exact ⟨ha, b, hb, ((hP a ha).leash hH S hls hb id).mp h1⟩
    · rintro ⟨ha, b, hb, he⟩
      exact ⟨((hP a ha).leash hH S hls hb id).mpr he, Or.inr ha⟩
  obtain ⟨lead, hlead⟩ := (hids f0.headBlock).mp (by simp)
  obtain ⟨hlf, b0, hb0, he0⟩ := (hsel _ _).mp hlead
  have hH0 := (hP lead hlf).history
  have hentry : ∀ a, a ∈ filter → ∃ f, f ∈ f0 :: rest ∧ Entry g (hist lead) (hist a) f := by
    intro a ha
    have Pa := hP a ha
    obtain ⟨b, hb, hle⟩ := Pa.last
    obtain ⟨b4, hb4⟩ := Pa.v4
    obtain ⟨f, hm, _, h1, h2, h3, h4, h5⟩ := shown Pa.history hH S Pa.two hb hle (by rw [hb4]; trivial) (by rw [hb4]; rfl) env filter (Or.inr ha) hf
    obtain ⟨hlc, ⟨k, hst, hk⟩, _, _⟩ := Props.C96_report hH env filter hf f hm
    rw [he0, h1] at hlc
    obtain ⟨c, hc, hce⟩ := common_eq hH0 Pa.history hb0 hb hlc
    have hbl := hb
    rw [List.getLast?_eq_getElem?] at hbl
    rw [h1] at hst
    obtain ⟨hki, y, hy, hyc⟩ := steps_eq Pa.history k _ b _ hbl hst
    have hidx := Pa.history.history.index hy hc (hyc.trans hce)
    have hpos := agree_pos hH0 Pa.history
    have hag := (agree_le (hist lead) (hist a)).2
    refine ⟨f, hm, ⟨b, hb, h1, h4, h5⟩, h2, h3, ⟨c, hc, hce⟩, by rw [hk]; omega, ?_⟩
    constructor
    · intro hl
      rcases List.mem_cons.mp hm with rfl | hr
      · exact ⟨b0, hb0, he0⟩
      · rw [hshort f hr] at hl; cases hl
    · rintro ⟨b', hb', he'⟩
      rw [hb0] at hb'; cases hb'
      have : f = f0 := Chains.nodup_map_inj hnd hm List.mem_cons_self (he'.trans he0.symm)
      rw [this]; exact hlong
  have hmem : ∀ f, f ∈ f0 :: rest → ∀ a, (a ∈ f.peers ↔ a ∈ filter ∧ ∃ b, (hist a).getLast? = some b ∧ f.headBlock = b.id) :=
    fun f hm a => by rw [(hent f hm).1 a, hsel]
  refine ⟨lead, hlf, fun a ha => ?_, hnd, fun a ha => ?_, fun f hm => ⟨?_, fun a => ⟨hmem f hm a, fun ha => ?_⟩⟩⟩
  · obtain ⟨f, hm, E⟩ := hentry a ha
    obtain ⟨f', hm', E'⟩ := hentry lead hlf
    have : f' = f0 := Chains.nodup_map_inj hnd hm' List.mem_cons_self (by
      obtain ⟨b, hb, hh, _⟩ := E'.head
      rw [hb0] at hb; cases hb
      exact hh.trans he0.symm)
    rw [← E.score, ← E'.score, this]
    rcases List.mem_cons.mp hm with rfl | hr
    · exact Nat.le_refl _
    · have := (List.pairwise_cons.mp hpair).1 f hr
      omega
  · obtain ⟨f, hm, E⟩ := hentry a ha
    obtain ⟨b, hb, hh, _⟩ := E.head
    exact ⟨f, hm, (hmem f hm a).mpr ⟨ha, b, hb, hh⟩⟩
  · obtain ⟨p, hp⟩ := (hids f.headBlock).mp (List.mem_map.mpr ⟨f, hm, rfl⟩)
    exact ⟨p, ((hent f hm).1 p).mpr hp⟩
  · obtain ⟨hfa, b, hb, hh⟩ := (hmem f hm a).mp ha
    obtain ⟨f', hm', E⟩ := hentry a hfa
    obtain ⟨b', hb', hh', _⟩ := E.head
    rw [hb] at hb'; cases hb'
    rw [Chains.nodup_map_inj hnd hm hm' (hh.trans hh'.symm)]
    exact E

/-- the report is given -/
theorem forked_answers (hH : Chains.Spec.Holds T g lk) (S : Serving g N lk) (hne : filter ≠ []) (hP : ∀ a, a ∈ filter → Placed T g lk a (hist a))
    (ht : ∀ a, a ∈ filter → ∀ b, (hist a).getLast? = some b → b.timestamp.toNat < 2 ^ 63 - 1)
    (hc : ∀ a a', a ∈ filter → a' ∈ filter → min (hist a).length (hist a').length ≤ 3 * agree (hist a) (hist a') + 2) (env : Env) :
    ∃ ks, Forks env lk.db filter = .ok ks := by
  obtain ⟨ns, hs, R', _⟩ := Chains.reachable_rep hH.reachable
  obtain ⟨ls, hls, _, _⟩ := R'.leashes
  have hread : ∀ a b, a ∈ filter → (hist a).getLast? = some b → ∃ r, Chains.getBlockByID lk.db b.id = .ok r := by
    intro a b ha hb
    obtain ⟨b', hb', hle⟩ := (hP a ha).last
    rw [hb] at hb'; cases hb'
    obtain ⟨s, _, r, hr, _⟩ := Loading.leashScore_of S a b.id hle
    exact ⟨r, hr⟩
  have hsel : ∀ a id, Selected filter ls a id → a ∈ filter ∧ ∃ b, (hist a).getLast? = some b ∧ id = b.id := by
    rintro a id ⟨h1, h2⟩
    have ha : a ∈ filter := by
      rcases h2 with h | h
      · exact absurd h hne
      · exact h
    obtain ⟨b, hb, _⟩ := (hP a ha).last
    exact ⟨ha, b, hb, ((hP a ha).leash hH S hls hb id).mp h1⟩
  refine Props.C15_C16_C17_answers hH.reachable env filter ls hls ?_ ?_ ?_
  · cases hfl : filter with
    | nil => exact absurd hfl hne
    | cons a rest =>
      have ha : a ∈ filter := by rw [hfl]; exact List.mem_cons_self
      obtain ⟨b, hb, _⟩ := (hP a ha).last
      exact ⟨a, b.id, ((hP a ha).leash hH S hls hb b.id).mpr rfl, Or.inr List.mem_cons_self⟩
  · intro p id hp
    obtain ⟨ha, b, hb, rfl⟩ := hsel p id hp
    obtain ⟨r, hr⟩ := hread p b ha hb
    refine ⟨r, hr, ?_⟩
    have hrec := hH.record _ _ hr
    have hlast : (hist p)[(hist p).length - 1]? = some b := by rw [← List.getLast?_eq_getElem?]; exact hb
    have hbne : b.id ≠ g.id := (hP p ha).history.other (k := (hist p).length - 2)
      (by rw [show (hist p).length - 2 + 1 = (hist p).length - 1 by have := (hP p ha).two; omega]; exact hlast)
    obtain ⟨r0, ga, _, _, he⟩ := hrec.inv hbne
    rw [he]
    simp only [(hP p ha).history.real b (List.mem_of_getElem? hlast)]
    exact ht p ha b hb
  · intro p id q id' hp hq c h1 h2 h3 hl hh1 hh2 hh3
    obtain ⟨ha, b, hb, rfl⟩ := hsel p id hp
    obtain ⟨ha', b', hb', rfl⟩ := hsel q id' hq
    obtain ⟨r, hr, rfl⟩ := hh1
    obtain ⟨r', hr', rfl⟩ := hh2
    obtain ⟨rc, hrc, rfl⟩ := hh3
    have L := (Chains.holds_isLCA hH (Chains.stored_of_record hH.reachable hr) (Chains.stored_of_record hH.reachable hr') _).mp hl
    obtain ⟨y, hy, hcy⟩ := common_eq (hP p ha).history (hP q ha').history hb hb' L
    rw [List.getLast?_eq_getElem?] at hb hb'
    have e1 := (hP p ha).history.height hH _ b r hb hr
    have e2 := (hP q ha').history.height hH _ b' r' hb' hr'
    rw [hcy] at hrc
    have e3 := (hP q ha').history.height hH _ y rc hy hrc
    have := hc p q ha ha'
    have := (hP p ha).two
    have := (hP q ha').two
    have := agree_pos (hP p ha).history (hP q ha').history
    omega

end Verif.Services
