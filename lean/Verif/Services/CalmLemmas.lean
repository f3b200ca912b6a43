import Verif.Services.Calm
import Verif.Services.EndlessTrue
import Verif.Loading.FineChoice
import Verif.Props.Endless
/-
In a calm network all peers are up to date in the end: lemmas for property C112.
-/

set_option autoImplicit false

namespace Verif.Services.Fine

open Verif
open Verif.Chains (Addr BlockID ProtoBlock MicroInv Linkage LeashOf LeashScore)
open Verif.Chains.Spec (Stored Truth Told)
open Verif.Peers (Lib Registry Config AddrPort Peer Conn)
open Verif.Loading (Ctx Serving TrueHistory Starts Announced Faithful Sent worth base)
open Verif.Loading.Fine (World Shared Own Proc Answer Call At Final Onward NotBehind Sound All Chosen steadyRd received received_from)
open Verif.KV (Fate)

variable {lib : Lib} {g : ProtoBlock} {N : Nat} {D : Loading.Fine.Disk} {cfg : Config} {r : Registry} {fs : Nat → Fate}
  {seeds : List (Option AddrPort)} {lk : Linkage} {listener : Bool} {es es0 : List Ev} {tr : List Answer} {x x' : Sys}
  {T : Truth} {P : List Addr} {hist : Addr → List ProtoBlock} {run : Nat → Sys} {ev : Nat → Ev}

/-! ### positions -/

/-- an event outside a synchronisation with the peer does not move its position back -/
theorem onward_step (S : Serving g N lk) (R : Peers.Reachable lib r) (h : Path lib (Sys.start D cfg r.db fs seeds lk listener) es tr x)
    {e : Ev} (hs : x.step lib e = some (.ok x')) (hN : Chains.Spec.inserts x'.world.calls < N) {a : Addr} {ch : List ProtoBlock} (hl : ¬ x.Loads a)
    (hf : ∀ a' id, e.about = some (a', id) → a.plain = a'.plain → NotBehind a ch x.world.sh id) : Onward a ch x.world.sh x'.world.sh := by
  intro i b hb hle
  rcases moves S R h hs hN a with h | ⟨a0, id, h1, h2, h3⟩ | ⟨_, h1, h2, _⟩
  · exact ⟨i, b, Nat.le_refl _, hb, h.trans hle⟩
  · obtain ⟨j, z, hij, hz, he⟩ := hf a0 id h1 h2 i b hb hle
    exact ⟨j, z, hij, hz, by rw [he]; exact h3⟩
  · exact absurd ⟨h1, h2⟩ hl

/-- the score of the position -/
theorem score_at {ch : List ProtoBlock} {n : Nat} {sh : Shared} (S : Serving g n sh.link) (F : Faithful (base g) ch sh.link.db) {a : Addr} {i : Nat} (h : At a ch sh i) :
    ∃ j, i ≤ j ∧ j < ch.length ∧ At a ch sh j ∧ LeashScore sh.link a = .ok (worth (base g) ch j) := by
  obtain ⟨j, b, hij, hb, hle⟩ := h
  obtain ⟨s, h1, h2⟩ := Loading.leashScore_of S a b.id hle
  rw [F.worth hb h2] at h1
  exact ⟨j, hij, (List.getElem?_eq_some_iff.mp hb).1, ⟨j, b, Nat.le_refl _, hb, hle⟩, h1⟩

theorem plain_eq {a a' : Addr} {b b' : Chains.BytesN 4} (h : a = .v4 b) (h' : a' = .v4 b') (hp : a.plain = a'.plain) : a = a' := by
  subst h h'; exact hp

/-! ### the execution -/

/-- the hypotheses of C112 -/
structure Setting (lib : Lib) (g : ProtoBlock) (N : Nat) (D : Loading.Fine.Disk) (cfg : Config) (r : Registry) (fs : Nat → Fate)
    (seeds : List (Option AddrPort)) (lk : Linkage) (listener : Bool) (es0 : List Ev) (T : Truth) (P : List Addr) (hist : Addr → List ProtoBlock)
    (run : Nat → Sys) (ev : Nat → Ev) : Prop where
  S : Serving g N lk
  R : Peers.Reachable lib r
  told : Told T g lk
  path : ∃ tr, Path lib (Sys.start D cfg r.db fs seeds lk listener) es0 tr (run 0)
  E : Endless lib run ev
  room : ∀ n, Chains.Spec.inserts (run n).world.calls < N
  sincere : ∀ n, Sincere T (es0 ++ upto ev n)
  C : Calm lib T g P hist run ev

variable (X : Setting lib g N D cfg r fs seeds lk listener es0 T P hist run ev)
include X

theorem Setting.to (n : Nat) : ∃ tr, Path lib (Sys.start D cfg r.db fs seeds lk listener) (es0 ++ upto ev n) tr (run n) := by
  obtain ⟨tr, h⟩ := X.path
  obtain ⟨tr', h'⟩ := X.E.path 0 n
  rw [since_zero, Nat.zero_add] at h'
  exact ⟨_, h.append h'⟩

theorem Setting.sound (n : Nat) : Sound lib g 0 (run n).world.sh := by
  obtain ⟨tr, h⟩ := X.to n
  exact ((steadyRd (src := received (run n).world) X.S (start_reachable X.R D cfg fs seeds) h.run
    (fun c i hm => received_from (run n).world c i hm) (Nat.le_of_lt (X.room n))).1.sound).mono (Nat.zero_le _)

theorem Setting.faithful (n : Nat) {a : Addr} (ha : a ∈ P) : Faithful (base g) (hist a) (run n).world.sh.link.db := by
  obtain ⟨tr, h⟩ := X.to n
  exact (X.C.history a ha).faithful (holds_path X.S X.R h (Nat.le_of_lt (X.room n)) X.told (X.sincere n)) (X.sound n).store

theorem Setting.v4 {a : Addr} (ha : a ∈ P) : ∃ b, a = .v4 b := by
  obtain ⟨cn, h⟩ := (X.C.connected 0 a).mp ha
  exact Peers.is4_iff.mp ((X.sound 0).reg.inv.ipv4 a cn h).1

/-- the position of the peer is the last block -/
def Last (hist : Addr → List ProtoBlock) (a : Addr) (x : Sys) : Prop := At a (hist a) x.world.sh ((hist a).length - 1)

/-- the position of the peer is a block of the history -/
def OnIt (hist : Addr → List ProtoBlock) (a : Addr) (x : Sys) : Prop := At a (hist a) x.world.sh 0

omit X in
theorem Last.onIt {a : Addr} (h : Last hist a x) : OnIt hist a x := h.mono (Nat.zero_le _)

theorem Setting.onward (n : Nat) {a : Addr} (ha : a ∈ P) (hl : ¬ (run n).Loads a) : Onward a (hist a) (run n).world.sh (run (n + 1)).world.sh := by
  obtain ⟨tr, h⟩ := X.to n
  exact onward_step X.S X.R h (X.E n) (X.room (n + 1)) hl (fun a' id => X.C.forth n a a' id ha hl)

/-- from a moment to a later one, without a synchronisation with the peer in between -/
theorem Setting.onwards (n : Nat) {a : Addr} (ha : a ∈ P) (k : Nat) (h : ∀ i, i < k → ¬ (run (n + i)).Loads a) :
    Onward a (hist a) (run n).world.sh (run (n + k)).world.sh := by
  induction k with
  | zero => exact fun i b hb hle => ⟨i, b, Nat.le_refl _, hb, hle⟩
  | succ k ih => exact fun i b hb hle => (ih (fun i hi => h i (by omega)) i b hb hle).onward (X.onward (n + k) ha (h k (by omega)))

theorem Setting.score_last (n : Nat) {a : Addr} (ha : a ∈ P) (h : Last hist a (run n)) : LeashScore (run n).world.sh.link a = .ok (top g (hist a)) := by
  obtain ⟨j, h1, h2, _, h3⟩ := score_at (X.sound n).store (X.faithful n ha) h
  have : j = (hist a).length - 1 := by omega
  subst this
  exact h3

theorem Setting.last_of_score (n : Nat) {a : Addr} (ha : a ∈ P) (h : OnIt hist a (run n)) {sc : Nat} (hs : LeashScore (run n).world.sh.link a = .ok sc)
    (hle : top g (hist a) ≤ sc) : Last hist a (run n) := by
  obtain ⟨j, _, h2, h4, h3⟩ := score_at (X.sound n).store (X.faithful n ha) h
  rw [h3] at hs; cases hs
  by_cases hj : j = (hist a).length - 1
  · subst hj; exact h4
  · have := Loading.worth_mono (s0 := base g) (X.C.history a ha).history (i := j) (j := (hist a).length - 1) (by omega) (by omega)
    unfold top at hle
    omega

theorem Setting.score_some (n : Nat) {a : Addr} (ha : a ∈ P) (h : OnIt hist a (run n)) : ∃ sc, LeashScore (run n).world.sh.link a = .ok sc := by
  obtain ⟨j, _, _, _, h3⟩ := score_at (X.sound n).store (X.faithful n ha) h
  exact ⟨_, h3⟩

/-! ### the connections -/

theorem Setting.covered (n : Nat) : Peers.Covered (run n).world.sh.reg := by
  intro b cn hm hv
  obtain ⟨p, hp, _⟩ := X.C.announced n (.v4 b) ((X.C.connected n _).mpr ⟨cn, hm⟩)
  have := (X.sound n).reg.inv.good.peer_v4 b
  rw [hv] at this
  have hp' : Peers.peer (run n).world.sh.reg.db (.v4 b) = .ok p := hp
  rw [this] at hp'
  cases hp'

theorem Setting.connections (n : Nat) (env : Chains.Env) : ∃ ps, Peers.Connections lib env (run n).world.sh.reg = .ok ps ∧
    (∀ p, p ∈ ps → p.addr ∈ P ∧ ∀ s, p.score = some s → s = top g (hist p.addr)) ∧
    ∀ a, a ∈ P → ∃ p, p ∈ ps ∧ p.addr = a ∧ p.score = some (top g (hist a)) := by
  have hI := (X.sound n).reg.inv
  obtain ⟨ps, h1, h2, h3⟩ := Peers.connectionsLoop_ok hI (env.mapOrder (run n).world.sh.reg.connections)
    (fun x hx => (env.mapOrder_perm _).mem_iff.mp hx) (X.covered n)
  have hmem : ∀ p, p ∈ env.sort (Peers.byName lib) ps ↔ p ∈ ps := fun p => (env.sort_perm _ _).mem_iff
  have hP : ∀ p, p ∈ ps → p.addr ∈ P ∧ p.score = some (top g (hist p.addr)) := by
    intro p hp
    have hin : (p.addr, p.conn) ∈ ps.map (fun p => (p.addr, p.conn)) := List.mem_map.mpr ⟨p, hp, rfl⟩
    rw [h2] at hin
    obtain ⟨⟨a, cn⟩, hm, he⟩ := List.mem_map.mp hin
    have ha : p.addr ∈ P := (X.C.connected n _).mpr ⟨cn, by
      have := (env.mapOrder_perm _).mem_iff.mp hm
      rw [← (Prod.mk.inj he).1]; exact this⟩
    obtain ⟨q, hq, hs⟩ := X.C.announced n _ ha
    rw [h3 p hp] at hq
    cases hq
    exact ⟨ha, hs⟩
  refine ⟨env.sort (Peers.byName lib) ps, ?_, fun p hp => ?_, fun a ha => ?_⟩
  · unfold Peers.Connections; rw [h1]; rfl
  · obtain ⟨h4, h5⟩ := hP p ((hmem p).mp hp)
    exact ⟨h4, fun s hs => by rw [h5] at hs; cases hs; rfl⟩
  · obtain ⟨cn, hm⟩ := (X.C.connected n a).mp ha
    have hin : (a, some cn) ∈ (env.mapOrder (run n).world.sh.reg.connections).map (fun x => (x.1, some x.2)) :=
      List.mem_map.mpr ⟨(a, cn), (env.mapOrder_perm _).mem_iff.mpr hm, rfl⟩
    rw [← h2] at hin
    obtain ⟨p, hp, he⟩ := List.mem_map.mp hin
    have he := (Prod.mk.inj he).1
    exact ⟨p, (hmem p).mpr hp, he, by rw [← he]; exact (hP p hp).2⟩

/-! ### the loader has no peer -/

omit X

/-- the first moment -/
theorem first_from (Q : Nat → Prop) {n : Nat} (h : ∃ k, n ≤ k ∧ Q k) : ∃ k, n ≤ k ∧ Q k ∧ ∀ j, n ≤ j → j < k → ¬ Q j := by
  obtain ⟨k, hk, hq⟩ := h
  induction k using Nat.strongRecOn with
  | ind k ih =>
    by_cases hj : ∃ j, n ≤ j ∧ j < k ∧ Q j
    · obtain ⟨j, h1, h2, h3⟩ := hj
      exact ih j h2 h1 h3
    · exact ⟨k, hk, hq, fun j h1 h2 h3 => hj ⟨j, h1, h2, h3⟩⟩

/-- the loader waits, or has done nothing with what it took -/
def Rest (o : Own) (x : Sys) : Prop := x.world.own = o ∧ (x.world.todo = none ∨ x.world.todo = some (.ret (.ok o)))

theorem rest_step {o : Own} (ha : o.active = false) (h : Rest o x) {e : Ev} (hs : x.step lib e = some (.ok x')) (ht : ∀ c, e ≠ .timer c) : Rest o x' := by
  obtain ⟨h1, h2⟩ := h
  obtain ⟨_, hcase⟩ := step_case hs
  cases hcase with
  | take c p hd hw =>
    refine ⟨h1, Or.inr ?_⟩
    show some (Loading.Fine.handle c x.world.own (Pkg.input p)) = _
    rw [h1]
    cases p <;> simp [Pkg.input, Loading.Fine.handle, Loading.Fine.handleIDs, Loading.Fine.handleBlock, ha]
  | tick c hw _ =>
    refine ⟨h1, Or.inr ?_⟩
    show some (Loading.Fine.handle c x.world.own .tick) = _
    rw [h1]
    simp [Loading.Fine.handle, Loading.Fine.tick, ha]
  | timer c hw => exact absurd rfl (ht c)
  | call D c k hk =>
    rcases h2 with h2 | h2
    · rw [h2] at hk; cases hk
    · rw [h2] at hk; cases hk
  | finish D o' hk =>
    rcases h2 with h2 | h2
    · rw [h2] at hk; cases hk
    · rw [h2] at hk; cases hk; exact ⟨rfl, Or.inl rfl⟩
  | respawn D now failed hu ha =>
    unfold Sys.respawn
    split
    · exact ⟨h1, h2⟩
    · dsimp only
      split <;> exact ⟨h1, h2⟩
  | _ => exact ⟨h1, h2⟩

/-- the answers came from moments of the execution -/
def FromRun (lib : Lib) (run : Nat → Sys) (n k : Nat) (tr : List Answer) : Prop :=
  ∀ a, a ∈ tr → ∃ i, n ≤ i ∧ i < k ∧ a.res = a.call.res lib (run i).world.sh

/-- while the loader handles an event -/
theorem traced (E : Endless lib run ev) (hg : ∀ n D, ev n = .go D → D = .good) {Q : List Answer → Go Own → Prop} {p : Proc (Go Own)} {n : Nat}
    (hp : All Q [] p) (ht : (run n).world.todo = some p) : ∀ d, (∀ i, i < d → (run (n + i)).world.todo ≠ none) →
    (∃ q tr, (run (n + d)).world.todo = some q ∧ (run (n + d)).world.own = (run n).world.own ∧ All Q tr q ∧ FromRun lib run n (n + d) tr) ∨
    ((run (n + d)).world.todo = none ∧ ∃ tr, Q tr (.ok (run (n + d)).world.own) ∧ FromRun lib run n (n + d) tr)
  | 0, _ => Or.inl ⟨p, [], ht, rfl, hp, fun _ h => (List.not_mem_nil h).elim⟩
  | d + 1, h => by
    have hb := h d (by omega)
    rcases traced E hg hp ht d (fun i hi => h i (by omega)) with ⟨q, tr, h1, h2, h3, h4⟩ | ⟨h1, _⟩
    · have hmono : FromRun lib run n (n + (d + 1)) tr := fun a ha => by
        obtain ⟨i, a1, a2, a3⟩ := h4 a ha
        exact ⟨i, a1, by omega, a3⟩
      rcases busy_step (E (n + d)) hb (fun D hD => hg _ D hD) with ⟨e1, e2⟩ | ⟨c, k, e1, e2, _, _⟩ | ⟨o, e1, e2, e3, _⟩
      · exact Or.inl ⟨q, tr, e2.trans h1, e1.trans h2, h3, hmono⟩
      · rw [e1] at h1; cases h1
        have hown : (run (n + d + 1)).world.own = (run (n + d)).world.own := by
          rcases own_stays (E (n + d)) with e | e
          · exact e
          · rw [e1] at e; cases e
        refine Or.inl ⟨_, tr ++ [⟨c, c.res lib (run (n + d)).world.sh⟩], e2, hown.trans h2, h3 _, fun a ha => ?_⟩
        rcases List.mem_append.mp ha with ha | ha
        · exact hmono a ha
        · cases List.mem_singleton.mp ha
          exact ⟨n + d, by omega, by omega, rfl⟩
      · rw [e1] at h1; cases h1
        refine Or.inr ⟨e2, tr, ?_, hmono⟩
        rw [show (run (n + (d + 1))).world.own = o from e3]
        exact h3
    · exact absurd h1 hb

theorem busy_from (E : Endless lib run ev) (hg : ∀ n D, ev n = .go D → D = .good) (n : Nat) : ∀ d, (∀ i, i < d → (run (n + i)).world.todo ≠ none) →
    Busy lib (run n) (since ev n d) (run (n + d))
  | 0, _ => .start
  | d + 1, h => by
    rw [since_succ]
    exact .step _ (busy_from E hg n d (fun i hi => h i (by omega))) (h d (by omega)) (fun D hD => hg _ D hD) (E (n + d))

include X

/-- From a moment without a synchronisation until the timer has been handled: nobody lags any more, or a synchronisation begins with a peer that lagged. -/
theorem Setting.window {n : Nat} (hi : (run n).world.own.active = false) (ht : (run n).world.todo = none)
    (hon : ∀ a, a ∈ P → OnIt hist a (run n)) :
    ∃ d, (∀ i, i ≤ d → (run (n + i)).world.own = (run n).world.own) ∧ (run (n + d + 1)).world.todo = none ∧
      (((run (n + d + 1)).world.own = (run n).world.own ∧ ∀ a, a ∈ P → Last hist a (run (n + d + 1))) ∨
       ∃ p m, p ∈ P ∧ ¬ Last hist p (run n) ∧
        Starts p (top g (hist p)) (base g) (hist p) ((run (n + d + 1)).world.own.on (run (n + d + 1)).world.sh) ∧ Opens (run (n + d + 1)) m ∧
        (run (n + d + 1)).world.own.prevDiff = (run n).world.own.prevDiff) := by
  -- the timer fires
  obtain ⟨k, hk, ⟨c, hc⟩, hfirst⟩ := first_from (fun k => ∃ c, ev k = .timer c) (X.C.timers n)
  have hrest : ∀ i, n + i ≤ k → Rest (run n).world.own (run (n + i)) := by
    intro i
    induction i with
    | zero => exact fun _ => ⟨rfl, Or.inl ht⟩
    | succ i ih =>
      intro h
      exact rest_step hi (ih (by omega)) (X.E (n + i)) (fun c hc => hfirst (n + i) (by omega) (by omega) ⟨c, hc⟩)
  obtain ⟨dk, rfl⟩ : ∃ dk, k = n + dk := ⟨k - n, by omega⟩
  have hown := (hrest dk (Nat.le_refl _)).1
  have hstep := X.E (n + dk)
  rw [hc] at hstep
  have hw1 : (run (n + dk + 1)).world = (run (n + dk)).world.receive c .timer := by
    obtain ⟨_, hcase⟩ := step_case hstep
    generalize run (n + dk + 1) = y at hcase
    cases hcase with
    | timer c hw => rfl
    | handled hd hr => cases hr
  have ht1 : (run (n + dk + 1)).world.todo = some (Loading.Fine.sync c (run n).world.own) := by
    rw [hw1]; show some (Loading.Fine.sync c (run (n + dk)).world.own) = _; rw [hown]
  have ho1 : (run (n + dk + 1)).world.own = (run n).world.own := by rw [hw1]; exact hown
  -- the loader has handled it
  obtain ⟨m, hm, htm, hbusy⟩ := first_from (fun j => (run j).world.todo = none) (rests_from X.E X.C.goes _ _ ht1)
  obtain ⟨e, rfl⟩ : ∃ e, m = n + dk + 1 + e := ⟨m - (n + dk + 1), by omega⟩
  have hb : ∀ i, i < e → (run (n + dk + 1 + i)).world.todo ≠ none := fun i hi => hbusy _ (by omega) (by omega)
  have hownb : ∀ i, i < e → (run (n + dk + 1 + i)).world.own = (run n).world.own := by
    intro i hie
    rcases traced X.E X.C.reads (Loading.Fine.all_chosen c hi) ht1 i (fun j hj => hb j (by omega)) with ⟨_, _, _, h, _⟩ | ⟨h, _⟩
    · exact h.trans ho1
    · exact absurd h (hb i hie)
  have he : 0 < e := Nat.pos_of_ne_zero (fun h => by subst h; rw [ht1] at htm; cases htm)
  have hall : ∀ i, i ≤ dk + e → (run (n + i)).world.own = (run n).world.own := by
    intro i hi'
    by_cases h : i ≤ dk
    · exact (hrest i (by omega)).1
    · have := hownb (i - dk - 1) (by omega)
      rw [show n + dk + 1 + (i - dk - 1) = n + i by omega] at this
      exact this
  have hnl : ∀ i, i ≤ dk + e → ∀ a, ¬ (run (n + i)).Loads a := by
    intro i h a hl
    have := hl.1
    rw [hall i h, hi] at this; cases this
  have hstay : ∀ j i, i ≤ j → j ≤ dk + e + 1 → ∀ a, a ∈ P → Onward a (hist a) (run (n + i)).world.sh (run (n + j)).world.sh := by
    intro j i hij hj a ha
    have := X.onwards (n + i) ha (j - i) (fun l hl => by rw [Nat.add_assoc]; exact hnl _ (by omega) a)
    rw [show n + i + (j - i) = n + j by omega] at this
    exact this
  have hend : n + dk + 1 + e = n + (dk + e) + 1 := by omega
  refine ⟨dk + e, hall, by rw [← hend]; exact htm, ?_⟩
  rcases traced X.E X.C.reads (Loading.Fine.all_chosen c hi) ht1 e hb with ⟨q, _, h, _⟩ | ⟨_, tr, hch, hfrom⟩
  · rw [h] at htm; cases htm
  rcases hch _ rfl with ⟨env, ps, p, s, score, h1, h2, h3, h4, h5, h6, h7⟩ | ⟨h1, env, l, h2, h3⟩
  · -- a synchronisation begins
    right
    obtain ⟨i, _, _, hr⟩ := hfrom _ h1
    obtain ⟨ps', hps, hP, _⟩ := X.connections i env
    have : ps' = ps := Except.ok.inj (hps.symm.trans hr.symm)
    subst this
    obtain ⟨hpP, hsc⟩ := hP p h2
    rw [hsc s h3] at h5
    obtain ⟨i', hi1, hi2, hr'⟩ := hfrom _ h4
    have hnot : ¬ Last hist p.addr (run n) := by
      intro hlast
      have h8 : Last hist p.addr (run i') := by
        have := hlast.onward (hstay (i' - n) 0 (Nat.zero_le _) (by omega) p.addr hpP)
        rw [show n + (i' - n) = i' by omega] at this
        exact this
      have h9 := (X.score_last i' hpP h8).symm.trans hr'.symm
      have := Except.ok.inj h9
      omega
    have hpid : (run (n + dk + 1 + e)).world.own.peerID = p.addr := by unfold Own.peerID; rw [h7]
    obtain ⟨trk, hpath⟩ := X.to (n + dk)
    have hbz := busy_from X.E X.C.reads (n + dk + 1) e hb
    obtain ⟨hB, hB'⟩ := begins (s := top g (hist p.addr)) (s0 := base g) (ch := hist p.addr) X.S X.R hpath (by rw [hown]; exact hi)
      c hstep hbz (Nat.le_of_lt (X.room _)) htm h6 hpid (X.C.announced _ _ hpP) rfl (X.faithful _ hpP)
    have hE := busy_along X.S X.R (hpath.snoc _ hstep) (p := Loading.Fine.sync c (run n).world.own) ht1
      (Loading.Fine.ends_sync (lib := lib) (g := g) c (x := (run (n + dk + 1)).world.sh) hi) hbz (Nat.le_of_lt (X.room _))
    rcases hE with ⟨q, hq, _⟩ | ⟨_, hE⟩
    · rw [htm] at hq; cases hq
    · obtain ⟨_, _, m, req, e3, e4, e5, _⟩ := hE _ rfl h6
      rw [hend] at hB hB' e3 e4 e5
      exact ⟨p.addr, m, hpP, hnot, hB, ⟨by rw [e3]; simp, e5, e4⟩, by rw [hB', hown]⟩
  · -- nobody lags
    left
    rw [hend] at h1
    refine ⟨h1, fun a ha => ?_⟩
    obtain ⟨i, _, _, hr⟩ := hfrom _ h2
    obtain ⟨ps, hps, _, hP⟩ := X.connections i env
    obtain ⟨p, hp, rfl, hsc⟩ := hP a ha
    obtain ⟨z, hz, hle⟩ := h3 ps (hr.trans hps) p hp _ hsc
    obtain ⟨i', hi1, hi2, hr'⟩ := hfrom _ hz
    have hon' : OnIt hist p.addr (run i') := by
      have := (hon p.addr ha).onward (hstay (i' - n) 0 (Nat.zero_le _) (by omega) p.addr ha)
      rw [show n + (i' - n) = i' by omega] at this
      exact this
    obtain ⟨sc, hsc'⟩ := X.score_some i' ha hon'
    have hlast := X.last_of_score i' ha hon' hsc' (hle sc (hr'.trans hsc'))
    have hst := hstay (dk + e + 1) (i' - n) (by omega) (by omega) p.addr ha
    rw [show n + (i' - n) = i' by omega] at hst
    exact hlast.onward hst

/-- A synchronisation with a peer comes to its end: the peer is on its history, it is up to date unless a difference was left over from before, no difference is
remembered, and the positions of the others have not moved back. -/
theorem Setting.loaded {n : Nat} {p : Addr} {m : Sent} (hp : p ∈ P) (hi : (run n).world.own.active = false) (ht : (run (n + 1)).world.todo = none)
    (hb : Starts p (top g (hist p)) (base g) (hist p) ((run (n + 1)).world.own.on (run (n + 1)).world.sh)) (ho : Opens (run (n + 1)) m) :
    ∃ d, (run (n + 1 + d)).world.todo = none ∧ (run (n + 1 + d)).world.own.active = false ∧ (run (n + 1 + d)).world.own.prevDiff = none ∧
      OnIt hist p (run (n + 1 + d)) ∧ ((run (n + 1)).world.own.prevDiff = none → Last hist p (run (n + 1 + d))) ∧ ∀ a, a ∈ P → a ≠ p → Onward a (hist a) (run (n + 1)).world.sh (run (n + 1 + d)).world.sh := by
  have H := X.C.history p hp
  obtain ⟨tr, h0⟩ := X.to (n + 1)
  have E' : Endless lib (fun k => run (n + 1 + k)) (fun k => ev (n + 1 + k)) := fun k => X.E (n + 1 + k)
  have hsi : ∀ k, Sincere T ((es0 ++ upto ev (n + 1)) ++ upto (fun k => ev (n + 1 + k)) k) := by
    intro k
    have := X.sincere (n + 1 + k)
    rw [upto_add, ← List.append_assoc] at this
    exact this
  have hwho : ∀ k es, Along lib p (top g (hist p)) (hist p) (run (n + 1)) es (run (n + 1 + k)) → es = upto (fun k => ev (n + 1 + k)) k →
      (run (n + 1 + k)).world.own.peerID = p := by
    rintro k es h rfl
    have hS := C107_truthful H X.told X.S X.R h0 h (hsi k) (Nat.le_of_lt (X.room _))
    exact (side_kept H.history X.S (start_reachable X.R D cfg fs seeds) h0.run ht hb hS (Nat.le_of_lt (X.room _))).who
  have hal : ∀ k, NotYet (fun k => run (n + 1 + k)) k →
      Along lib p (top g (hist p)) (hist p) (run (n + 1)) (upto (fun k => ev (n + 1 + k)) k) (run (n + 1 + k)) := by
    intro k
    induction k with
    | zero => exact fun _ => .start
    | succ k ih =>
      intro h
      have h1 := ih (fun i hi => h i (by omega))
      have h2 := h k (by omega)
      rw [upto_succ]
      exact .step _ h1 h2 (X.C.patient _ p hp h2 (hwho k _ h1 rfl)) (X.E (n + 1 + k))
  have hid : ∀ k, NotYet (fun k => run (n + 1 + k)) k → (run (n + 1 + k)).world.own.peerID = p := fun k h => hwho k _ (hal k h) rfl
  have hpat : ∀ k, During (fun k => run (n + 1 + k)) k → Patient p (top g (hist p)) (hist p) (run (n + 1 + k)) (ev (n + 1 + k)) :=
    fun k h => X.C.patient _ p hp (h k (Nat.le_refl _)) (hid k (fun i hi => h i (by omega)))
  have hci := Endless.civil (run := fun k => run (n + 1 + k)) H X.told X.S X.R h0 E' hpat (fun k _ => hsi k) (fun k _ => X.room _)
  have hun : ∀ k, NotYet (fun k => run (n + 1 + k)) k → Undamaged p (upto (fun k => ev (n + 1 + k)) k) := by
    intro k hk D c q m b hm
    obtain ⟨i, hi', he⟩ := List.mem_map.mp hm
    have hik := List.mem_range.mp hi'
    exact X.C.undamaged (n + 1 + i) p hp (hk i hik) (hid i (fun j hj => hk j (by omega))) D c q m b (by rw [he]; simp)
  have hdi : Diligent (fun k => run (n + 1 + k)) (fun k => ev (n + 1 + k)) := by
    refine ⟨fun k _ h => ?_, fun k q _ h => ?_⟩
    · obtain ⟨j, hj, hD⟩ := X.C.goes _ h
      exact ⟨j - (n + 1), by omega, by show ∃ D, ev (n + 1 + (j - (n + 1))) = _; rw [show n + 1 + (j - (n + 1)) = j by omega]; exact hD⟩
    · obtain ⟨j, hj, hD⟩ := X.C.takes _ q h
      exact ⟨j - (n + 1), by omega, by show ∃ D, ev (n + 1 + (j - (n + 1))) = _; rw [show n + 1 + (j - (n + 1)) = j by omega]; exact hD⟩
  have hre : Responsive lib p m (fun k => run (n + 1 + k)) (fun k => ev (n + 1 + k)) := by
    have := X.C.answers n m hi hb.active ho
    rw [show (run (n + 1)).world.own.peerID = p from hb.who] at this
    exact this
  have hR := start_reachable X.R D cfg fs seeds
  obtain ⟨d, hny, had⟩ := ends (run := fun k => run (n + 1 + k)) (ev := fun k => ev (n + 1 + k)) H.history X.S hR h0.run ht hb ho E' hci (fun n D c q m b hd he =>
    hun (n + 1) (fun i hi => hd i (by omega)) D c q m b (by rw [upto_succ, he]; simp)) hdi hre (fun k _ => X.room _)
  obtain ⟨more, _, hst, htodo⟩ := (side_kept H.history X.S hR h0.run ht hb (E'.side hci d hny) (Nat.le_of_lt (X.room _))).phase
  have htd : (run (n + 1 + d)).world.todo = none := by
    cases hw : (run (n + 1 + d)).world.todo with
    | none => rfl
    | some q => have := (htodo q hw).1; rw [had] at this; cases this
  obtain ⟨hfin, hpd⟩ : Final (run (n + 1)).world.own.prevDiff p (top g (hist p)) (base g) (hist p) (run (n + 1 + d)).world.sh ∧
      (run (n + 1 + d)).world.own.prevDiff = none := by
    cases hst htd with
    | asking m req h => have := h.active; rw [had] at this; cases this
    | loading k a arrived j h => have := h.active; rw [had] at this; cases this
    | released _ hp _ hd => exact ⟨hp, hd⟩
  refine ⟨d, htd, had, hpd, ?_, fun h => hfin.full h, fun a ha hne => ?_⟩
  · rcases hfin with h | ⟨k, h, _⟩
    · exact h.mono (Nat.zero_le _)
    · exact h.mono (Nat.zero_le _)
  · refine X.onwards (n + 1) ha d (fun i hi hl => hne ?_)
    obtain ⟨b1, h1⟩ := X.v4 ha
    obtain ⟨b2, h2⟩ := X.v4 hp
    have := hl.2
    rw [hid i (fun j hj => hny j (by omega))] at this
    exact plain_eq h1 h2 this

/-! ### the end -/

/-- everybody is up to date for ever -/
theorem Setting.stays {n : Nat} (hi : (run n).world.own.active = false) (ht : (run n).world.todo = none)
    (hl : ∀ a, a ∈ P → Last hist a (run n)) : ∀ k, (run (n + k)).world.own.active = false ∧ ∀ a, a ∈ P → Last hist a (run (n + k)) := by
  intro k
  induction k using Nat.strongRecOn generalizing n with
  | ind k ih =>
    obtain ⟨d, h1, h2, h3⟩ := X.window hi ht (fun a ha => (hl a ha).onIt)
    have hkeep : ∀ j, j ≤ d + 1 → ∀ a, a ∈ P → Last hist a (run (n + j)) := fun j hj a ha =>
      (hl a ha).onward (X.onwards n ha j (fun i hi' hl => by
        have := hl.1
        rw [h1 i (by omega), hi] at this; cases this))
    rcases h3 with ⟨h3, _⟩ | ⟨p, _, hp, hn, _⟩
    · by_cases hk : k ≤ d
      · exact ⟨by rw [h1 k hk]; exact hi, hkeep k (by omega)⟩
      · have := ih (k - (d + 1)) (by omega) (n := n + d + 1) (by rw [h3]; exact hi) h2 (hkeep (d + 1) (Nat.le_refl _))
        rw [show n + d + 1 + (k - (d + 1)) = n + k by omega] at this
        exact this
    · exact absurd (hl p hp) hn

theorem Setting.settles_from (U : List Addr) : ∀ (u n : Nat), U.length + (if (run n).world.own.prevDiff = none then 0 else 1) = u → (run n).world.own.active = false →
    (run n).world.todo = none → (∀ a, a ∈ P → OnIt hist a (run n)) → (∀ a, a ∈ P → a ∉ U → Last hist a (run n)) →
    ∃ k, ∀ j, k ≤ j → (run j).world.own.active = false ∧ ∀ a, a ∈ P → Last hist a (run j) := by
  intro u
  induction u using Nat.strongRecOn generalizing U with
  | ind u ih =>
    intro n hu hi ht hon hU
    obtain ⟨d, h1, h2, h3⟩ := X.window hi ht hon
    have hkeep : ∀ a, a ∈ P → Onward a (hist a) (run n).world.sh (run (n + d + 1)).world.sh := fun a ha =>
      X.onwards n ha (d + 1) (fun i hi' hl => by
        have := hl.1
        rw [h1 i (by omega), hi] at this; cases this)
    rcases h3 with ⟨h3, h4⟩ | ⟨p, m, hp, hn, hb, ho, hpd⟩
    · refine ⟨n + d + 1, fun j hj => ?_⟩
      have := X.stays (n := n + d + 1) (by rw [h3]; exact hi) h2 h4 (j - (n + d + 1))
      rw [show n + d + 1 + (j - (n + d + 1)) = j by omega] at this
      exact this
    · have hpU : p ∈ U := Classical.byContradiction (fun h => hn (hU p hp h))
      obtain ⟨e, e1, e2, e3, e6, e4, e5⟩ := X.loaded hp (by rw [h1 d (Nat.le_refl _)]; exact hi) h2 hb ho
      have hall : ∀ a, a ∈ P → a ≠ p → Onward a (hist a) (run n).world.sh (run (n + d + 1 + e)).world.sh :=
        fun a ha hne i b hb hle => (hkeep a ha i b hb hle).onward (e5 a ha hne)
      have hon' : ∀ a, a ∈ P → OnIt hist a (run (n + d + 1 + e)) := fun a ha => by
        by_cases hne : a = p
        · rw [hne]; exact e6
        · exact (hon a ha).onward (hall a ha hne)
      by_cases hnone : (run n).world.own.prevDiff = none
      · rw [if_pos hnone] at hu
        have e4 := e4 (hpd.trans hnone)
        refine ih (U.filter (fun a => decide (a ≠ p))).length ?_ (U.filter (fun a => decide (a ≠ p))) (n + d + 1 + e) (by rw [if_pos e3]; rfl) e2 e1 hon'
          (fun a ha hna => ?_)
        · rw [← hu]
          refine Nat.lt_of_le_of_ne (List.length_filter_le _ _) (fun h => ?_)
          have := List.length_filter_eq_length_iff.mp h p hpU
          simp at this
        · by_cases hne : a = p
          · rw [hne]; exact e4
          · exact (hU a ha (fun h => hna (List.mem_filter.mpr ⟨h, by simpa using hne⟩))).onward (hall a ha hne)
      · rw [if_neg hnone] at hu
        exact ih U.length (by omega) U (n + d + 1 + e) (by rw [if_pos e3]; rfl) e2 e1 hon'
          (fun a ha hna => (hU a ha hna).onward (hall a ha (fun h => hna (h ▸ hpU))))

theorem Setting.settles (hi : (run 0).world.own.active = false) (ht : (run 0).world.todo = none) :
    ∃ k, ∀ j, k ≤ j → (run j).world.own.active = false ∧ ∀ a, a ∈ P → UpToDate a (hist a) (run j) := by
  obtain ⟨k, hk⟩ := X.settles_from P _ 0 rfl hi ht (fun a ha => by
    obtain ⟨b, hb, hle⟩ := X.C.placed a ha
    obtain ⟨i, hi⟩ := List.mem_iff_getElem?.mp hb
    exact ⟨i, b, Nat.zero_le _, hi, hle⟩) (fun a ha h => absurd ha h)
  refine ⟨k, fun j hj => ⟨(hk j hj).1, fun a ha => ?_⟩⟩
  have hpos : 0 < (hist a).length := by
    have := (X.C.history a ha).first
    exact (List.getElem?_eq_some_iff.mp this).1
  exact Loading.Fine.released_all hpos (X.sound j).store (X.faithful j ha) ((hk j hj).2 a ha)

end Verif.Services.Fine
