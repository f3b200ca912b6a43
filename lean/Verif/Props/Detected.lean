import Verif.Services.Forked
import Verif.Services.CalmLemmas
import Verif.Services.CalmEx
/-
Property C113: in a calm network the reports show exactly the forks between the connected peers in the end.
-/

set_option autoImplicit false

namespace Verif.Services.Fine

open Verif
open Verif.Chains (Addr BlockID ProtoBlock Linkage LeashOf Forks Fork Env)
open Verif.Chains.Spec (Truth Told)
open Verif.Peers (Lib Registry Config AddrPort)
open Verif.Loading (Serving)
open Verif.Loading.Fine (Answer)
open Verif.KV (Fate)

variable {lib : Lib} {g : ProtoBlock} {N : Nat} {D : Loading.Fine.Disk} {cfg : Config} {r : Registry} {fs : Nat → Fate}
  {seeds : List (Option AddrPort)} {lk : Linkage} {listener : Bool} {es0 : List Ev} {tr : List Answer}
  {T : Truth} {P : List Addr} {hist : Addr → List ProtoBlock} {run : Nat → Sys} {ev : Nat → Ev}

/-- There is a moment from which on every report about connected peers (whose histories are longer than the genesis block) is what their histories say.
One of the peers with the highest score leads; every peer has an entry with the last block of its history, the last block that this history has in common with the
leading one, and the number of blocks since then; the peers of an entry are exactly those whose history ends with its block, and there are no other entries. -/
theorem C113_report (S : Serving g N lk) (R : Peers.Reachable lib r) (hT : Told T g lk)
    (h0 : Path lib (Sys.start D cfg r.db fs seeds lk listener) es0 tr (run 0)) (ht : (run 0).world.todo = none)
    (hi : (run 0).world.own.active = false) (E : Endless lib run ev)
    (hsi : ∀ n, Sincere T (es0 ++ upto ev n)) (hN : ∀ n, Chains.Spec.inserts (run n).world.calls < N) (C : Calm lib T g P hist run ev) :
    ∃ n, ∀ k, n ≤ k → ∀ filter, filter ≠ [] → (∀ a, a ∈ filter → a ∈ P ∧ 2 ≤ (hist a).length) →
      ∀ (env : Env) (ks : List Fork), Forks env (run k).world.sh.link.db filter = .ok ks →
        ∃ lead, lead ∈ filter ∧ (∀ a, a ∈ filter → top g (hist a) ≤ top g (hist lead)) ∧ (ks.map (·.headBlock)).Nodup ∧
          (∀ a, a ∈ filter → ∃ f, f ∈ ks ∧ a ∈ f.peers) ∧
          ∀ f, f ∈ ks → (∃ a, a ∈ f.peers) ∧ ∀ a, (a ∈ f.peers ↔ a ∈ filter ∧ ∃ b, (hist a).getLast? = some b ∧ f.headBlock = b.id) ∧
            (a ∈ f.peers → Entry g (hist lead) (hist a) f) := by
  have X : Setting lib g N D cfg r fs seeds lk listener es0 T P hist run ev := ⟨S, R, hT, ⟨tr, h0⟩, E, hN, hsi, C⟩
  obtain ⟨n, hn⟩ := X.settles hi ht
  refine ⟨n, fun k hk filter hne hP env ks hf => ?_⟩
  obtain ⟨_, hp⟩ := X.to k
  exact forked (holds_path S R hp (Nat.le_of_lt (hN k)) hT (hsi k)) (X.sound k).store hne
    (fun a ha => ⟨C.history a (hP a ha).1, (hP a ha).2, X.v4 (hP a ha).1, ((hn k hk).2 a (hP a ha).1).2⟩) env hf

/-- From this moment on the report is given, if the histories are not too far apart and the times of the last blocks make sense. -/
theorem C113_answers (S : Serving g N lk) (R : Peers.Reachable lib r) (hT : Told T g lk)
    (h0 : Path lib (Sys.start D cfg r.db fs seeds lk listener) es0 tr (run 0)) (ht : (run 0).world.todo = none)
    (hi : (run 0).world.own.active = false) (E : Endless lib run ev)
    (hsi : ∀ n, Sincere T (es0 ++ upto ev n)) (hN : ∀ n, Chains.Spec.inserts (run n).world.calls < N) (C : Calm lib T g P hist run ev) :
    ∃ n, ∀ k, n ≤ k → ∀ filter, filter ≠ [] → (∀ a, a ∈ filter → a ∈ P ∧ 2 ≤ (hist a).length) →
      (∀ a, a ∈ filter → ∀ b, (hist a).getLast? = some b → b.timestamp.toNat < 2 ^ 63 - 1) →
      (∀ a a', a ∈ filter → a' ∈ filter → min (hist a).length (hist a').length ≤ 3 * agree (hist a) (hist a') + 2) →
      ∀ env : Env, ∃ ks, Forks env (run k).world.sh.link.db filter = .ok ks := by
  have X : Setting lib g N D cfg r fs seeds lk listener es0 T P hist run ev := ⟨S, R, hT, ⟨tr, h0⟩, E, hN, hsi, C⟩
  obtain ⟨n, hn⟩ := X.settles hi ht
  refine ⟨n, fun k hk filter hne hP hti hcl env => ?_⟩
  obtain ⟨_, hp⟩ := X.to k
  exact forked_answers (holds_path S R hp (Nat.le_of_lt (hN k)) hT (hsi k)) (X.sound k).store hne
    (fun a ha => ⟨C.history a (hP a ha).1, (hP a ha).2, X.v4 (hP a ha).1, ((hn k hk).2 a (hP a ha).1).2⟩) hti hcl env

/-- No fork is missed: from this moment on, if the histories of two of the peers have separated, the report has different entries for them,
and one of these tells that the fork is at least one block long. -/
theorem C113_fork (S : Serving g N lk) (R : Peers.Reachable lib r) (hT : Told T g lk)
    (h0 : Path lib (Sys.start D cfg r.db fs seeds lk listener) es0 tr (run 0)) (ht : (run 0).world.todo = none)
    (hi : (run 0).world.own.active = false) (E : Endless lib run ev)
    (hsi : ∀ n, Sincere T (es0 ++ upto ev n)) (hN : ∀ n, Chains.Spec.inserts (run n).world.calls < N) (C : Calm lib T g P hist run ev) :
    ∃ n, ∀ k, n ≤ k → ∀ filter, (∀ a, a ∈ filter → a ∈ P ∧ 2 ≤ (hist a).length) →
      ∀ p q, p ∈ filter → q ∈ filter → agree (hist p) (hist q) < (hist p).length → agree (hist p) (hist q) < (hist q).length →
      ∀ (env : Env) (ks : List Fork), Forks env (run k).world.sh.link.db filter = .ok ks →
        ∃ f f', f ∈ ks ∧ f' ∈ ks ∧ p ∈ f.peers ∧ q ∈ f'.peers ∧ p ∉ f'.peers ∧ q ∉ f.peers ∧ 0 < f.length + f'.length := by
  obtain ⟨n, hn⟩ := C113_report S R hT h0 ht hi E hsi hN C
  refine ⟨n, fun k hk filter hP p q hp hq h1 h2 env ks hf => ?_⟩
  obtain ⟨lead, hl, _, _, he, hpe⟩ := hn k hk filter (List.ne_nil_of_mem hp) hP env ks hf
  obtain ⟨f, hfm, hpf⟩ := he p hp
  obtain ⟨f', hfm', hqf⟩ := he q hq
  have F := ((hpe f hfm).2 p).2 hpf
  have F' := ((hpe f' hfm').2 q).2 hqf
  obtain ⟨b, hb, hh, _⟩ := F.head
  obtain ⟨b', hb', hh', _⟩ := F'.head
  have Hp := C.history p (hP p hp).1
  have Hq := C.history q (hP q hq).1
  have Hl := C.history lead (hP lead hl).1
  have hbl := hb
  have hbl' := hb'
  rw [List.getLast?_eq_getElem?] at hbl hbl'
  have hne : b.id ≠ b'.id := by
    intro hid
    obtain ⟨hlen, hall⟩ := same_index Hp Hq _ _ b b' hbl hbl' hid
    have := lt_agree _ _ _ hall
    omega
  refine ⟨f, f', hfm, hfm', hpf, hqf, ?_, ?_, ?_⟩
  · intro hc
    obtain ⟨_, b1, hb1, hh1⟩ := ((hpe f' hfm').2 p).1.mp hc
    rw [hb] at hb1; cases hb1
    exact hne (hh1.symm.trans hh')
  · intro hc
    obtain ⟨_, b1, hb1, hh1⟩ := ((hpe f hfm).2 q).1.mp hc
    rw [hb'] at hb1; cases hb1
    exact hne (hh.symm.trans hh1)
  · rw [F.length, F'.length]
    have := (agree_le (hist lead) (hist p)).2
    have := (agree_le (hist lead) (hist q)).2
    rcases Nat.lt_or_ge (agree (hist lead) (hist p)) (hist p).length with h3 | h3
    · omega
    · rcases Nat.lt_or_ge (agree (hist lead) (hist q)) (hist q).length with h4 | h4
      · omega
      · exfalso
        have hpos := agree_pos Hp Hq
        have := lt_agree (agree (hist p) (hist q)) (hist p) (hist q) (fun j hj => by
          obtain ⟨x, y, hx, hy, hxy⟩ := agree_below (hist lead) (hist p) j (by omega)
          obtain ⟨x', z, hx', hz, hxz⟩ := agree_below (hist lead) (hist q) j (by omega)
          rw [hx] at hx'; cases hx'
          exact ⟨y, z, hy, hz, hxy.symm.trans hxz⟩)
        omega

/-- No false alarm: from this moment on, if of any two of the peers one only is behind the other, all entries of the report have the length zero. -/
theorem C113_quiet (S : Serving g N lk) (R : Peers.Reachable lib r) (hT : Told T g lk)
    (h0 : Path lib (Sys.start D cfg r.db fs seeds lk listener) es0 tr (run 0)) (ht : (run 0).world.todo = none)
    (hi : (run 0).world.own.active = false) (E : Endless lib run ev)
    (hsi : ∀ n, Sincere T (es0 ++ upto ev n)) (hN : ∀ n, Chains.Spec.inserts (run n).world.calls < N) (C : Calm lib T g P hist run ev) :
    ∃ n, ∀ k, n ≤ k → ∀ filter, filter ≠ [] → (∀ a, a ∈ filter → a ∈ P ∧ 2 ≤ (hist a).length) →
      (∀ p q, p ∈ filter → q ∈ filter → hist p <+: hist q ∨ hist q <+: hist p) →
      ∀ (env : Env) (ks : List Fork), Forks env (run k).world.sh.link.db filter = .ok ks → ∀ f, f ∈ ks → f.length = 0 := by
  obtain ⟨n, hn⟩ := C113_report S R hT h0 ht hi E hsi hN C
  refine ⟨n, fun k hk filter hne hP hcmp env ks hf => ?_⟩
  obtain ⟨lead, hl, hmax, _, _, hpe⟩ := hn k hk filter hne hP env ks hf
  intro f hm
  obtain ⟨⟨a, ha⟩, hall⟩ := hpe f hm
  have F := (hall a).2 ha
  have haf := ((hall a).1.mp ha).1
  rw [F.length]
  rcases hcmp a lead haf hl with h | h
  · rw [(agree_prefix h).2]; omega
  · rw [(agree_prefix h).1]
    have h2 := h.length_le
    rcases Nat.lt_or_ge (hist lead).length (hist a).length with hlt | hge
    · have := top_prefix (C.history a (hP a haf).1) h hlt (by intro h0; have := (hP lead hl).2; rw [h0] at this; cases this)
      have := hmax a haf
      omega
    · omega

/-! ### a concrete execution -/

open Verif.Loading.Ex (peer peer3) in
/-- In the execution of the example for C112 (which meets the hypotheses) the histories of the two peers separate after block 1.  In the end every report about the two is given and
has an entry for each; the leading one is that of the peer 10.0.0.3. -/
example : ∃ n, ∀ k, n ≤ k → ∀ env : Env, ∃ ks, Forks env (Ex.calmRun k).world.sh.link.db [peer, peer3] = .ok ks ∧
    ∃ f f', f ∈ ks ∧ f' ∈ ks ∧ peer ∈ f.peers ∧ peer3 ∈ f'.peers ∧ peer ∉ f'.peers ∧ peer3 ∉ f.peers ∧ 0 < f.length + f'.length := by
  obtain ⟨tr, hp⟩ := Ex.at_path (es := Ex.arrived) (by decide +kernel)
  have ht : (Ex.calmRun 0).world.todo.isNone = true := by decide +kernel
  have S := Loading.Ex.serving 1000 (by decide)
  have hfl : ∀ a, a ∈ [peer, peer3] → a ∈ [peer, peer3] ∧ 2 ≤ (Ex.hists a).length := by decide +kernel
  obtain ⟨n, hn⟩ := C113_fork (run := Ex.calmRun) S (Peers.Ex.reach []) Ex.calm_told hp (Option.isNone_iff_eq_none.mp ht)
    (by decide +kernel) Ex.calm_endless Ex.calm_sincere Ex.calm_room Ex.calm
  obtain ⟨m, hm⟩ := C113_answers (run := Ex.calmRun) S (Peers.Ex.reach []) Ex.calm_told hp (Option.isNone_iff_eq_none.mp ht)
    (by decide +kernel) Ex.calm_endless Ex.calm_sincere Ex.calm_room Ex.calm
  refine ⟨n + m, fun k hk env => ?_⟩
  obtain ⟨ks, hks⟩ := hm k (by omega) [peer, peer3] (by simp) hfl (fun a ha b hb => by
    have : ∀ a, a ∈ [peer, peer3] → (Ex.hists a).getLast?.all (fun b => b.timestamp.toNat < 2 ^ 63 - 1) = true := by decide +kernel
    have := this a ha
    rw [hb] at this
    exact of_decide_eq_true this) (fun a a' ha ha' => by
    have : ∀ a, a ∈ [peer, peer3] → ∀ a', a' ∈ [peer, peer3] → min (Ex.hists a).length (Ex.hists a').length ≤ 3 * agree (Ex.hists a) (Ex.hists a') + 2 := by decide +kernel
    exact this a ha a' ha') env
  exact ⟨ks, hks, hn k (by omega) [peer, peer3] hfl peer peer3 (by simp) (by simp) (by decide +kernel) (by decide +kernel) env ks hks⟩

open Verif.Loading.Ex (peer peer3) in
/-- the report itself after the two synchronisations -/
example : (match Forks Chains.Ex.env Ex.done.world.sh.link.db [peer, peer3] with
    | .ok [f, f'] =>
      f.headBlock == Chains.Ex.bid 5 && f.headHeight.toNat == 4 && f.lastCommonBlock == Chains.Ex.bid 5 && f.length == 0 && f.longest == true && f.peers == [peer3] &&
      f'.headBlock == Chains.Ex.bid 2 && f'.headHeight.toNat == 3 && f'.lastCommonBlock == Chains.Ex.bid 1 && f'.length == 1 && f'.longest == false && f'.peers == [peer]
    | _ => false) = true := by decide +kernel

open Verif.Loading.Ex (peer peer3) in
/-- the histories of the two are not comparable, but each is with itself, and the report about one of them only has an entry of length zero -/
example : ¬ (Ex.hists peer <+: Ex.hists peer3 ∨ Ex.hists peer3 <+: Ex.hists peer) ∧
    ∃ n, ∀ k, n ≤ k → ∀ (env : Env) (ks : List Fork), Forks env (Ex.calmRun k).world.sh.link.db [peer] = .ok ks → ∀ f, f ∈ ks → f.length = 0 := by
  refine ⟨by decide +kernel, ?_⟩
  obtain ⟨tr, hp⟩ := Ex.at_path (es := Ex.arrived) (by decide +kernel)
  have ht : (Ex.calmRun 0).world.todo.isNone = true := by decide +kernel
  obtain ⟨n, hn⟩ := C113_quiet (run := Ex.calmRun) (Loading.Ex.serving 1000 (by decide)) (Peers.Ex.reach []) Ex.calm_told hp (Option.isNone_iff_eq_none.mp ht)
    (by decide +kernel) Ex.calm_endless Ex.calm_sincere Ex.calm_room Ex.calm
  exact ⟨n, fun k hk => hn k hk [peer] (by simp) (by decide +kernel) (fun p q hp hq => by
    rw [List.mem_singleton.mp hp, List.mem_singleton.mp hq]; exact Or.inl (List.prefix_refl _))⟩

end Verif.Services.Fine
