import Verif.Services.WholeLemmas
/-
The end of a synchronisation can be reached by messages: lemmas for property C97.
-/

set_option autoImplicit false

namespace Verif.Services

open Verif
open Verif.Chains (Addr BlockID ProtoBlock MicroInv Linkage PutBlock)
open Verif.Chains.Spec (Stored)
open Verif.Loading (Ctx Loader Sent AsksIDs Begun GenuineMicro Session Honest History part put newQueue ready asking Mark Shares Waits putOpt
  Answer lastWith)
open Verif.Peers (Lib second)
open Verif.KV (Fate)

variable {lib : Lib} {g : ProtoBlock} {n : Nat} {s s0 : Nat} {ch : List ProtoBlock} {peer : Addr}

/-- the goroutines that a synchronisation needs are there, and the distributor holds nothing -/
structure Up (p : Prog) : Prop where
  main : p.main ≠ .exited
  loader : p.loaderUp = true
  dist : p.dist = .ready

theorem upright_take (p : Prog) {c : Ctx} (hf : ∀ j, c.fates j = .ok) : Upright peer s s0 ch p (.take c) where
  block := fun _ _ _ h => (by rcases h with h | h <;> cases h)
  micro := fun _ _ _ h => (by cases h)
  score := fun _ _ _ h => (by cases h)
  ids := fun _ _ _ h => (by cases h)
  signatures := fun _ _ _ h => (by cases h)
  take := fun _ h => (by cases h; exact hf)
  tick := fun _ h => (by cases h)

theorem upright_block (p : Prog) (c : Ctx) (q : Sender) {x : ProtoBlock} (hx : Loading.Genuine ch x) :
    Upright peer s s0 ch p (.message c q (.block (some x))) where
  block := fun _ _ _ h => (by rcases h with h | h <;> cases h; exact hx)
  micro := fun _ _ _ h => (by cases h)
  score := fun _ _ _ h => (by cases h)
  ids := fun _ _ _ h => (by cases h)
  signatures := fun _ _ _ h => (by cases h)
  take := fun _ h => (by cases h)
  tick := fun _ h => (by cases h)

theorem upright_ids (p : Prog) (c : Ctx) (q : Sender) {ids : List BlockID} (hx : Answers ch p.l ids) :
    Upright peer s s0 ch p (.message c q (.blockIds ids)) where
  block := fun _ _ _ h => (by rcases h with h | h <;> cases h)
  micro := fun _ _ _ h => (by cases h)
  score := fun _ _ _ h => (by cases h)
  ids := fun _ _ _ h _ => (by cases h; exact hx)
  signatures := fun _ _ _ h => (by cases h)
  take := fun _ h => (by cases h)
  tick := fun _ h => (by cases h)

/-- a block of the history is stored or handed on -/
theorem put_outcome {lk : Linkage} {m : Nat} (S : Loading.Serving g (m + 1) lk) (H : History ch) {i : Nat} {x : ProtoBlock} (hx : ch[i + 1]? = some x)
    (a : Addr) : (PutBlock .ok .ok lk.db x a).2 = .ok () ∨ (PutBlock .ok .ok lk.db x a).2 = fail .parentNotFound := by
  obtain ⟨hgen, _, hbt⟩ := H.sound i x hx
  obtain ⟨ns, hs, R, hlen⟩ := Chains.reachable_rep S.reachable
  cases hn : Chains.numOf ns x.id with
  | some n => left; rw [R.PutBlock_known hn]; simp [Chains.updateLeash, KV.write]
  | none =>
    cases hp : Chains.numOf ns x.parent with
    | none => right; rw [R.PutBlock_orphan hn hp]
    | some k =>
      obtain ⟨y, hy, _⟩ := Chains.numOf_some hp
      left
      rw [R.PutBlock_new hlen hn hp hy]
      cases hg : x.generator with
      | none => exact absurd hg hgen
      | some ga =>
        simp only [Chains.calculateScore_eq hbt]
        simp [Chains.insertThenLeash, KV.write, Chains.updateLeash]

/-- the message with the block arrives -/
theorem go_block (H : History ch) {p0 p : Prog} {es : List Ev} (h : Syncing lib g peer s s0 ch p0 (n + 1) es p) (ha : p.l.active = true) (hu : Up p)
    {c : Ctx} (hf : ∀ j, c.fates j = .ok) {q : Sender} (hq : q.remote = some peer) {i : Nat} {x : ProtoBlock} (hx : ch[i + 1]? = some x) :
    ∃ p', Syncing lib g peer s s0 ch p0 n (es ++ [.message c q (.block (some x))]) p' ∧ p'.main ≠ .exited ∧ p'.loaderUp = true ∧
      p'.dist = .sending (.block peer x) ∧ p'.l = { p.l with link := { p.l.link with db := (PutBlock .ok .ok p.l.link.db x peer).1 } } := by
  have hA := (h.session H).2.2
  have S := hA.running.serving
  have hgx := Loading.Genuine.of_mem H (List.mem_of_getElem? hx)
  have key : receive lib c p.l q (.block (some x)) = .ok { l := { p.l with link := { p.l.link with db := (PutBlock .ok .ok p.l.link.db x peer).1 } }, pkg := some (.block peer x) } := by
    rw [receive_eq]
    simp only [handleMessage, handleBlock, hq, hf 0, hf 1]
    rcases put_outcome S H hx peer with h | h <;> rw [h] <;> rfl
  refine ⟨{ p with l := { p.l with link := { p.l.link with db := (PutBlock .ok .ok p.l.link.db x peer).1 } }, out := p.out ++ [], sent := p.sent ++ [.block peer x], dist := .sending (.block peer x) }, .step (n := n) (.message c q (.block (some x))) h ha (upright_block p c q hgx) ?_, ?_, ?_, ?_, ?_⟩
  · unfold Prog.step
    rw [if_neg hu.main]
    simp only [guarded, hu.dist, decide_true, if_true, key]
    rfl
  · exact hu.main
  · exact hu.loader
  · rfl
  · rfl

/-- the message with the ids arrives -/
theorem go_ids {p0 p : Prog} {es : List Ev} (h : Syncing lib g peer s s0 ch p0 n es p) (ha : p.l.active = true) (hu : Up p)
    (c : Ctx) {q : Sender} (hq : q.remote = some peer) {ids : List BlockID} (hne : ids ≠ []) (hx : Answers ch p.l ids) :
    ∃ p', Syncing lib g peer s s0 ch p0 n (es ++ [.message c q (.blockIds ids)]) p' ∧ p'.main ≠ .exited ∧ p'.loaderUp = true ∧
      p'.dist = .sending (.ids peer ids) ∧ p'.l = p.l := by
  have key : receive lib c p.l q (.blockIds ids) = .ok { l := p.l, pkg := some (.ids peer ids) } := by
    rw [receive_eq]
    simp only [handleMessage, handleBlockIDs, hq, if_neg hne]
  refine ⟨{ p with out := p.out ++ [], sent := p.sent ++ [.ids peer ids], dist := .sending (.ids peer ids) }, .step (n := n) (.message c q (.blockIds ids)) h ha (upright_ids p c q hx) ?_, ?_, ?_, ?_, ?_⟩
  · unfold Prog.step
    rw [if_neg hu.main]
    simp only [guarded, hu.dist, decide_true, if_true, key]
    rfl
  · exact hu.main
  · exact hu.loader
  · rfl
  · rfl

/-- the loader takes the package -/
theorem go_take {p0 p : Prog} {es : List Ev} {pk : Pkg} {c : Ctx} (h : Syncing lib g peer s s0 ch p0 (n + p.cost (.take c)) es p) (ha : p.l.active = true)
    (hm : p.main ≠ .exited) (hl : p.loaderUp = true) (hd : p.dist = .sending pk) (hf : ∀ j, c.fates j = .ok) {l' : Loader}
    (hs : takePkg c p.l pk = .ok l') :
    ∃ p', Syncing lib g peer s s0 ch p0 n (es ++ [.take c]) p' ∧ Up p' ∧ p'.l = l' := by
  refine ⟨{ p with l := l', dist := .ready, taken := p.taken ++ [pk] }, .step (n := n) (.take c) h ha (upright_take p hf) ?_, ⟨?_, ?_, ?_⟩, ?_⟩
  · unfold Prog.step
    rw [if_neg hm]
    simp only [hd, guarded, hl, if_true, hs]
    rfl
  · exact hm
  · exact hl
  · rfl
  · rfl

/-- the blocks that are missing come one after the other -/
theorem feed (H : History ch) {c : Ctx} (hf : ∀ j, c.fates j = .ok) {q : Sender} (hq : q.remote = some peer) {p0 : Prog} (xs : List ProtoBlock) :
    ∀ {m : Nat} {es : List Ev} {p : Prog} {more : List Sent} {k j : Nat} {a : ProtoBlock}
    {arrived : List ProtoBlock}, Syncing lib g peer s s0 ch p0 m es p → Up p → p.l.out = p0.l.out ++ more →
    n + xs.length * (ch.length + 1) ≤ m → p.l.active = true →
    p.l.obj.state = .waitingForBlocks → k < j → j < ch.length → ch[k]? = some a → Stored p.l.link.db a.id →
    p.l.obj.queue = arrived.foldl put (newQueue ((part ch (k + 1) j).map (·.id))) → ready p.l.obj.queue = false →
    (∀ x, x ∈ arrived → Loading.Genuine ch x) → Mark s s0 ch p.l.prevDiff (asking more) j →
    (∀ x, x ∈ xs → x ∈ part ch (k + 1) j) → (∀ x, x ∈ part ch (k + 1) j → x ∈ arrived ∨ x ∈ xs) →
    ∃ m' es' p', n ≤ m' ∧ Syncing lib g peer s s0 ch p0 m' (es ++ es') p' ∧ Up p' ∧ (j + 1 = ch.length → p'.l.active = false) ∧
      (j + 1 ≠ ch.length → p'.l.active = true ∧ p'.l.obj.state = .waitingForIDs) := by
  induction xs with
  | nil =>
    intro m es p more k j a arrived _ _ _ _ _ _ _ hj _ _ hq hn hg _ _ hall
    exfalso
    have hA : Answer ((part ch (k + 1) j).map (·.id)) arrived (part ch (k + 1) j) := by
      refine ⟨rfl, fun b hb => ?_⟩
      cases hl : lastWith b.id arrived with
      | none => rcases hall b hb with h | h
                · exact absurd rfl (Loading.lastWith_none hl b h)
                · cases h
      | some x =>
        obtain ⟨hx, he⟩ := Loading.lastWith_some hl
        have := hg x hx b (Loading.part_sub hb) he.symm
        rw [this] at hl; exact hl
    rw [hq, Loading.answer_ready (Loading.part_nodup H _ _) hA] at hn
    cases hn
  | cons x xs ih =>
    intro m es p more k j a arrived hS hup hout hm ha hs hkj hj hk hst hqu hn hg hd hxs hall
    have hxp := hxs x List.mem_cons_self
    obtain ⟨i, hi⟩ : ∃ i, ch[i + 1]? = some x := by
      unfold part at hxp
      obtain ⟨i, hi⟩ := List.getElem?_of_mem hxp
      rw [List.getElem?_drop] at hi
      have := (List.getElem?_eq_some_iff.mp hi).1
      rw [List.length_take] at this
      rw [List.getElem?_take, if_pos (by omega)] at hi
      exact ⟨k + i, by rw [← hi]; congr 1; omega⟩
    have hgx := Loading.Genuine.of_mem H (List.mem_of_getElem? hi)
    have hlen : p.l.obj.queue.length ≤ ch.length := by
      rw [hqu, Loading.fold_newQueue _ (Loading.part_nodup H _ _)]
      simp only [List.length_map]
      rw [Loading.part_length hj]; omega
    have hm' : n + xs.length * (ch.length + 1) + ch.length + 1 ≤ m := by
      rw [List.length_cons, Nat.add_mul, Nat.one_mul] at hm; omega
    obtain ⟨r, hmr⟩ : ∃ r, m = r + p.l.obj.queue.length + 1 := ⟨m - p.l.obj.queue.length - 1, by omega⟩
    subst hmr
    have S := (hS.session H).2.2.running.serving
    obtain ⟨p1, hS1, hmain, hlo, hdi, hl1⟩ := go_block H hS ha hup hf hq hi
    have hst1 : Stored p1.l.link.db a.id := by rw [hl1]; exact Loading.put_kept S x peer .ok .ok _ hst
    have ha1 : p1.l.active = true := by rw [hl1]; exact ha
    have hs1 : p1.l.obj.state = .waitingForBlocks := by rw [hl1]; exact hs
    have hq1 : p1.l.obj = p.l.obj := by rw [hl1]
    have hd1 : Mark s s0 ch p1.l.prevDiff (asking more) j := by rw [hl1]; exact hd
    have ho1 : p1.l.out = p.l.out := by rw [hl1]
    obtain ⟨hscore, B⟩ := (hS1.session H).1.base H
    obtain ⟨l', out', e1, e2, e3, e4, e5, e6, e7, e8⟩ := Loading.block_case (lib := lib) (n := r) H hscore (c := c) hf
      B.running.reachable.inv (by rw [hq1]; exact B.running.serving) B.who B.announced B.faithful ha1 hs1 hkj hj hk hst1 (by rw [hq1]; exact hqu) hg hd1 (some x)
      (fun y hy => by cases hy; exact hgx)
    have htk : takePkg c p1.l (.block peer x) = .ok l' := Loading.step_fire_block (lib := lib) ha1 B.who e1
    obtain ⟨p2, hS2, hup2, hl2⟩ := go_take (n := r) (c := c) (by simp only [Prog.cost, hdi, hq1]; exact hS1) ha1 hmain hlo hdi hf htk
    rw [List.append_assoc] at hS2
    have hr1 : ready (putOpt p1.l.obj.queue (some x)) = ready (putOpt p.l.obj.queue (some x)) := by rw [hq1]
    cases hr : ready (putOpt p.l.obj.queue (some x)) with
    | true =>
      have e7 := e7 (hr1.trans hr)
      refine ⟨r, _, p2, by omega, hS2, hup2, fun h => by rw [hl2]; exact e7.1 h, fun h => ?_⟩
      rw [hl2]
      exact ⟨(e7.2 h).1, (e7.2 h).2.1⟩
    | false =>
      have e8 := e8 (hr1.trans hr)
      have hx2 : p2.l = { p1.l with obj := { p1.l.obj with queue := putOpt p.l.obj.queue (some x) } } := by rw [hl2, e8, hq1]
      obtain ⟨m', es', p', h1, h2, h3⟩ := ih (p := p2) (more := more) (k := k) (j := j) (a := a) (arrived := arrived ++ [x]) hS2 hup2
        (by rw [hx2]; exact ho1.trans hout) (by omega) (by rw [hx2]; exact ha1) (by rw [hx2]; exact hs1) hkj hj hk (by rw [hx2]; exact hst1)
        (by rw [hx2]; show put p.l.obj.queue x = _; rw [hqu, List.foldl_append]; rfl) (by rw [hx2]; exact hr) (by
          intro y hy
          rcases List.mem_append.mp hy with h | h
          · exact hg y h
          · rw [List.mem_singleton.mp h]; exact hgx) (by rw [hx2]; exact hd1)
        (fun y hy => hxs y (List.mem_cons_of_mem _ hy)) (by
          intro y hy
          rcases hall y hy with h | h
          · exact Or.inl (List.mem_append_left _ h)
          · rcases List.mem_cons.mp h with rfl | h
            · exact Or.inl (by simp)
            · exact Or.inr h)
      exact ⟨m', _, p', h1, by rw [List.append_assoc] at h2; exact h2, h3⟩

theorem feed_all (H : History ch) {c : Ctx} (hf : ∀ j, c.fates j = .ok) {q : Sender} (hq : q.remote = some peer) {p0 p : Prog} {es : List Ev} {m j : Nat}
    {more : List Sent} (hS : Syncing lib g peer s s0 ch p0 m es p) (hup : Up p) (hout : p.l.out = p0.l.out ++ more)
    (hm : n + ch.length * (ch.length + 1) ≤ m) (h : Waits s s0 ch p.l more j) :
    ∃ m' es' p', n ≤ m' ∧ Syncing lib g peer s s0 ch p0 m' (es ++ es') p' ∧ Up p' ∧ (j + 1 = ch.length → p'.l.active = false) ∧
      (j + 1 ≠ ch.length → p'.l.active = true ∧ p'.l.obj.state = .waitingForIDs) := by
  obtain ⟨k, a, arrived, ha, hs, hkj, hj, hk, hst, hqu, hn, hg, hd⟩ := h
  refine feed H hf hq (part ch (k + 1) j) hS hup hout ?_ ha hs hkj hj hk hst hqu hn hg hd (fun x hx => hx) (fun x hx => Or.inr hx)
  have : (part ch (k + 1) j).length * (ch.length + 1) ≤ ch.length * (ch.length + 1) :=
    Nat.mul_le_mul_right _ (by rw [Loading.part_length hj]; omega)
  omega

theorem finish_asking (H : History ch) {c : Ctx} (hf : ∀ j, c.fates j = .ok) {q : Sender} (hq : q.remote = some peer) {p0 p : Prog} {es : List Ev}
    {m : Nat} (hS : Syncing lib g peer s s0 ch p0 m es p) (hup : Up p) (hm : n + ch.length * (ch.length + 1) ≤ m) (ha : p.l.active = true)
    (hs : p.l.obj.state = .waitingForIDs) (hsh : Shares ch p.l) :
    ∃ m' es' p', n ≤ m' ∧ Syncing lib g peer s s0 ch p0 m' (es ++ es') p' ∧ p'.l.active = false := by
  obtain ⟨hscore, B⟩ := (hS.session H).1.base H
  obtain ⟨more, hout, P⟩ := B.phase
  cases P with
  | loading j h' =>
    obtain ⟨_, _, _, _, hs', _⟩ := h'
    rw [hs] at hs'; cases hs'
  | released ha' => rw [ha] at ha'; cases ha'
  | asking _ _ mm req hmm hr hst hd =>
    obtain ⟨m1, req1, b, h1, h2, h3, h4⟩ := hsh
    rw [hmm] at h1; cases h1
    cases Loading.asks_unique hr h2
    obtain ⟨pre, a, post, hreq, hpre, hach⟩ := Loading.first_shared req ⟨b, h3, h4⟩
    obtain ⟨i, hi⟩ := List.getElem?_of_mem hach
    have hil := (List.getElem?_eq_some_iff.mp hi).1
    have hfo : Loading.Follows ch req ((part ch i (ch.length - 1)).map (·.id)) :=
      ⟨pre, a, post, i, ch.length - 1, hreq, hpre, hi, by omega, by omega, fun _ => by omega, Or.inl rfl⟩
    have hne : (part ch i (ch.length - 1)).map (·.id) ≠ [] := by
      rw [Loading.part_cons (by omega) hi]; simp
    obtain ⟨l', out', e1, e2, e3, e4, e5, e6, e7⟩ := Loading.ids_case (lib := lib) H hscore (c := c) hf B.running.reachable.inv B.running.serving
      B.who B.announced B.faithful ha hs hst hd hreq hpre hi (j := ch.length - 1) (by omega) (by omega) (fun _ => by omega) (Or.inl rfl)
    obtain ⟨p1, hS1, hmain, hlo, hdi, hl1⟩ := go_ids hS ha hup c hq hne (fun _ _ m' req' hm' hr' => by
      rw [hmm] at hm'; cases hm'
      rw [Loading.asks_unique hr' hr]; exact hfo)
    have htk : takePkg c p1.l (.ids peer ((part ch i (ch.length - 1)).map (·.id))) = .ok l' := by
      rw [hl1]; exact Loading.step_fire_ids (lib := lib) ha B.who hne e1
    obtain ⟨p2, hS2, hup2, hl2⟩ := go_take (n := m) (c := c) (by simp only [Prog.cost, hdi]; exact hS1) (by rw [hl1]; exact ha) hmain hlo hdi hf htk
    rw [List.append_assoc] at hS2
    rcases e7 (by omega) with h | h
    · exact ⟨m, _, p2, by omega, hS2, by rw [hl2]; exact h⟩
    · obtain ⟨m', es', p', h1, h2, _, h3, _⟩ := feed_all (n := n) H hf hq hS2 hup2 (by rw [hl2, e5, hout, List.append_assoc]) hm (by rw [hl2]; exact h)
      rw [List.append_assoc] at h2
      exact ⟨m', _, p', h1, h2, h3 (by omega)⟩

theorem can_finish_up (H : History ch) {c : Ctx} (hf : ∀ j, c.fates j = .ok) {q : Sender} (hq : q.remote = some peer) {p0 p : Prog} {es : List Ev}
    {m : Nat} (hsh : Shares ch p0.l) (hS : Syncing lib g peer s s0 ch p0 m es p) (hup : Up p) (hm : n + 2 * (ch.length * (ch.length + 1)) ≤ m) :
    ∃ m' es' p', n ≤ m' ∧ Syncing lib g peer s s0 ch p0 m' (es ++ es') p' ∧ p'.l.active = false := by
  have hSe := (hS.session H).1
  obtain ⟨hscore, B⟩ := hSe.base H
  obtain ⟨more, hout, P⟩ := B.phase
  cases P with
  | released ha => exact ⟨m, [], p, by omega, by rw [List.append_nil]; exact hS, ha⟩
  | asking ha hs mm req hmm hr hst hd => exact finish_asking H hf hq hS hup (by omega) ha hs (Loading.shares_later H hSe ha hs hsh)
  | loading j h =>
    obtain ⟨m', es', p', h1, h2, hup', h3, h4⟩ := feed_all (n := n + ch.length * (ch.length + 1)) H hf hq hS hup hout (by omega) h
    by_cases he : j + 1 = ch.length
    · exact ⟨m', es', p', by omega, h2, h3 he⟩
    · obtain ⟨ha, hs⟩ := h4 he
      obtain ⟨m2, es2, p2, h5, h6, h7⟩ := finish_asking (n := n) H hf hq h2 hup' h1 ha hs (Loading.shares_later H (h2.session H).1 ha hs hsh)
      rw [List.append_assoc] at h6
      exact ⟨m2, _, p2, h5, h6, h7⟩

/-- what the distributor holds is taken without a panic -/
theorem take_runs (H : History ch) {p0 p : Prog} {es : List Ev} {m : Nat} (hS : Syncing lib g peer s s0 ch p0 m es p) (ha : p.l.active = true)
    {c : Ctx} (hf : ∀ j, c.fates j = .ok) (hm : p.l.obj.queue.length ≤ m) {pk : Pkg} (hd : p.dist = .sending pk) : ∃ l', takePkg c p.l pk = .ok l' := by
  obtain ⟨hSe, hc, _⟩ := hS.session H
  obtain ⟨hscore, B⟩ := hSe.base H
  have I := B.running.reachable.inv
  obtain ⟨more, hout, P⟩ := B.phase
  cases pk with
  | ids a ids =>
    simp only [takePkg, Loading.handleIDs]
    rw [if_neg (by rw [ha]; simp)]
    split
    · exact ⟨_, rfl⟩
    · rename_i hne
      split
      · exact ⟨_, rfl⟩
      · rename_i hp
        have hp : a = peer := by rw [← B.who]; exact Classical.not_not.mp hp
        subst hp
        by_cases hs : p.l.obj.state = .waitingForIDs
        · cases P with
          | asking _ _ m req hm hr hst hdd =>
            obtain ⟨pre, a, post, i, j, hreq, hpre, hi, hij, hj, hgo, hids⟩ := hc.1 ids hd hs hne m req hm hr
            obtain ⟨l', out', e1, _⟩ := Loading.ids_case (lib := lib) H hscore (c := c) hf I B.running.serving B.who B.announced B.faithful ha hs
              hst hdd hreq hpre hi hij hj hgo hids
            rw [e1]; exact ⟨_, rfl⟩
          | loading j h' =>
            obtain ⟨_, _, _, _, hs', _⟩ := h'
            rw [hs] at hs'; cases hs'
          | released ha' => rw [ha] at ha'; cases ha'
        · rw [Loading.fire_ids_other c p.l ids I.quiet hs]; exact ⟨_, rfl⟩
  | block a b =>
    simp only [takePkg, Loading.handleBlock]
    rw [if_neg (by rw [ha]; simp)]
    split
    · exact ⟨_, rfl⟩
    · rename_i hp
      have hp : a = peer := by rw [← B.who]; exact Classical.not_not.mp hp
      subst hp
      by_cases hs : p.l.obj.state = .waitingForBlocks
      · cases P with
        | asking _ hs' => rw [hs] at hs'; cases hs'
        | loading j h' =>
          obtain ⟨k, a, arrived, _, _, hkj, hj, hk, hst, hq, hn, hg, hdd⟩ := h'
          obtain ⟨l', out', e1, _⟩ := Loading.block_case (lib := lib) (n := 0) H hscore (c := c) hf I (B.running.serving.mono (by omega)) B.who B.announced
            B.faithful ha hs hkj hj hk hst hq hg hdd (some b) (fun x hx => by cases hx; exact hc.2 b hd)
          rw [e1]; exact ⟨_, rfl⟩
        | released ha' => rw [ha] at ha'; cases ha'
      · rw [Loading.fire_block_other c p.l (some b) I.quiet hs]; exact ⟨_, rfl⟩

theorem Alive.mono {p : Prog} {m : Nat} (h : Alive lib g m p) (hn : n ≤ m) : Alive lib g n p := by
  induction h generalizing n with
  | start hr hs cfg fs seeds lsn => exact .start hr (hs.mono hn) cfg fs seeds lsn
  | step e _ hs ih => exact .step e (ih (Nat.add_le_add_right hn _)) hs

theorem Syncing.mono {p0 p : Prog} {es : List Ev} {m : Nat} (h : Syncing lib g peer s s0 ch p0 m es p) (hn : n ≤ m) :
    Syncing lib g peer s s0 ch p0 n es p := by
  induction h generalizing n with
  | start hr hb hc => exact .start (hr.mono hn) hb hc
  | step e _ ha hh hs ih => exact .step e (ih (Nat.add_le_add_right hn _)) ha hh hs

theorem can_finish (H : History ch) {c : Ctx} (hf : ∀ j, c.fates j = .ok) {q : Sender} (hq : q.remote = some peer) {p0 p : Prog} {es : List Ev}
    {m : Nat} (hsh : Shares ch p0.l) (hS : Syncing lib g peer s s0 ch p0 m es p) (hmain : p.main ≠ .exited) (hl : p.loaderUp = true)
    (hd : p.dist ≠ .exited) (hm : n + 2 * (ch.length * (ch.length + 1)) + p.l.obj.queue.length ≤ m) :
    ∃ m' es' p', n ≤ m' ∧ Syncing lib g peer s s0 ch p0 m' (es ++ es') p' ∧ p'.l.active = false := by
  by_cases ha : p.l.active = true
  · cases hdd : p.dist with
    | exited => exact absurd hdd hd
    | ready => exact can_finish_up H hf hq hsh hS ⟨hmain, hl, hdd⟩ (by omega)
    | sending pk =>
      obtain ⟨l', hl'⟩ := take_runs H hS ha hf (by omega) hdd
      obtain ⟨r, hr⟩ : ∃ r, m = r + p.l.obj.queue.length := ⟨m - p.l.obj.queue.length, by omega⟩
      subst hr
      have hcost : p.cost (.take c) ≤ p.l.obj.queue.length := by
        simp only [Prog.cost]; split <;> omega
      obtain ⟨p', hS', hup, _⟩ := go_take (n := r) (Syncing.mono hS (Nat.add_le_add_left hcost _)) ha hmain hl hdd hf hl'
      obtain ⟨m', es', p2, h1, h2, h3⟩ := can_finish_up (n := n) H hf hq hsh hS' hup (by omega)
      rw [List.append_assoc] at h2
      exact ⟨m', _, p2, h1, h2, h3⟩
  · exact ⟨m, [], p, by omega, by rw [List.append_nil]; exact hS, by simpa using ha⟩

end Verif.Services
