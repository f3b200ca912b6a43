import Verif.Loading.HonestLemmas
/-
One event of a synchronisation with an honest peer: lemmas for property C89.
-/

set_option autoImplicit false

namespace Verif.Loading

open Verif
open Verif.Chains (Addr BlockID ProtoBlock MicroInv Linkage LeashOf BlockRec getBlockByID PutBlock)
open Verif.Chains.Spec (Stored SameTree ScoreOf blockScore IsWalk)
open Verif.Peers (Registry Lib Conn second)
open Verif.KV (Fate)

variable {lib : Lib} {g : ProtoBlock} {n : Nat} {s s0 : Nat} {ch : List ProtoBlock} {peer : Addr}

theorem new_not_ready {ids : List BlockID} (h : ids ≠ []) : ready (newQueue ids) = false := by
  cases ids with
  | nil => exact absurd rfl h
  | cons x ids => simp [newQueue, ready, Item.filled]

/-- what an answer leads to, whatever the loader does after it -/
theorem ids_loop {c : Ctx} (hf : ∀ j, c.fates j = .ok) {lk : Linkage} (S : Serving g n lk) (F : Faithful s0 ch lk.db)
    {i j : Nat} {a : ProtoBlock} {ids : List BlockID} (hi : ch[i]? = some a) (hst : Stored lk.db a.id) (hij : i ≤ j) (hj : j < ch.length)
    (hids : ids = (part ch i j).map (·.id) ∨ i < j ∧ ids = (part ch (i + 1) j).map (·.id)) :
    ∃ lk' req, requestLoop c peer 0 lk ids = (lk', .ok req) ∧ Serving g n lk' ∧ Faithful s0 ch lk'.db ∧ SameTree lk.db lk'.db ∧
      ((req = [] ∧ ∃ b, ch[j]? = some b ∧ LeashOf lk' peer = .ok b.id) ∨
       (req ≠ [] ∧ ∃ k b, k < j ∧ i ≤ k ∧ ch[k]? = some b ∧ Stored lk'.db b.id ∧ req = (part ch (k + 1) j).map (·.id))) := by
  obtain ⟨leash, hl, _⟩ := S.leash peer
  obtain ⟨s1, w, known, rest, hsplit, hk, hor⟩ := requestLoop_spec c peer 0 S ids leash hl
  have F' := F.same w.tree
  rcases hor.symm with ⟨⟨j, hbad⟩, _⟩ | ⟨hr, hno, hle⟩
  · exact absurd (hf j) hbad
  refine ⟨(requestLoop c peer 0 lk ids).1, rest, Prod.ext rfl hr, s1, F', w.tree, ?_⟩
  -- where the list begins
  obtain ⟨b0, hb0, hids'⟩ : ∃ b0, (b0 = i ∨ b0 = i + 1 ∧ i < j) ∧ ids = (part ch b0 j).map (·.id) := by
    rcases hids with h | ⟨h1, h2⟩
    · exact ⟨i, Or.inl rfl, h⟩
    · exact ⟨i + 1, Or.inr ⟨rfl, h1⟩, h2⟩
  have hb0j : b0 ≤ j := by rcases hb0 with rfl | ⟨rfl, h⟩ <;> omega
  have hb0i : i ≤ b0 := by rcases hb0 with rfl | ⟨rfl, h⟩ <;> omega
  have hcj : ch[j]? = some ch[j] := List.getElem?_eq_getElem hj
  by_cases hrest : rest = []
  · subst hrest
    refine Or.inl ⟨rfl, ch[j], hcj, ?_⟩
    rw [List.append_nil] at hsplit
    have hlast : known.getLast?.getD leash = ch[j].id := by
      rw [← hsplit, hids', List.getLast?_map, part_last hb0j hcj]; rfl
    rw [hle, hlast]
  · refine Or.inr ⟨hrest, ?_⟩
    have hdrop : rest = (part ch (b0 + known.length) j).map (·.id) := by
      have : rest = ids.drop known.length := by rw [hsplit, List.drop_left]
      rw [this, hids', ← List.map_drop, part_drop]
    have htj : b0 + known.length ≤ j := by
      apply Nat.le_of_not_lt
      intro h
      rw [part_nil h] at hdrop
      exact hrest hdrop
    by_cases ht : known.length = 0
    · rw [ht, Nat.add_zero] at hdrop
      rcases hb0 with rfl | ⟨rfl, hlt⟩
      · exfalso
        rw [part_cons hij hi] at hdrop
        exact hno a.id (by rw [hdrop]; rfl) hst
      · exact ⟨i, a, hlt, Nat.le_refl _, hi, (sameTree_stored w.tree _).mpr hst, hdrop⟩
    · have hkl : b0 + known.length - 1 < ch.length := by omega
      refine ⟨b0 + known.length - 1, ch[b0 + known.length - 1], by omega, by omega, List.getElem?_eq_getElem hkl, ?_, ?_⟩
      · refine (sameTree_stored w.tree _).mpr (hk _ ?_)
        have h1 : ids[known.length - 1]? = some ch[b0 + known.length - 1].id := by
          rw [hids', List.getElem?_map, part_get (by omega), show b0 + (known.length - 1) = b0 + known.length - 1 by omega,
            List.getElem?_eq_getElem hkl]
          rfl
        rw [hsplit, List.getElem?_append_left (by omega)] at h1
        exact List.mem_of_getElem? h1
      · rw [show b0 + known.length - 1 + 1 = b0 + known.length by omega]; exact hdrop

/-- an id list of the honest peer -/
theorem ids_case (H : History ch) (hscore : s = worth s0 ch (ch.length - 1)) {c : Ctx} (hf : ∀ j, c.fates j = .ok) {l : Loader}
    {more : List Sent} (I : Inv lib l) (S : Serving g n l.link) (hwho : l.peerID = peer) (han : Announced l.reg peer s)
    (F : Faithful s0 ch l.link.db) (ha : l.active = true) (hs : l.obj.state = .waitingForIDs)
    {req ids : List BlockID} (hst : ∀ x, x ∈ req → Stored l.link.db x)
    (hd : l.prevDiff = none ∧ more = [] ∨ ∃ i a, ch[i]? = some a ∧ i + 1 < ch.length ∧ req.head? = some a.id ∧
        asking more ≤ i + 1 ∧ l.prevDiff = some ((s : Int) - worth s0 ch i))
    {pre post : List BlockID} {a : ProtoBlock} {i j : Nat} (hreq : req = pre ++ a.id :: post)
    (hpre : ∀ x, x ∈ pre → ∀ y, y ∈ ch → y.id ≠ x) (hi : ch[i]? = some a) (hij : i ≤ j) (hj : j < ch.length)
    (hgo : i + 1 < ch.length → i < j)
    (hids : ids = (part ch i j).map (·.id) ∨ i < j ∧ ids = (part ch (i + 1) j).map (·.id)) :
    ∃ l' out', fire c l (.ids ids) = (l', .ok ()) ∧ l'.reg = l.reg ∧ l'.peerID = peer ∧ Faithful s0 ch l'.link.db ∧
      l'.out = l.out ++ out' ∧ Phase peer s s0 ch l' (more ++ out') ∧
      (j + 1 = ch.length → l'.active = false ∨ Waits s s0 ch l' (more ++ out') j) := by
  have hast : Stored l.link.db a.id := hst _ (by rw [hreq]; simp)
  have hmark : Mark s s0 ch l.prevDiff (asking more) j := by
    rcases hd with ⟨h1, h2⟩ | ⟨i0, a0, h1, h2, h3, h4, h5⟩
    · exact Or.inl ⟨h1, by rw [h2]; rfl⟩
    · have : pre = [] := by
        cases pre with
        | nil => rfl
        | cons x pre =>
          rw [hreq] at h3
          have hx : x = a0.id := by simpa using h3
          exact absurd hx.symm (hpre x List.mem_cons_self a0 (List.mem_of_getElem? h1))
      subst this
      rw [hreq] at h3
      have hx : a.id = a0.id := by simpa using h3
      have hii := H.index hi h1 hx
      subst hii
      exact Or.inr ⟨i, hgo h2, h4, h5⟩
  obtain ⟨lk', rq, e1, S', F', T, hor⟩ := ids_loop (peer := peer) hf S F hi hast hij hj hids
  have ho := fire_ids c l ids I.quiet hs
  generalize fire c l (.ids ids) = r at ho
  have hloop : requestLoop c (enter l .waitingForBlocks).peerID 0 (enter l .waitingForBlocks).link ids = (lk', .ok rq) := by
    rw [← e1, ← hwho]; rfl
  cases ho with
  | failed lk e h => rw [hloop] at h; cases h
  | known lk h =>
    rw [hloop] at h; cases h
    rcases hor with ⟨_, b, hb, hle⟩ | ⟨hne, _⟩
    · obtain ⟨l', out', e1, e2, e3, e4, e5, e6, e7, _⟩ := completed H hscore c (l := { enter l .waitingForBlocks with link := lk' })
        (more := more) (I.enter .waitingForBlocks |>.withLink lk') ha S' hwho han F' hb hle hmark
      exact ⟨l', out', e1, e3, e4, by rw [e2]; exact F', e5, e6, fun h => Or.inl (e7 h)⟩
    · exact absurd rfl hne
  | asked lk req' cn h hne hc =>
    rw [hloop] at h; cases h
    rcases hor with ⟨h0, _⟩ | ⟨_, k, b, hkj, _, hk, hbst, hrq⟩
    · exact absurd h0 hne
    · have W : Waits s s0 ch
          { enter l .waitingForBlocks with
              link := lk', out := (enter l .waitingForBlocks).out ++ rq.map (fun id => (⟨c.now, cn, .getBlock id⟩ : Sent)),
              obj := { (enter l .waitingForBlocks).obj with queue := newQueue rq, timestamp := c.now } }
          (more ++ rq.map (fun id => (⟨c.now, cn, .getBlock id⟩ : Sent))) j := by
        refine ⟨k, b, [], ha, rfl, hkj, hj, hk, hbst, by rw [hrq]; rfl, new_not_ready hne, by simp, ?_⟩
        rw [asking_append, asking_blocks, Nat.add_zero]
        exact hmark
      exact ⟨_, _, rfl, rfl, hwho, F', rfl, .loading j W, fun _ => Or.inr W⟩
  | panic lk req' h hne hc =>
    obtain ⟨cn, hcn⟩ := Option.ne_none_iff_exists'.mp (I.conn ha)
    have hc : l.obj.peer.conn = none := hc
    rw [hcn] at hc; cases hc

/-- all blocks of a part have arrived -/
theorem arrived_all (H : History ch) {k j : Nat} {arrived : List ProtoBlock} (hg : ∀ x, x ∈ arrived → Genuine ch x)
    (hr : ready (arrived.foldl put (newQueue ((part ch (k + 1) j).map (·.id)))) = true) :
    Answer ((part ch (k + 1) j).map (·.id)) arrived (part ch (k + 1) j) := by
  refine ⟨rfl, fun b hb => ?_⟩
  rw [fold_newQueue _ (part_nodup H _ _)] at hr
  unfold ready at hr
  rw [List.all_eq_true] at hr
  have := hr ⟨b.id, lastWith b.id arrived⟩ (List.mem_map.mpr ⟨b.id, List.mem_map.mpr ⟨b, hb, rfl⟩, rfl⟩)
  unfold Item.filled at this
  simp only at this
  cases hl : lastWith b.id arrived with
  | none => rw [hl] at this; cases this
  | some x =>
    obtain ⟨hx, he⟩ := lastWith_some hl
    have := hg x hx b (part_sub hb) he.symm
    rw [← this]
    rw [← this] at hl; exact hl

/-- a block of the honest peer -/
theorem block_case (H : History ch) (hscore : s = worth s0 ch (ch.length - 1)) {c : Ctx} (hf : ∀ j, c.fates j = .ok) {l : Loader}
    {more : List Sent} (I : Inv lib l) (S : Serving g (n + l.obj.queue.length) l.link) (hwho : l.peerID = peer) (han : Announced l.reg peer s)
    (F : Faithful s0 ch l.link.db) (ha : l.active = true) (hs : l.obj.state = .waitingForBlocks)
    {k j : Nat} {a : ProtoBlock} (hkj : k < j) (hj : j < ch.length) (hk : ch[k]? = some a) (hst : Stored l.link.db a.id)
    {arrived : List ProtoBlock} (hq : l.obj.queue = arrived.foldl put (newQueue ((part ch (k + 1) j).map (·.id))))
    (hg : ∀ x, x ∈ arrived → Genuine ch x) (hd : Mark s s0 ch l.prevDiff (asking more) j)
    (b : Option ProtoBlock) (hb : ∀ x, b = some x → Genuine ch x) :
    ∃ l' out', fire c l (.block b) = (l', .ok ()) ∧ l'.reg = l.reg ∧ l'.peerID = peer ∧ Faithful s0 ch l'.link.db ∧
      l'.out = l.out ++ out' ∧ Phase peer s s0 ch l' (more ++ out') ∧ 
      (ready (putOpt l.obj.queue b) = true → (j + 1 = ch.length → l'.active = false) ∧
        (j + 1 ≠ ch.length → l'.active = true ∧ l'.obj.state = .waitingForIDs ∧ out' ≠ [])) ∧
      (ready (putOpt l.obj.queue b) = false → l' = { l with obj := { l.obj with queue := putOpt l.obj.queue b } }) := by
  have hq' : putOpt l.obj.queue b = (arrived ++ b.toList).foldl put (newQueue ((part ch (k + 1) j).map (·.id))) := by
    cases b with
    | none => rw [Option.toList_none, List.append_nil]; exact hq
    | some x => rw [Option.toList_some, List.foldl_append, ← hq]; rfl
  have hg' : ∀ x, x ∈ arrived ++ b.toList → Genuine ch x := by
    intro x hx
    rcases List.mem_append.mp hx with h | h
    · exact hg x h
    · cases b with
      | none => cases h
      | some y =>
        have : x = y := by simpa using h
        exact hb x (by rw [this])
  have ho := fire_block c l b I.quiet hs
  generalize fire c l (.block b) = r at ho
  have happly : ready (putOpt l.obj.queue b) = true → ∃ lk', applyAll c l.peerID 0 l.link (putOpt l.obj.queue b) = (lk', .ok ()) ∧ Serving g n lk' ∧
      Applied l.link lk' peer (part ch (k + 1) j) := by
    intro hr
    rw [hq'] at hr ⊢
    have A := arrived_all H hg' hr
    have hlen : l.obj.queue.length = (part ch (k + 1) j).length := by
      rw [hq, fold_newQueue _ (part_nodup H _ _)]; simp
    have hch := chained_part H (j - k) k (Stored l.link.db) a hk hst
    rw [show k + (j - k) = j by omega] at hch
    rw [hwho]
    exact applyAll_chained c peer 0 hf _ _ (answer_queue (part_nodup H _ _) A) (hlen ▸ S) hch
  cases ho with
  | waiting h =>
    refine ⟨_, [], rfl, rfl, hwho, F, (List.append_nil _).symm, ?_, fun h' => (by rw [h] at h'; cases h'), fun _ => rfl⟩
    rw [List.append_nil]
    exact .loading j ⟨k, a, arrived ++ b.toList, ha, hs, hkj, hj, hk, hst, hq', h, hg', hd⟩
  | failed h lk e he =>
    obtain ⟨lk', e1, _⟩ := happly h
    rw [e1] at he; cases he
  | complete h lk he =>
    obtain ⟨lk', e1, S', A⟩ := happly h
    rw [e1] at he
    cases he
    have hlen : l.obj.queue.length = (part ch (k + 1) j).length := by
      rw [hq, fold_newQueue _ (part_nodup H _ _)]; simp
    have F' : Faithful s0 ch lk.db := by
      rw [A.eq]
      exact F.puts H _ (hlen ▸ S) (fun x hx => Genuine.of_mem H (part_sub hx))
    have hcj : ch[j]? = some ch[j] := List.getElem?_eq_getElem hj
    have hle := A.leash _ (part_last (i := k + 1) (by omega) hcj)
    obtain ⟨l', out', e1, e2, e3, e4, e5, e6, e7, e8⟩ := completed H hscore c
        (l := { l with link := lk, obj := { l.obj with queue := putOpt l.obj.queue b } })
        (more := more) ((I.withQueue _ (I.matching.putOpt b)).withLink lk) ha S' hwho han F' hcj hle hd
    exact ⟨l', out', e1, e3, e4, by rw [e2]; exact F', e5, e6, fun _ => ⟨e7, e8⟩, fun h' => (by rw [h] at h'; cases h')⟩

/-- changes of the store and of the registry do not disturb the phases -/
theorem Phase.mono {l : Loader} {more : List Sent} (h : Phase peer s s0 ch l more) (ha : l.active = true) {lk : Linkage} {r : Registry}
    (hm : ∀ id, Stored l.link.db id → Stored lk.db id) : Phase peer s s0 ch { l with link := lk, reg := r } more := by
  cases h with
  | asking ha hs m req h1 h2 h3 h4 => exact .asking ha hs m req h1 h2 (fun x hx => hm x (h3 x hx)) h4
  | loading j h =>
    obtain ⟨k, a, arrived, ha, hs, hkj, hj, hk, hst, hq, hn, hg, hd⟩ := h
    exact .loading j ⟨k, a, arrived, ha, hs, hkj, hj, hk, hm _ hst, hq, hn, hg, hd⟩
  | released ha' => rw [ha] at ha'; cases ha'

theorem base_step (H : History ch) (hscore : s = worth s0 ch (ch.length - 1)) {l0 l l' : Loader} {e : Event}
    (B : Base lib g peer s s0 ch l0 (n + cost l e) l) (ha : l.active = true) (hh : Honest peer s s0 ch l e) (h : step lib l e = .ok l') :
    Base lib g peer s s0 ch l0 n l' := by
  have R' := Running.step e B.running h
  have I := B.running.reachable.inv
  have S := B.running.serving
  obtain ⟨more, hout, P⟩ := B.phase
  have same : l' = l → Base lib g peer s s0 ch l0 n l' := by
    intro e; subst e; exact ⟨R', B.who, B.announced, B.faithful, more, hout, P⟩
  obtain ⟨c, op⟩ := e
  cases op with
  | ids p ids =>
    simp only [step, handleIDs] at h
    have S : Serving g n l.link := S
    rw [if_neg (by rw [ha]; simp)] at h
    split at h
    · cases h; exact same rfl
    · rename_i hne
      split at h
      · cases h; exact same rfl
      · rename_i hp
        have hp : p = peer := by rw [← B.who]; exact Classical.not_not.mp hp
        subst hp
        obtain ⟨rfl, _⟩ := logged_ok h
        by_cases hs : l.obj.state = .waitingForIDs
        · obtain ⟨hf, hfo⟩ := hh.ids ids rfl hs hne
          cases P with
          | asking _ _ m req hm hr hst hd =>
            obtain ⟨pre, a, post, i, j, hreq, hpre, hi, hij, hj, hgo, hids⟩ := hfo m req hm hr
            obtain ⟨l', out', e1, e2, e3, e4, e5, e6, _⟩ := ids_case (lib := lib) H hscore (c := c) hf I S B.who B.announced B.faithful ha hs
              hst hd hreq hpre hi hij hj hgo hids
            rw [e1]
            exact ⟨e1 ▸ R', e3, by rw [e2]; exact B.announced, e4, _, by rw [e5, hout, List.append_assoc], e6⟩
          | loading j h' =>
            obtain ⟨_, _, _, _, hs', _⟩ := h'
            rw [hs] at hs'; cases hs'
          | released ha' => rw [ha] at ha'; cases ha'
        · exact same (by rw [fire_ids_other c l ids I.quiet hs])
  | block p b =>
    simp only [step, handleBlock] at h
    have S : Serving g (n + l.obj.queue.length) l.link := S
    rw [if_neg (by rw [ha]; simp)] at h
    split at h
    · cases h; exact same rfl
    · rename_i hp
      have hp : p = peer := by rw [← B.who]; exact Classical.not_not.mp hp
      subst hp
      obtain ⟨rfl, _⟩ := logged_ok h
      by_cases hs : l.obj.state = .waitingForBlocks
      · obtain ⟨hf, hb⟩ := hh.block b rfl
        cases P with
        | asking _ hs' => rw [hs] at hs'; cases hs'
        | loading j h' =>
          obtain ⟨k, a, arrived, _, _, hkj, hj, hk, hst, hq, hn, hg, hd⟩ := h'
          obtain ⟨l', out', e1, e2, e3, e4, e5, e6, _⟩ := block_case (lib := lib) H hscore (c := c) hf I S B.who B.announced B.faithful ha hs hkj hj
            hk hst hq hg hd b hb
          rw [e1]
          exact ⟨e1 ▸ R', e3, by rw [e2]; exact B.announced, e4, _, by rw [e5, hout, List.append_assoc], e6⟩
        | released ha' => rw [ha] at ha'; cases ha'
      · exact same (by rw [fire_block_other c l b I.quiet hs])
  | tick =>
    simp only [step, tick] at h
    rw [if_pos ha] at h
    obtain ⟨rfl, _⟩ := logged_ok h
    have hw : Waiting l := by
      cases P with
      | asking _ hs => exact Or.inl hs
      | loading j h' => exact Or.inr h'.choose_spec.choose_spec.choose_spec.2.1
      | released ha' => rw [ha] at ha'; cases ha'
    have ht := hh.tick rfl
    refine same ?_
    rw [fire_tick c l c.now I.quiet hw, if_neg (by unfold timeoutDuration; exact Int.not_lt.mpr ht)]
  | timer =>
    simp only [step, sync] at h
    rw [if_pos ha] at h
    cases h; exact same rfl
  | putBlock b a f1 f2 =>
    obtain ⟨_, rfl⟩ := I.others h
    have S : Serving g (n + 1) l.link := S
    refine ⟨R', B.who, B.announced, B.faithful.put H S b a f1 f2 (hh.putBlock b a f1 f2 rfl), more, hout, ?_⟩
    exact P.mono ha (put_kept S b a f1 f2)
  | putMicro inv a f1 f2 =>
    obtain ⟨_, rfl⟩ := I.others h
    have S : Serving g (n + 1) l.link := S
    refine ⟨R', B.who, B.announced, B.faithful.micro S inv a f1 f2 (hh.putMicro inv a f1 f2 rfl), more, hout, ?_⟩
    exact P.mono ha (micro_kept S inv a f1 f2)
  | registry ev =>
    simp only [step] at h
    cases h
    refine ⟨R', B.who, ?_, B.faithful, more, hout, P.mono ha (fun _ h => h)⟩
    exact announced_step I.reg.inv (by rw [← B.who]; exact I.scored ha) B.announced (fun f s' hs => hh.score ev f s' rfl hs)

theorem Session.base (H : History ch) {l0 l : Loader} (h : Session lib g peer s s0 ch l0 n l) :
    s = worth s0 ch (ch.length - 1) ∧ Base lib g peer s s0 ch l0 n l := by
  induction h with
  | start hr hb =>
    refine ⟨hb.score, hr, hb.who, hb.announced, hb.faithful, [], (List.append_nil _).symm, ?_⟩
    obtain ⟨m, req, h1, h2, h3⟩ := hb.asked
    exact .asking hb.active hb.state m req h1 h2 h3 (Or.inl ⟨hb.diff, rfl⟩)
  | step e h ha hh hs ih => exact ⟨ih.1, base_step H ih.1 ih.2 ha hh hs⟩

/-! ### the end can be reached -/

theorem calm_block (l : Loader) {c : Ctx} (hf : ∀ j, c.fates j = .ok) {b : ProtoBlock} (hb : Genuine ch b) :
    Honest peer s s0 ch l ⟨c, .block peer (some b)⟩ where
  ids := fun _ h => (by cases h)
  block := fun x h => (by cases h; exact ⟨hf, fun y hy => (by cases hy; exact hb)⟩)
  tick := fun h => (by cases h)
  putBlock := fun _ _ _ _ h => (by cases h)
  putMicro := fun _ _ _ _ h => (by cases h)
  score := fun _ _ _ h => (by cases h)

theorem calm_ids {l : Loader} {c : Ctx} (hf : ∀ j, c.fates j = .ok) {m : Sent} {req ids : List BlockID} (hm : l.out.getLast? = some m)
    (hr : AsksIDs m.to req m.msg) (hfo : Follows ch req ids) : Honest peer s s0 ch l ⟨c, .ids peer ids⟩ where
  ids := fun x h _ _ => (by
    cases h
    refine ⟨hf, fun m' req' hm' hr' => ?_⟩
    rw [hm] at hm'; cases hm'
    rw [asks_unique hr' hr]; exact hfo)
  block := fun _ h => (by cases h)
  tick := fun h => (by cases h)
  putBlock := fun _ _ _ _ h => (by cases h)
  putMicro := fun _ _ _ _ h => (by cases h)
  score := fun _ _ _ h => (by cases h)

theorem step_fire_block {l l' : Loader} {c : Ctx} {b : Option ProtoBlock} (ha : l.active = true) (hw : l.peerID = peer)
    (h : fire c l (.block b) = (l', .ok ())) : step lib l ⟨c, .block peer b⟩ = .ok l' := by
  simp only [step, handleBlock]
  rw [if_neg (by rw [ha]; simp), if_neg (by rw [hw]; simp), h]
  rfl

theorem step_fire_ids {l l' : Loader} {c : Ctx} {ids : List BlockID} (ha : l.active = true) (hw : l.peerID = peer) (hne : ids ≠ [])
    (h : fire c l (.ids ids) = (l', .ok ())) : step lib l ⟨c, .ids peer ids⟩ = .ok l' := by
  simp only [step, handleIDs]
  rw [if_neg (by rw [ha]; simp), if_neg hne, if_neg (by rw [hw]; simp), h]
  rfl

/-- the blocks that are missing come one after the other -/
theorem feed (H : History ch) {c : Ctx} (hf : ∀ j, c.fates j = .ok) {l0 : Loader} (xs : List ProtoBlock) :
    ∀ {m : Nat} {l : Loader} {more : List Sent} {k j : Nat} {a : ProtoBlock}
    {arrived : List ProtoBlock}, Session lib g peer s s0 ch l0 m l → l.out = l0.out ++ more → n + xs.length * ch.length ≤ m → l.active = true →
    l.obj.state = .waitingForBlocks → k < j → j < ch.length → ch[k]? = some a → Stored l.link.db a.id →
    l.obj.queue = arrived.foldl put (newQueue ((part ch (k + 1) j).map (·.id))) → ready l.obj.queue = false →
    (∀ x, x ∈ arrived → Genuine ch x) → Mark s s0 ch l.prevDiff (asking more) j →
    (∀ x, x ∈ xs → x ∈ ch) → (∀ x, x ∈ part ch (k + 1) j → x ∈ arrived ∨ x ∈ xs) →
    ∃ m' l', n ≤ m' ∧ Session lib g peer s s0 ch l0 m' l' ∧ (j + 1 = ch.length → l'.active = false) ∧
      (j + 1 ≠ ch.length → l'.active = true ∧ l'.obj.state = .waitingForIDs ∧ l'.out.length ≠ l0.out.length) := by
  induction xs with
  | nil =>
    intro m l more k j a arrived _ _ _ _ _ _ hj _ _ hq hn hg _ _ hall
    exfalso
    have hA : Answer ((part ch (k + 1) j).map (·.id)) arrived (part ch (k + 1) j) := by
      refine ⟨rfl, fun b hb => ?_⟩
      cases hl : lastWith b.id arrived with
      | none => rcases hall b hb with h | h
                · exact absurd rfl (lastWith_none hl b h)
                · cases h
      | some x =>
        obtain ⟨hx, he⟩ := lastWith_some hl
        have := hg x hx b (part_sub hb) he.symm
        rw [this] at hl; exact hl
    rw [hq, answer_ready (part_nodup H _ _) hA] at hn
    cases hn
  | cons x xs ih =>
    intro m l more k j a arrived hS hout hm ha hs hkj hj hk hst hq hn hg hd hxs hall
    obtain ⟨hscore, B⟩ := hS.base H
    have hx := hxs x List.mem_cons_self
    have hgx := Genuine.of_mem H hx
    have hlen : l.obj.queue.length ≤ ch.length := by
      rw [hq, fold_newQueue _ (part_nodup H _ _)]
      simp only [List.length_map]
      rw [part_length hj]; omega
    have hm' : n + xs.length * ch.length + ch.length ≤ m := by
      rw [List.length_cons, Nat.add_mul, Nat.one_mul] at hm; omega
    obtain ⟨q, hmq⟩ : ∃ q, m = q + l.obj.queue.length := ⟨m - l.obj.queue.length, by omega⟩
    subst hmq
    obtain ⟨l', out', e1, e2, e3, e4, e5, e6, e7, e8⟩ := block_case (lib := lib) (n := q) H hscore (c := c) hf
      B.running.reachable.inv B.running.serving B.who B.announced B.faithful ha hs hkj hj hk hst hq hg hd (some x)
      (fun y hy => by cases hy; exact hgx)
    have hS' : Session lib g peer s s0 ch l0 q l' :=
      .step ⟨c, .block peer (some x)⟩ hS ha (calm_block l hf hgx) (step_fire_block ha B.who e1)
    cases hr : ready (putOpt l.obj.queue (some x)) with
    | true =>
      refine ⟨q, l', by omega, hS', (e7 hr).1, fun h => ⟨((e7 hr).2 h).1, ((e7 hr).2 h).2.1, ?_⟩⟩
      rw [e5, hout, List.length_append, List.length_append]
      have := List.length_pos_iff.mpr ((e7 hr).2 h).2.2
      omega
    | false =>
      have := e8 hr
      subst this
      refine ih (k := k) (j := j) (a := a) (arrived := arrived ++ [x]) hS' hout (by omega) ha hs hkj hj hk hst ?_ hr ?_ hd
        (fun y hy => hxs y (List.mem_cons_of_mem _ hy)) ?_
      · show put l.obj.queue x = _
        rw [hq, List.foldl_append]; rfl
      · intro y hy
        rcases List.mem_append.mp hy with h | h
        · exact hg y h
        · rw [List.mem_singleton.mp h]; exact hgx
      · intro y hy
        rcases hall y hy with h | h
        · exact Or.inl (List.mem_append_left _ h)
        · rcases List.mem_cons.mp h with rfl | h
          · exact Or.inl (by simp)
          · exact Or.inr h

theorem feed_all (H : History ch) {c : Ctx} (hf : ∀ j, c.fates j = .ok) {l0 l : Loader} {m j : Nat} {more : List Sent}
    (hS : Session lib g peer s s0 ch l0 m l) (hout : l.out = l0.out ++ more) (hm : n + ch.length * ch.length ≤ m)
    (h : Waits s s0 ch l more j) :
    ∃ m' l', n ≤ m' ∧ Session lib g peer s s0 ch l0 m' l' ∧ (j + 1 = ch.length → l'.active = false) ∧
      (j + 1 ≠ ch.length → l'.active = true ∧ l'.obj.state = .waitingForIDs ∧ l'.out.length ≠ l0.out.length) := by
  obtain ⟨k, a, arrived, ha, hs, hkj, hj, hk, hst, hq, hn, hg, hd⟩ := h
  refine feed H hf (part ch (k + 1) j) hS hout ?_ ha hs hkj hj hk hst hq hn hg hd (fun x hx => part_sub hx) (fun x hx => Or.inr hx)
  have : (part ch (k + 1) j).length * ch.length ≤ ch.length * ch.length :=
    Nat.mul_le_mul_right _ (by rw [part_length hj]; omega)
  omega

theorem first_shared (req : List BlockID) (h : ∃ b, b ∈ ch ∧ b.id ∈ req) :
    ∃ pre a post, req = pre ++ a.id :: post ∧ (∀ x, x ∈ pre → ∀ y, y ∈ ch → y.id ≠ x) ∧ a ∈ ch := by
  induction req with
  | nil => obtain ⟨b, _, hb⟩ := h; cases hb
  | cons x req ih =>
    by_cases hx : ∃ y, y ∈ ch ∧ y.id = x
    · obtain ⟨y, hy, rfl⟩ := hx
      exact ⟨[], y, req, rfl, by simp, hy⟩
    · obtain ⟨b, hb, hbr⟩ := h
      rcases List.mem_cons.mp hbr with h | h
      · exact absurd ⟨b, hb, h⟩ hx
      · obtain ⟨pre, a, post, h1, h2, h3⟩ := ih ⟨b, hb, h⟩
        refine ⟨x :: pre, a, post, by rw [h1]; rfl, ?_, h3⟩
        intro z hz y hy he
        rcases List.mem_cons.mp hz with rfl | hz
        · exact hx ⟨y, hy, he⟩
        · exact h2 z hz y hy he

theorem finish_asking (H : History ch) {c : Ctx} (hf : ∀ j, c.fates j = .ok) {l0 l : Loader} {m : Nat} (hS : Session lib g peer s s0 ch l0 m l)
    (hm : n + ch.length * ch.length ≤ m) (ha : l.active = true) (hs : l.obj.state = .waitingForIDs) (hsh : Shares ch l) :
    ∃ m' l', n ≤ m' ∧ Session lib g peer s s0 ch l0 m' l' ∧ l'.active = false := by
  obtain ⟨hscore, B⟩ := hS.base H
  obtain ⟨more, hout, P⟩ := B.phase
  cases P with
  | loading j h' =>
    obtain ⟨_, _, _, _, hs', _⟩ := h'
    rw [hs] at hs'; cases hs'
  | released ha' => rw [ha] at ha'; cases ha'
  | asking _ _ mm req hmm hr hst hd =>
    obtain ⟨m1, req1, b, h1, h2, h3, h4⟩ := hsh
    rw [hmm] at h1; cases h1
    cases asks_unique hr h2
    obtain ⟨pre, a, post, hreq, hpre, hach⟩ := first_shared req ⟨b, h3, h4⟩
    obtain ⟨i, hi⟩ := List.getElem?_of_mem hach
    have hil := (List.getElem?_eq_some_iff.mp hi).1
    have hfo : Follows ch req ((part ch i (ch.length - 1)).map (·.id)) :=
      ⟨pre, a, post, i, ch.length - 1, hreq, hpre, hi, by omega, by omega, fun _ => by omega, Or.inl rfl⟩
    have hne : (part ch i (ch.length - 1)).map (·.id) ≠ [] := by
      rw [part_cons (by omega) hi]; simp
    obtain ⟨l', out', e1, e2, e3, e4, e5, e6, e7⟩ := ids_case (lib := lib) H hscore (c := c) hf B.running.reachable.inv B.running.serving
      B.who B.announced B.faithful ha hs hst hd hreq hpre hi (j := ch.length - 1) (by omega) (by omega) (fun _ => by omega) (Or.inl rfl)
    have hS' : Session lib g peer s s0 ch l0 m l' :=
      .step (n := m) ⟨c, .ids peer ((part ch i (ch.length - 1)).map (·.id))⟩ hS ha (calm_ids hf hmm hr hfo) (step_fire_ids ha B.who hne e1)
    rcases e7 (by omega) with h | h
    · exact ⟨m, l', by omega, hS', h⟩
    · obtain ⟨m', l2, h1, h2, h3, _⟩ := feed_all (n := n) H hf hS' (by rw [e5, hout, List.append_assoc]) hm h
      exact ⟨m', l2, h1, h2, h3 (by omega)⟩

/-- a later request names a block of the history -/
theorem shares_later (H : History ch) {l0 l : Loader} {m : Nat} (hS : Session lib g peer s s0 ch l0 m l) (ha : l.active = true)
    (hs : l.obj.state = .waitingForIDs) (hsh : Shares ch l0) : Shares ch l := by
  obtain ⟨hscore, B⟩ := hS.base H
  obtain ⟨more, hout, P⟩ := B.phase
  cases P with
  | loading j h' =>
    obtain ⟨_, _, _, _, hs', _⟩ := h'
    rw [hs] at hs'; cases hs'
  | released ha' => rw [ha] at ha'; cases ha'
  | asking _ _ mm req hmm hr hst hd =>
    rcases hd with ⟨_, rfl⟩ | ⟨i, a, h1, _, h3, _⟩
    · rw [List.append_nil] at hout
      unfold Shares
      rw [hout]; exact hsh
    · exact ⟨mm, req, a, hmm, hr, List.mem_of_getElem? h1, List.mem_of_head? h3⟩

theorem can_finish (H : History ch) {c : Ctx} (hf : ∀ j, c.fates j = .ok) {l0 l : Loader} {m : Nat} (hsh : Shares ch l0)
    (hS : Session lib g peer s s0 ch l0 m l) (hm : n + 2 * (ch.length * ch.length) ≤ m) :
    ∃ m' l', n ≤ m' ∧ Session lib g peer s s0 ch l0 m' l' ∧ l'.active = false := by
  obtain ⟨hscore, B⟩ := hS.base H
  obtain ⟨more, hout, P⟩ := B.phase
  cases P with
  | released ha => exact ⟨m, l, by omega, hS, ha⟩
  | asking ha hs mm req hmm hr hst hd => exact finish_asking H hf hS (by omega) ha hs (shares_later H hS ha hs hsh)
  | loading j h =>
    obtain ⟨m', l', h1, h2, h3, h4⟩ := feed_all (n := n + ch.length * ch.length) H hf hS hout (by omega) h
    by_cases he : j + 1 = ch.length
    · exact ⟨m', l', by omega, h2, h3 he⟩
    · obtain ⟨ha, hs, _⟩ := h4 he
      exact finish_asking H hf h2 h1 ha hs (shares_later H h2 ha hs hsh)

/-! ### stores that are faithful -/

theorem faithful_fresh (H : History ch) {lk : Linkage} (hfr : Chains.Spec.Fresh g lk) (hg : ch[0]? = some g) (hs : ScoreOf lk.db g.id s0) :
    Faithful s0 ch lk.db := by
  obtain ⟨ga, sc, _, _, _, R⟩ := Chains.fresh_rep hfr
  refine ⟨?_, ?_⟩
  · intro a ha
    rw [hg] at ha; cases ha
    exact R.stored_iff.mpr ⟨1, by simp [Chains.numOf, Chains.genesisNode]⟩
  · intro i b r hb hr
    have hid : b.id = g.id := by
      rw [R.getBlockByID] at hr
      cases hn : Chains.numOf [Chains.genesisNode g ga sc] b.id with
      | none => rw [hn] at hr; cases hr
      | some k =>
        obtain ⟨y, hy, hyid⟩ := Chains.numOf_some hn
        have := List.mem_singleton.mp (List.mem_of_getElem? (Chains.at1_some_iff.mp hy).2)
        rw [this] at hyid
        exact Subtype.ext hyid.symm
    have := H.index hb hg hid
    subst this
    rw [hb] at hg; cases hg
    obtain ⟨r', hr', hsc⟩ := hs
    rw [hr] at hr'; cases hr'
    exact ⟨hsc, fun k a h => (by cases h)⟩

theorem faithful_exec (H : History ch) (ops : List Chains.Spec.Op) : ∀ {lk : Linkage}, Serving g (Chains.Spec.inserts ops) lk →
    Faithful s0 ch lk.db → Chains.Spec.Disciplined lk ops → (∀ g' f, Chains.Spec.Op.reopen g' f ∈ ops → g'.id = g.id) →
    GenuineOps s0 ch lk ops → Faithful s0 ch (Chains.Spec.exec lk ops).db := by
  induction ops with
  | nil => intro lk _ F _ _ _; exact F
  | cons o ops ih =>
    intro lk S F hd hr hg
    obtain ⟨hd1, hd2⟩ := hd
    obtain ⟨hg1, hg2⟩ := hg
    have hins : Chains.Spec.inserts (o :: ops) = Chains.Spec.inserts ops + Chains.Spec.inserts [o] := by
      have := Chains.inserts_append [o] ops
      rw [List.singleton_append] at this
      omega
    have S' : Serving g (Chains.Spec.inserts ops) (Chains.Spec.step lk o).1 :=
      S.step o _ (by rw [hins]; exact Nat.le_refl _) (fun g' f h => hr g' f (by rw [h]; exact List.mem_cons_self))
        (fun id a f h => by subst h; exact hd1)
    refine ih S' ?_ hd2 (fun g' f h => hr g' f (List.mem_cons_of_mem _ h)) hg2
    have other : (∀ id r, ¬ Chains.Due lk.db id r o) → Faithful s0 ch (Chains.Spec.step lk o).1.db := by
      intro hno
      refine ⟨fun a ha => ?_, fun i b r hb hr' => ?_⟩
      · have hst := F.first a ha
        obtain ⟨l1, ops1, hf, _, _, hb, he⟩ := S
        rw [he] at hst ⊢
        have := (Props.C01_blocks_permanent hf ops1 [o] (by rw [Chains.inserts_append]; omega) a.id hst).1
        rwa [Chains.exec_append] at this
      · obtain ⟨ns, hs, R, hlen⟩ := Chains.reachable_rep S.reachable
        rcases R.step_record (l := lk) hlen o hr' with h | h
        · exact F.fits i b r hb h
        · exact absurd h (hno _ _)
    cases o with
    | putBlock b a f1 f2 =>
      exact F.put H (n := Chains.Spec.inserts ops) (by rw [hins] at S; exact S) b a f1 f2 hg1
    | putMicro inv a f1 f2 =>
      exact F.micro (n := Chains.Spec.inserts ops) (by rw [hins] at S; exact S) inv a f1 f2 hg1
    | moveLeash id a f => exact other (fun _ _ h => by cases h)
    | reopen g' f => exact other (fun _ _ h => by cases h)

end Verif.Loading
