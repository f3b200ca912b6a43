import Verif.Loading.Frugal
import Verif.Loading.HonestSteps
/-
Lemmas for property C131: what is requested from an honest peer.
-/

set_option autoImplicit false

namespace Verif.Loading

open Verif
open Verif.Chains (Addr BlockID ProtoBlock MicroInv Linkage LeashOf BlockRec getBlockByID PutBlock)
open Verif.Chains.Spec (Stored SameTree ScoreOf blockScore IsWalk)
open Verif.Peers (Registry Lib Conn second)
open Verif.KV (Fate)

variable {lib : Lib} {g : ProtoBlock} {n : Nat} {s s0 : Nat} {ch : List ProtoBlock} {peer : Addr}

theorem wanted_append (a b : List Sent) : wanted (a ++ b) = wanted a ++ wanted b := List.filterMap_append

theorem wanted_blocks (t : Int) (cn : Conn) (ids : List BlockID) :
    wanted (ids.map (fun id => (⟨t, cn, .getBlock id⟩ : Sent))) = ids := by
  induction ids with
  | nil => rfl
  | cons x ids ih => simp only [List.map_cons, wanted, List.filterMap_cons, wants]; congr 1

theorem wanted_one {t : Int} {cn : Conn} {ids : List BlockID} {m : Msg} (h : AsksIDs cn ids m) : wanted [⟨t, cn, m⟩] = [] := by
  cases m with
  | getBlock id => cases h
  | _ => rfl

/-- where the requests have come to -/
structure Frugal (ch : List ProtoBlock) (l0 l : Loader) (more : List Sent) (t : Nat) : Prop where
  kept : ∀ id, Stored l0.link.db id → Stored l.link.db id
  order : (wanted more).Sublist ((ch.take (t + 1)).map (·.id))
  fresh : ∀ x, x ∈ wanted more → ¬ Stored l0.link.db x
  place : wanted more = [] ∨ (∃ b, ch[t]? = some b ∧ Stored l.link.db b.id) ∨
    (l.obj.state = .waitingForBlocks ∧ l.active = true ∧ ∃ b it, ch[t]? = some b ∧ l.obj.queue.getLast? = some it ∧ it.requested = b.id)

/-- nothing is requested, and no block is lost -/
theorem Frugal.quiet {l0 l l' : Loader} {more : List Sent} {t : Nat} (h : Frugal ch l0 l more t) {out : List Sent} (hw : wanted out = [])
    (hk : ∀ id, Stored l.link.db id → Stored l'.link.db id)
    (hp : (l.obj.state = .waitingForBlocks → l.active = true → ∀ b it, ch[t]? = some b → l.obj.queue.getLast? = some it → it.requested = b.id →
      Stored l'.link.db b.id ∨ (l'.obj.state = .waitingForBlocks ∧ l'.active = true ∧
        ∃ it', l'.obj.queue.getLast? = some it' ∧ it'.requested = b.id))) : Frugal ch l0 l' (more ++ out) t := by
  have e : wanted (more ++ out) = wanted more := by rw [wanted_append, hw, List.append_nil]
  refine ⟨fun id hi => hk id (h.kept id hi), e ▸ h.order, e ▸ h.fresh, ?_⟩
  rw [e]
  rcases h.place with h1 | ⟨b, h1, h2⟩ | ⟨h1, h2, b, it, h3, h4, h5⟩
  · exact Or.inl h1
  · exact Or.inr (Or.inl ⟨b, h1, hk _ h2⟩)
  · rcases hp h1 h2 b it h3 h4 h5 with h6 | ⟨h6, h7, it', h8, h9⟩
    · exact Or.inr (Or.inl ⟨b, h3, h6⟩)
    · exact Or.inr (Or.inr ⟨h6, h7, b, it', h3, h8, h9⟩)

theorem succeed_quiet (c : Ctx) (l : Loader) (I : Inv lib l) (ha : l.active = true) (S : Serving g n l.link) :
    ∃ l' out, succeed c l = (l', .ok ()) ∧ l'.link = l.link ∧ l'.out = l.out ++ out ∧ wanted out = [] := by
  obtain ⟨l', s, leash, score, e1, e2, _, _, _, _, _, e8, e9⟩ := succeed_serving c l I ha S
  by_cases h : s > score ∧ l.prevDiff ≠ some ((s : Int) - score)
  · obtain ⟨ids, cn, m, _, _, hask, hout⟩ := (e8 h).sent
    exact ⟨l', _, e1, e2, hout, wanted_one hask⟩
  · exact ⟨l', [], e1, e2, by rw [(e9 h).sent, List.append_nil], rfl⟩

theorem take_part {k j : Nat} (h : k ≤ j) : ch.take (k + 1) ++ part ch (k + 1) j = ch.take (j + 1) := by
  unfold part
  have : ch.take (k + 1) = (ch.take (j + 1)).take (k + 1) := by rw [List.take_take]; congr 1; omega
  rw [this, List.take_append_drop]

/-- a list of ids of the honest peer -/
theorem frugal_ids {c : Ctx} (hf : ∀ j, c.fates j = .ok) {l0 l : Loader}
    {more : List Sent} {t : Nat} (I : Inv lib l) (S : Serving g n l.link) (hwho : l.peerID = peer)
    (F : Faithful s0 ch l.link.db) (ha : l.active = true) (hs : l.obj.state = .waitingForIDs)
    {req ids : List BlockID} (hst : ∀ x, x ∈ req → Stored l.link.db x)
    {pre post : List BlockID} {a : ProtoBlock} {i j : Nat} (hreq : req = pre ++ a.id :: post)
    (hi : ch[i]? = some a) (hij : i ≤ j) (hj : j < ch.length)
    (hids : ids = (part ch i j).map (·.id) ∨ i < j ∧ ids = (part ch (i + 1) j).map (·.id)) (G : Frugal ch l0 l more t) :
    ∃ out t', (fire c l (.ids ids)).1.out = l.out ++ out ∧ Frugal ch l0 (fire c l (.ids ids)).1 (more ++ out) t' := by
  have hast : Stored l.link.db a.id := hst _ (by rw [hreq]; simp)
  obtain ⟨lk', rq, e1, S', F', T, hor⟩ := ids_loop (peer := peer) hf S F hi hast hij hj hids
  have hhead : ∀ x, rq.head? = some x → ¬ Stored l.link.db x := by
    obtain ⟨leash, hl, _⟩ := S.leash peer
    obtain ⟨_, _, _, rest, _, _, hor⟩ := requestLoop_spec c peer 0 S ids leash hl
    rw [e1] at hor
    rcases hor with ⟨hr, hno, _⟩ | ⟨_, hr, _⟩
    · cases hr; exact hno
    · cases hr
  have ho := fire_ids c l ids I.quiet hs
  generalize fire c l (.ids ids) = r at ho
  have hloop : requestLoop c (enter l .waitingForBlocks).peerID 0 (enter l .waitingForBlocks).link ids = (lk', .ok rq) := by
    rw [← e1, ← hwho]; rfl
  have hk : ∀ id, Stored l.link.db id → Stored lk'.db id := fun id h => (sameTree_stored T id).mpr h
  cases ho with
  | failed lk e h => rw [hloop] at h; cases h
  | known lk h =>
    rw [hloop] at h; cases h
    obtain ⟨l', out, e1, e2, e3, e4⟩ := succeed_quiet (lib := lib) c { enter l .waitingForBlocks with link := lk' }
      (I.enter .waitingForBlocks |>.withLink lk') ha S'
    rw [e1]
    refine ⟨out, t, e3, G.quiet e4 (fun id h => by rw [e2]; exact hk id h) ?_⟩
    intro h; rw [hs] at h; cases h
  | asked lk req' cn h hne hc =>
    rw [hloop] at h; cases h
    rcases hor with ⟨h0, _⟩ | ⟨_, k, b, hkj, _, hkb, hbst, hrq⟩
    · exact absurd h0 hne
    · refine ⟨_, j, rfl, ?_⟩
      have hk1 : k + 1 < ch.length := by omega
      have hno : ¬ Stored l.link.db ch[k + 1].id := by
        refine hhead _ ?_
        rw [hrq, part_cons (by omega) (List.getElem?_eq_getElem hk1)]; rfl
      have hnone : ∀ x, x ∈ rq → ¬ Stored l.link.db x := by
        intro x hx hsx
        rw [hrq] at hx
        obtain ⟨y, hy, rfl⟩ := List.mem_map.mp hx
        obtain ⟨i', hi1, hi2, hi3⟩ := part_mem hy
        exact hno (F.below S i' y hi3 hsx (k + 1) _ hi1 (List.getElem?_eq_getElem hk1))
      have hw : wanted (more ++ rq.map (fun id => (⟨c.now, cn, .getBlock id⟩ : Sent))) = wanted more ++ rq := by
        rw [wanted_append, wanted_blocks]
      have hold : (wanted more).Sublist ((ch.take (k + 1)).map (·.id)) := by
        rcases G.place with h1 | ⟨b', h1, h2⟩ | ⟨h1, _⟩
        · rw [h1]; exact List.nil_sublist _
        · refine G.order.trans (List.Sublist.map _ (List.take_sublist_take_left ?_))
          refine Nat.succ_le_succ (Nat.le_of_not_lt (fun hlt => ?_))
          exact hno (F.below S t b' h1 h2 (k + 1) _ hlt (List.getElem?_eq_getElem hk1))
        · rw [hs] at h1; cases h1
      refine ⟨fun id h => hk id (G.kept id h), ?_, ?_, ?_⟩
      · rw [hw, ← take_part (ch := ch) (Nat.le_of_lt hkj), List.map_append, ← hrq]
        exact List.Sublist.append hold (List.Sublist.refl _)
      · rw [hw]
        intro x hx
        rcases List.mem_append.mp hx with h | h
        · exact G.fresh x h
        · exact fun h' => hnone x h (G.kept x h')
      · refine Or.inr (Or.inr ⟨rfl, ha, ch[j], ⟨ch[j].id, none⟩, List.getElem?_eq_getElem hj, ?_, rfl⟩)
        show (newQueue rq).getLast? = _
        rw [hrq]
        unfold newQueue
        rw [List.getLast?_map, List.getLast?_map, part_last (by omega) (List.getElem?_eq_getElem hj)]
        rfl
  | panic lk req' h hne hc =>
    obtain ⟨cn, hcn⟩ := Option.ne_none_iff_exists'.mp (I.conn ha)
    have hc : l.obj.peer.conn = none := hc
    rw [hcn] at hc; cases hc

/-- a block of the honest peer -/
theorem frugal_block (H : History ch) {c : Ctx} (hf : ∀ j, c.fates j = .ok) {l0 l : Loader}
    {more : List Sent} {t : Nat} (I : Inv lib l) (S : Serving g (n + l.obj.queue.length) l.link) (hwho : l.peerID = peer)
    (ha : l.active = true) (hs : l.obj.state = .waitingForBlocks)
    {k j : Nat} {a : ProtoBlock} (hkj : k < j) (hj : j < ch.length) (hk : ch[k]? = some a) (hst : Stored l.link.db a.id)
    {arrived : List ProtoBlock} (hq : l.obj.queue = arrived.foldl put (newQueue ((part ch (k + 1) j).map (·.id))))
    (hg : ∀ x, x ∈ arrived → Genuine ch x) (b : Option ProtoBlock) (hb : ∀ x, b = some x → Genuine ch x) (G : Frugal ch l0 l more t) :
    ∃ out t', (fire c l (.block b)).1.out = l.out ++ out ∧ Frugal ch l0 (fire c l (.block b)).1 (more ++ out) t' := by
  have hq' : putOpt l.obj.queue b = (arrived ++ b.toList).foldl put (newQueue ((part ch (k + 1) j).map (·.id))) := by
    cases b with
    | none => rw [Option.toList_none, List.append_nil]; exact hq
    | some x => rw [Option.toList_some, List.foldl_append, ← hq]; rfl
  have hg' : ∀ x, x ∈ arrived ++ b.toList → Genuine ch x := by
    intro x hx
    rcases List.mem_append.mp hx with h | h
    · exact hg x h
    · cases b with
      | none => cases h
      | some y =>
        have : x = y := by simpa using h
        exact hb x (by rw [this])
  have hlen : l.obj.queue.length = (part ch (k + 1) j).length := by
    rw [hq, fold_newQueue _ (part_nodup H _ _)]; simp
  have ho := fire_block c l b I.quiet hs
  generalize fire c l (.block b) = r at ho
  have happly : ready (putOpt l.obj.queue b) = true → ∃ lk', applyAll c l.peerID 0 l.link (putOpt l.obj.queue b) = (lk', .ok ()) ∧ Serving g n lk' ∧
      Applied l.link lk' peer (part ch (k + 1) j) := by
    intro hr
    rw [hq'] at hr ⊢
    have A := arrived_all H hg' hr
    have hch := chained_part H (j - k) k (Stored l.link.db) a hk hst
    rw [show k + (j - k) = j by omega] at hch
    rw [hwho]
    exact applyAll_chained c peer 0 hf _ _ (answer_queue (part_nodup H _ _) A) (hlen ▸ S) hch
  have hlast : ∀ (it : Item) (b' : ProtoBlock), l.obj.queue.getLast? = some it → it.requested = b'.id → b'.id = ch[j].id := by
    intro it b' h1 h2
    have h3 : (l.obj.queue.map (·.requested)).getLast? = some b'.id := by rw [List.getLast?_map, h1, ← h2]; rfl
    have h4 : l.obj.queue.map (·.requested) = (part ch (k + 1) j).map (·.id) := by
      rw [hq, fold_newQueue _ (part_nodup H _ _)]; simp
    rw [h4, List.getLast?_map, part_last (by omega) (List.getElem?_eq_getElem hj)] at h3
    exact (Option.some.inj h3).symm
  cases ho with
  | waiting h =>
    refine ⟨[], t, (List.append_nil _).symm, G.quiet rfl (fun _ h => h) ?_⟩
    intro h1 h2 b' it h3 h4 h5
    refine Or.inr ⟨h1, h2, ?_⟩
    have h6 : ((putOpt l.obj.queue b).map (·.requested)).getLast? = some b'.id := by
      rw [putOpt_requested, List.getLast?_map, h4, ← h5]; rfl
    rw [List.getLast?_map] at h6
    cases h7 : (putOpt l.obj.queue b).getLast? with
    | none => rw [h7] at h6; cases h6
    | some it' => rw [h7] at h6; exact ⟨it', rfl, Option.some.inj h6⟩
  | failed h lk e he =>
    obtain ⟨lk', e1, _⟩ := happly h
    rw [e1] at he; cases he
  | complete h lk he =>
    obtain ⟨lk', e1, S', A⟩ := happly h
    rw [e1] at he
    cases he
    obtain ⟨l', out, e1, e2, e3, e4⟩ := succeed_quiet (lib := lib) c
      { l with link := lk, obj := { l.obj with queue := putOpt l.obj.queue b } } ((I.withQueue _ (I.matching.putOpt b)).withLink lk) ha S'
    rw [e1]
    refine ⟨out, t, e3, G.quiet e4 (fun id h => ?_) ?_⟩
    · rw [e2]; exact A.kept id h
    · intro _ _ b' it _ h4 h5
      refine Or.inl ?_
      rw [hlast it b' h4 h5, e2]
      exact A.stored _ (List.mem_of_getLast? (part_last (i := k + 1) (by omega) (List.getElem?_eq_getElem hj)))

theorem frugal_step (H : History ch) {l0 l l' : Loader} {e : Event} {more : List Sent} {t : Nat}
    (B : Base lib g peer s s0 ch l0 (n + cost l e) l) (ha : l.active = true) (hh : Honest peer s s0 ch l e) (h : step lib l e = .ok l')
    (G : Frugal ch l0 l more t) : ∃ out t', l'.out = l.out ++ out ∧ Frugal ch l0 l' (more ++ out) t' := by
  have I := B.running.reachable.inv
  have S := B.running.serving
  obtain ⟨more', hout, P⟩ := B.phase
  have same : l' = l → ∃ out t', l'.out = l.out ++ out ∧ Frugal ch l0 l' (more ++ out) t' := by
    intro e; subst e; exact ⟨[], t, (List.append_nil _).symm, by rw [List.append_nil]; exact G⟩
  have mono : ∀ (lk : Linkage) (r : Registry), (∀ id, Stored l.link.db id → Stored lk.db id) →
      ∃ out t', ({ l with link := lk, reg := r } : Loader).out = l.out ++ out ∧ Frugal ch l0 { l with link := lk, reg := r } (more ++ out) t' := by
    intro lk r hm
    exact ⟨[], t, (List.append_nil _).symm, G.quiet rfl hm (fun h1 h2 b it _ h4 h5 => Or.inr ⟨h1, h2, it, h4, h5⟩)⟩
  obtain ⟨c, op⟩ := e
  cases op with
  | ids p ids =>
    simp only [step, handleIDs] at h
    have S : Serving g n l.link := S
    rw [if_neg (by rw [ha]; simp)] at h
    split at h
    · cases h; exact same rfl
    · rename_i hne
      split at h
      · cases h; exact same rfl
      · rename_i hp
        have hp : p = peer := by rw [← B.who]; exact Classical.not_not.mp hp
        subst hp
        obtain ⟨rfl, _⟩ := logged_ok h
        by_cases hs : l.obj.state = .waitingForIDs
        · obtain ⟨hf, hfo⟩ := hh.ids ids rfl hs hne
          cases P with
          | asking _ _ m req hm hr hst hd =>
            obtain ⟨pre, a, post, i, j, hreq, hpre, hi, hij, hj, hgo, hids⟩ := hfo m req hm hr
            exact frugal_ids (lib := lib) (c := c) hf I S B.who B.faithful ha hs hst hreq hi hij hj hids G
          | loading j h' =>
            obtain ⟨_, _, _, _, hs', _⟩ := h'
            rw [hs] at hs'; cases hs'
          | released ha' => rw [ha] at ha'; cases ha'
        · exact same (by rw [fire_ids_other c l ids I.quiet hs])
  | block p b =>
    simp only [step, handleBlock] at h
    have S : Serving g (n + l.obj.queue.length) l.link := S
    rw [if_neg (by rw [ha]; simp)] at h
    split at h
    · cases h; exact same rfl
    · rename_i hp
      have hp : p = peer := by rw [← B.who]; exact Classical.not_not.mp hp
      subst hp
      obtain ⟨rfl, _⟩ := logged_ok h
      by_cases hs : l.obj.state = .waitingForBlocks
      · obtain ⟨hf, hb⟩ := hh.block b rfl
        cases P with
        | asking _ hs' => rw [hs] at hs'; cases hs'
        | loading j h' =>
          obtain ⟨k, a, arrived, _, _, hkj, hj, hk, hst, hq, hn, hg, hd⟩ := h'
          exact frugal_block (lib := lib) H (c := c) hf I S B.who ha hs hkj hj hk hst hq hg b hb G
        | released ha' => rw [ha] at ha'; cases ha'
      · exact same (by rw [fire_block_other c l b I.quiet hs])
  | tick =>
    simp only [step, tick] at h
    rw [if_pos ha] at h
    obtain ⟨rfl, _⟩ := logged_ok h
    have hw : Waiting l := by
      cases P with
      | asking _ hs => exact Or.inl hs
      | loading j h' => exact Or.inr h'.choose_spec.choose_spec.choose_spec.2.1
      | released ha' => rw [ha] at ha'; cases ha'
    have ht := hh.tick rfl
    refine same ?_
    rw [fire_tick c l c.now I.quiet hw, if_neg (by unfold timeoutDuration; exact Int.not_lt.mpr ht)]
  | timer =>
    simp only [step, sync] at h
    rw [if_pos ha] at h
    cases h; exact same rfl
  | putBlock b a f1 f2 =>
    obtain ⟨_, rfl⟩ := I.others h
    have S : Serving g (n + 1) l.link := S
    exact mono _ l.reg (put_kept S b a f1 f2)
  | putMicro inv a f1 f2 =>
    obtain ⟨_, rfl⟩ := I.others h
    have S : Serving g (n + 1) l.link := S
    exact mono _ l.reg (micro_kept S inv a f1 f2)
  | registry ev =>
    simp only [step] at h
    cases h
    exact mono l.link _ (fun _ h => h)

theorem Session.frugal (H : History ch) {l0 l : Loader} (h : Session lib g peer s s0 ch l0 n l) :
    ∃ more t, l.out = l0.out ++ more ∧ Frugal ch l0 l more t := by
  induction h with
  | start hr hb =>
    exact ⟨[], 0, (List.append_nil _).symm, fun _ h => h, List.nil_sublist _, fun _ h => (by cases h), Or.inl rfl⟩
  | step e h ha hh hs ih =>
    obtain ⟨more, t, e1, G⟩ := ih
    obtain ⟨out, t', e2, G'⟩ := frugal_step H (Session.base H h).2 ha hh hs G
    exact ⟨more ++ out, t', by rw [e2, e1, List.append_assoc], G'⟩

theorem Session.begun {l0 l : Loader} (h : Session lib g peer s s0 ch l0 n l) : ∃ m, Running lib g m l0 ∧ Begun peer s s0 ch l0 := by
  induction h with
  | start hr hb => exact ⟨_, hr, hb⟩
  | step e h ha hh hs ih => exact ih

/-- none of the listed things is among the first ones -/
theorem sublist_drop {α : Type} {a b : List α} (n : Nat) (h : a.Sublist b) (hn : ∀ x, x ∈ a → x ∉ b.take n) : a.Sublist (b.drop n) := by
  have h' : a.Sublist (b.take n ++ b.drop n) := by rw [List.take_append_drop]; exact h
  obtain ⟨l1, l2, rfl, h1, h2⟩ := List.sublist_append_iff.mp h'
  cases l1 with
  | nil => exact h2
  | cons x l1 => exact absurd (h1.subset (List.mem_cons_self ..)) (hn x (by simp))

theorem messages_split (out : List Sent) : out.length = requests out + (wanted out).length := by
  unfold requests wanted
  induction out with
  | nil => rfl
  | cons m out ih =>
    obtain ⟨t, cn, msg⟩ := m
    cases msg <;> simp [asksIDs, wants] at ih ⊢ <;> omega

end Verif.Loading
