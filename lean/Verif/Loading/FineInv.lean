import Verif.Loading.FineSafe
/-
The handlers of `Loading/Fine.lean` keep the state of the loader in order, whatever the other
goroutines do between their calls.
-/

set_option autoImplicit false

namespace Verif.Loading.Fine

open Verif
open Verif.Chains (Addr BlockID ProtoBlock MicroInv Linkage Env PutBlock MoveLeash HasBlock LeashOf LeashScore LastIDs LCB
  BlockRec getBlockByID)
open Verif.Chains.Spec (Stored SameTree ScoreOf HeightOf IsWalk IsParent)
open Verif.Peers (Peer Conn Registry Lib)
open Verif.KV (Fate)

variable {lib : Lib} {g : ProtoBlock} {n : Nat} {src : Source}

/-- the state of the loader is in order -/
structure Fit (src : Source) (o : Own) (s : Shared) : Prop where
  ticking : o.active = true → o.ticking = true
  conn : o.active = true → o.obj.peer.conn ≠ none
  scored : o.active = true → Scored s.reg o.peerID
  matching : Matching o.obj.queue
  stamp : o.active = true → o.obj.timestamp = zeroTime ∨
    ∃ m, o.out.getLast? = some m ∧ m.time = o.obj.timestamp ∧ o.obj.peer.conn = some m.to
  queue : ∀ it, it ∈ o.obj.queue → ∀ b, it.received = some b → src.blocks o.peerID b
  asked : ∀ m, m ∈ o.out → ∀ req, AsksIDs m.to req m.msg → req ≠ [] ∧ req.length ≤ 100 ∧ IsWalk s.link.db req
  wanted : ∀ m, m ∈ o.out → ∀ id, m.msg = .getBlock id → ∃ a, src.ids a id

theorem Fit.later {o : Own} {s s' : Shared} (F : Fit src o s) (h : Later s s') : Fit src o s' where
  ticking := F.ticking
  conn := F.conn
  scored := fun ha => h.scored _ (F.scored ha)
  matching := F.matching
  stamp := F.stamp
  queue := F.queue
  asked := fun m hm req hr => by
    obtain ⟨h1, h2, h3⟩ := F.asked m hm req hr
    exact ⟨h1, h2, h.walk h3⟩
  wanted := F.wanted

/-- triggers can lead to one another in one direction only -/
def rank : Trigger → Nat
  | .start => 0
  | .restart => 0
  | .timeout => 0
  | .queueReady => 1
  | .ids _ => 2
  | .block _ => 2
  | .tick _ => 1

/-- what a trigger carries comes from the source -/
def Given (src : Source) (a : Addr) : Trigger → Prop
  | .ids l => ∀ id, id ∈ l → src.ids a id
  | .block b => ∀ x, b = some x → src.blocks a x
  | _ => True

/-- the result is a panic -/
def Panics (r : Own × Go Unit) : Prop := r.2 = goPanic

/-- after one trigger `t`; `ts` are the triggers that were waiting behind it -/
structure Done (src : Source) (t : Trigger) (ts : List Trigger) (r : Own × Go Unit) (s : Shared) : Prop where
  alive : r.2 ≠ goPanic
  fit : Fit src r.1 s
  next : r.1.obj.triggers = ts ∨ (r.2 = .ok () ∧ r.1.active = true ∧ ∃ t', rank t' < rank t ∧ (∀ a, Given src a t') ∧
    r.1.obj.triggers = ts ++ [t'])
  stays : t = .start ∨ t = .restart → r.1.active = true

theorem ok_alive : (Except.ok () : Go Unit) ≠ goPanic := by intro h; cases h

theorem err_alive {e : Err} : (Except.error (.err e) : Go Unit) ≠ goPanic := by intro h; cases h

/-- the handler gives up with an error -/
theorem safe_error {o : Own} {s : Shared} {t : Trigger} {e : Err} (F : Fit src o s) (ha : t = .start ∨ t = .restart → o.active = true) :
    Safe lib g src Panics (Done src t o.obj.triggers) (.ret (o, fail e)) s :=
  fun _ h _ => ⟨err_alive, F.later h, Or.inl rfl, ha⟩

/-- an id request is sent -/
theorem safe_requestFrom {o : Own} {s : Shared} (c : Ctx) (t : Trigger) (F : Fit src o s) (ha : o.active = true) (id : BlockID)
    (hst : Stored s.link.db id) : Safe lib g src Panics (Done src t o.obj.triggers) (requestFrom c o id) s := by
  refine Safe.read rfl (fun s1 h1 S1 => ?_) (fun s1 r h1 _ ⟨e, he⟩ => by rw [he]; exact safe_error (F.later h1) (fun _ => ha))
  obtain ⟨ids, hi, hne, hw, hh, k, hk, hlen⟩ := S1.store.lastIDs (h1.stored id hst)
  obtain ⟨cn, hcn⟩ := Option.ne_none_iff_exists'.mp (F.conn ha)
  show Safe lib g src Panics (Done src t o.obj.triggers) (match LastIDs s1.link.db id idsBatchSize with | .error e => _ | .ok lastIDs => _) s1
  rw [hi]
  have F1 := F.later h1
  -- the messages before and the one sent
  have key : ∀ m : Msg, AsksIDs cn ids m → Done src t o.obj.triggers
      ({ o with out := o.out ++ [⟨c.now, cn, m⟩], obj := { o.obj with timestamp := c.now } }, .ok ()) s1 := by
    intro m hm
    refine ⟨ok_alive, ⟨F1.ticking, F1.conn, F1.scored, F1.matching, fun _ => Or.inr ⟨⟨c.now, cn, m⟩, by simp, rfl, hcn⟩, F1.queue, ?_, ?_⟩, Or.inl rfl, fun _ => ha⟩
    · intro x hx req hr
      rcases List.mem_append.mp hx with hx | hx
      · exact F1.asked x hx req hr
      · rw [List.mem_singleton.mp hx] at hr
        have := asks_unique hm hr
        subst this
        exact ⟨hne, by omega, hw⟩
    · intro x hx i hxi
      rcases List.mem_append.mp hx with hx | hx
      · exact F1.wanted x hx i hxi
      · rw [List.mem_singleton.mp hx] at hxi
        simp only at hxi
        subst hxi
        exact hm.elim
  simp only [requestBlockIDs, hcn, if_neg hne]
  by_cases hv : cn.handshake.version.lt protobufVersion = true
  · rw [if_pos hv]
    intro s2 h2 _
    exact { key (.getSignatures ids) ⟨rfl, hv⟩ with fit := (key (.getSignatures ids) ⟨rfl, hv⟩).fit.later h2 }
  · rw [if_neg hv]
    have hm : AsksIDs cn ids (.getBlockIds ids) := ⟨rfl, by simpa [protobufVersion] using hv⟩
    intro s2 h2 _
    exact { key _ hm with fit := (key _ hm).fit.later h2 }

theorem safe_requestIDs {o : Own} {s : Shared} (c : Ctx) (t : Trigger) (F : Fit src o s) (ha : o.active = true) :
    Safe lib g src Panics (Done src t o.obj.triggers) (requestIDs c o) s := by
  refine Safe.read rfl (fun s1 h1 S1 => ?_) (fun s1 r h1 _ ⟨e, he⟩ => by rw [he]; exact safe_error (F.later h1) (fun _ => ha))
  obtain ⟨leash, hl, hst⟩ := S1.store.leash o.peerID
  show Safe lib g src Panics (Done src t o.obj.triggers) (match LeashOf s1.link o.peerID with | .error e => _ | .ok leash => _) s1
  rw [hl]
  exact safe_requestFrom c t (F.later h1) ha leash hst

theorem safe_requestIDsFromLCA {o : Own} {s : Shared} (c : Ctx) (t : Trigger) (F : Fit src o s) (ha : o.active = true) :
    Safe lib g src Panics (Done src t o.obj.triggers) (requestIDsFromLCA c o) s := by
  intro s1 h1 S1
  refine ⟨(fun o ho => by cases ho), ?_⟩
  have F1 := F.later h1
  have go : ∀ {r : Go BlockID}, r = goPanic ∨ (∃ e, r = fail e) ∨ (∃ id, r = .ok id ∧ Stored s1.link.db id) →
      (Cause (.lcb c.env o.peerID) r ∧ ∃ a, ((match r with | .error e => .ret (o, .error e) | .ok lca => requestFrom c o lca : Proc (Own × Go Unit))) = .ret a ∧ Panics a) ∨
      Safe lib g src Panics (Done src t o.obj.triggers)
        (match r with | .error e => .ret (o, .error e) | .ok lca => requestFrom c o lca) s1 := by
    rintro r (rfl | ⟨e, rfl⟩ | ⟨x, rfl, hst⟩)
    · exact Or.inl ⟨rfl, (o, goPanic), rfl, rfl⟩
    · exact Or.inr (safe_error F1 (fun _ => ha))
    · exact Or.inr (safe_requestFrom c t F1 ha x hst)
  rintro r s2 (⟨hr, hs2⟩ | ⟨hodd, hs2⟩) <;> subst hs2
  · subst hr
    obtain ⟨b, v, sc, hb, _⟩ := F1.scored ha
    refine go (r := LCB c.env s2.link o.peerID) ?_
    rw [hb]
    exact (S1.store.lcb c.env b).imp id Or.inr
  · exact go hodd

theorem safe_OK {o : Own} {s : Shared} (F : Fit src o s) :
    Safe lib g src Panics (Done src .queueReady o.obj.triggers) (OK o) s := by
  unfold OK
  by_cases hc : o.active = true ∧ o.obj.state = .idle
  · rw [if_pos hc]
    have stop : ∀ {s'}, Later s s' → Safe lib g src Panics (Done src .queueReady o.obj.triggers)
        (.ret ({ o with fc := reset o.fc o.peerID }, .ok ())) s' := by
      intro s' hl s2 h2 _
      have F2 := F.later (hl.trans h2)
      exact ⟨ok_alive, ⟨F2.ticking, F2.conn, F2.scored, F2.matching, F2.stamp, F2.queue, F2.asked, F2.wanted⟩, Or.inl rfl, by simp⟩
    refine Safe.read rfl (fun s1 h1 S1 => ?_) (fun s1 r h1 _ ⟨e, he⟩ => by rw [he]; exact stop h1)
    have F1 := F.later h1
    obtain ⟨ps, p, hp, hps, _⟩ := (F1.scored hc.1).announced S1.reg.inv
    show Safe lib g src Panics (Done src .queueReady o.obj.triggers)
      (match Peers.PeerOf s1.reg o.peerID with | .error .panic => _ | .error (.err _) => _ | .ok p => _) s1
    rw [hp]
    have scored : ∀ (sc : Nat) {s2}, Later s1 s2 → Safe lib g src Panics (Done src .queueReady o.obj.triggers)
        (match p.score with
          | none => .ret ({ o with fc := reset o.fc o.peerID }, goPanic)
          | some ps =>
            if (isLagging o.prevDiff ps sc).2 then
              .ret (enqueue { o with fc := reset o.fc o.peerID, prevDiff := some (isLagging o.prevDiff ps sc).1, ticking := true } .start, .ok ())
            else .ret ({ o with fc := reset o.fc o.peerID, active := false, prevDiff := none }, .ok ())) s2 := by
      intro sc s2 h2
      have F2 := F1.later h2
      simp only [hps]
      by_cases hl : (isLagging o.prevDiff ps sc).2 = true
      · rw [if_pos hl]
        intro s3 h3 _
        have F3 := F2.later h3
        exact ⟨ok_alive, ⟨fun _ => rfl, F3.conn, F3.scored, F3.matching, F3.stamp, F3.queue, F3.asked, F3.wanted⟩,
          Or.inr ⟨rfl, hc.1, .start, by decide, fun _ => trivial, rfl⟩, by simp⟩
      · rw [if_neg hl]
        intro s3 h3 _
        have F3 := F2.later h3
        exact ⟨ok_alive, ⟨(fun h => by cases h), (fun h => by cases h), (fun h => by cases h), F3.matching, (fun h => by cases h), F3.queue,
          F3.asked, F3.wanted⟩, Or.inl rfl, by simp⟩
    refine Safe.read rfl (fun s2 h2 S2 => ?_) (fun s2 r h2 _ ho => ?_)
    · obtain ⟨sc, hsc⟩ := S2.store.leashScore o.peerID
      show Safe lib g src Panics (Done src .queueReady o.obj.triggers)
        (match LeashScore s2.link o.peerID with | .error .panic => _ | .error (.err _) => _ | .ok score => _) s2
      rw [hsc]
      exact scored sc h2
    · have ho : r ≠ goPanic := ho
      rcases (r : Go Nat) with (e | _) | sc
      · exact stop (h1.trans h2)
      · exact absurd rfl ho
      · exact scored sc h2
  · rw [if_neg hc]
    intro s1 h1 _
    exact ⟨ok_alive, F.later h1, Or.inl rfl, by simp⟩

theorem safe_requestLoop (c : Ctx) (peer : Addr) (i : Nat) (ids : List BlockID) (s : Shared) (hids : ∀ id, id ∈ ids → src.ids peer id) :
    Safe lib g src (fun r => r = goPanic) (fun r _ => r ≠ goPanic ∧ ∀ l, r = .ok l → ∀ id, id ∈ l → id ∈ ids)
      (requestLoop c peer i ids) s := by
  induction ids generalizing i s with
  | nil => exact fun s1 _ _ => ⟨(fun h => by cases h), fun l h id hi => by cases h; exact hi⟩
  | cons id ids ih =>
    have tail : ∀ i s, Safe lib g src (fun r => r = goPanic) (fun r _ => r ≠ goPanic ∧ ∀ l, r = .ok l → ∀ x, x ∈ l → x ∈ id :: ids)
        (requestLoop c peer i ids) s := by
      intro i s
      refine (ih i s (fun x hx => hids x (List.mem_cons_of_mem _ hx))).mono ?_
      rintro r s' _ ⟨h1, h2⟩
      exact ⟨h1, fun l h x hx => List.mem_cons_of_mem _ (h2 l h x hx)⟩
    have stop : ∀ {e s'}, Safe lib g src (fun r : Go (List BlockID) => r = goPanic) (fun r _ => r ≠ goPanic ∧ ∀ l, r = .ok l → ∀ x, x ∈ l → x ∈ id :: ids)
        (.ret (fail e)) s' := fun _ _ _ => ⟨(fun h => by cases h), fun l h => by cases h⟩
    refine Safe.read rfl (fun s1 h1 S1 => ?_) (fun s1 r h1 _ ⟨e, he⟩ => by rw [he]; exact stop)
    show Safe lib g src _ _ (match HasBlock s1.link.db id with | .error e => _ | .ok false => _ | .ok true => _) s1
    rcases S1.store.has id with hst | hno
    · rw [show HasBlock s1.link.db id = .ok true from hst]
      refine Safe.read rfl (fun s2 h2 S2 => ?_) (fun s2 r h2 _ ⟨e, he⟩ => by rw [he]; exact stop)
      obtain ⟨leash, hl, _⟩ := S2.store.leash peer
      show Safe lib g src _ _ (match LeashOf s2.link peer with | .error e => _ | .ok leash => _) s2
      rw [hl]
      simp only
      by_cases hne : id ≠ leash
      · rw [if_pos hne]
        intro s3 h3 S3
        refine ⟨?_, ?_⟩
        · intro o ho
          cases ho
          refine ⟨hids id List.mem_cons_self, ?_⟩
          intro id' a f he
          cases he
          exact h3.stored _ (h2.stored _ hst)
        · rintro r s4 (⟨rfl, rfl⟩ | ⟨⟨e, rfl⟩, rfl⟩)
          rotate_left
          · exact Or.inr stop
          refine Or.inr ?_
          show Safe lib g src _ _ (match (MoveLeash (c.fates i) s3.link.db id peer).2 with | .error e => _ | .ok () => _) _
          rcases (move_cases S3.store (c.fates i) id peer).2 with ⟨hm, _⟩ | ⟨_, hm, _⟩
          · rw [hm]; exact tail _ _
          · rw [hm]
            exact fun _ _ _ => ⟨(fun h => by cases h), fun l h => by cases h⟩
      · rw [if_neg hne]; exact tail _ _
    · rw [hno]
      exact fun _ _ _ => ⟨(fun h => by cases h), fun l h x hx => by cases h; exact hx⟩

theorem requestBlockEach_ok (c : Ctx) {cn : Conn} (ids : List BlockID) : ∀ {o : Own}, o.obj.peer.conn = some cn →
    requestBlockEach c o ids = ({ o with out := o.out ++ ids.map (fun id => ⟨c.now, cn, .getBlock id⟩) }, .ok ()) := by
  induction ids with
  | nil => intro o _; simp [requestBlockEach]
  | cons id ids ih =>
    intro o hc
    rw [requestBlockEach, hc]
    simp only
    rw [ih (by exact hc)]
    simp

theorem safe_requestBlocks {o : Own} {s : Shared} (c : Ctx) (ids : List BlockID) (F : Fit src o s) (ha : o.active = true)
    (hids : ∀ id, id ∈ ids → src.ids o.peerID id) :
    Safe lib g src Panics (Done src (.ids ids) o.obj.triggers) (requestBlocks c o ids) s := by
  refine (safe_requestLoop c o.peerID 0 ids s hids).bind ?_ ?_
  · rintro r s1 h1 S1 ⟨halive, hsub⟩
    have F1 := F.later h1
    cases r with
    | error e =>
      intro s2 h2 _
      refine ⟨?_, F1.later h2, Or.inl rfl, by simp⟩
      cases e with
      | panic => exact absurd rfl halive
      | err e => exact err_alive
    | ok req =>
      cases req with
      | nil =>
        intro s2 h2 _
        have F2 := F1.later h2
        exact ⟨ok_alive, ⟨F2.ticking, F2.conn, F2.scored, F2.matching, F2.stamp, F2.queue, F2.asked, F2.wanted⟩,
          Or.inr ⟨rfl, ha, .queueReady, (by simp [rank]), fun _ => trivial, rfl⟩, by simp⟩
      | cons id req =>
        obtain ⟨cn, hcn⟩ := Option.ne_none_iff_exists'.mp (F.conn ha)
        simp only
        rw [requestBlockEach_ok c (id :: req) (by exact hcn)]
        intro s2 h2 _
        have F2 := F1.later h2
        have hne : (id :: req).map (fun id => (⟨c.now, cn, .getBlock id⟩ : Sent)) ≠ [] := by simp
        refine ⟨ok_alive, ⟨F2.ticking, F2.conn, F2.scored, Matching.newQueue _, fun _ => Or.inr ?_, ?_, ?_, ?_⟩, Or.inl rfl, by simp⟩
        · refine ⟨⟨c.now, cn, .getBlock ((id :: req).getLast (by simp))⟩, ?_, rfl, hcn⟩
          show (o.out ++ (id :: req).map (fun id => (⟨c.now, cn, .getBlock id⟩ : Sent))).getLast? = _
          rw [List.getLast?_append, List.getLast?_map, List.getLast?_eq_some_getLast (by simp : id :: req ≠ [])]
          rfl
        · intro it hit b hb
          obtain ⟨x, _, rfl⟩ := List.mem_map.mp hit
          cases hb
        · intro m hm rq hr
          rcases List.mem_append.mp hm with hm | hm
          · exact F2.asked m hm rq hr
          · obtain ⟨x, _, rfl⟩ := List.mem_map.mp hm
            exact hr.elim
        · intro m hm x hx
          rcases List.mem_append.mp hm with hm | hm
          · exact F2.wanted m hm x hx
          · obtain ⟨y, hy, rfl⟩ := List.mem_map.mp hm
            cases hx
            exact ⟨_, hids _ (hsub _ rfl _ hy)⟩
  · intro r hr
    cases hr
    exact ⟨_, rfl, rfl⟩

theorem put_cause {s : Shared} (S : Sound lib g n s) (b : ProtoBlock) (a : Addr) (f1 f2 : Fate)
    (h : (PutBlock f1 f2 s.link.db b a).2 = goPanic) : 2 ^ 63 ≤ b.baseTarget.toNat :=
  Nat.le_of_not_lt (fun hlt => (Props.C27_partial S.store.reachable b a f1 f2).1 hlt h)

theorem safe_applyAll (c : Ctx) (peer : Addr) (i : Nat) (q : List Item) (s : Shared)
    (hq : ∀ it, it ∈ q → ∀ b, it.received = some b → src.blocks peer b) (hf : ∀ it, it ∈ q → it.received ≠ none) :
    Safe lib g src (fun r => r = goPanic) (fun r _ => r ≠ goPanic) (applyAll c peer i q) s := by
  induction q generalizing i s with
  | nil => exact fun _ _ _ => ok_alive
  | cons it q ih =>
    unfold applyAll
    cases hr : it.received with
    | none => exact absurd hr (hf it List.mem_cons_self)
    | some b =>
      intro s1 h1 S1
      refine ⟨?_, ?_⟩
      · intro o ho
        cases ho
        exact ⟨hq it List.mem_cons_self b hr, fun _ _ _ he => by cases he⟩
      · rintro r s2 (⟨rfl, rfl⟩ | ⟨⟨e, rfl⟩, rfl⟩)
        rotate_left
        · exact Or.inr (fun _ _ _ => err_alive)
        cases hp : (PutBlock (c.fates (2 * i)) (c.fates (2 * i + 1)) s1.link.db b peer).2 with
        | error e =>
          have hr : Call.res lib s1 (.putBlock (c.fates (2 * i)) (c.fates (2 * i + 1)) b peer) = .error e := hp
          rw [hr]
          cases e with
          | panic => exact Or.inl ⟨put_cause S1 b peer _ _ hp, _, rfl, rfl⟩
          | err e => exact Or.inr (fun _ _ _ => err_alive)
        | ok u =>
          have hr : Call.res lib s1 (.putBlock (c.fates (2 * i)) (c.fates (2 * i + 1)) b peer) = .ok u := hp
          rw [hr]
          exact Or.inr (ih _ _ (fun x hx => hq x (List.mem_cons_of_mem _ hx)) (fun x hx => hf x (List.mem_cons_of_mem _ hx)))

theorem safe_applyPrefix (c : Ctx) (peer : Addr) (i : Nat) (q : List Item) (s : Shared)
    (hq : ∀ it, it ∈ q → ∀ b, it.received = some b → src.blocks peer b) :
    Safe lib g src (fun r => r = goPanic) (fun r _ => r ≠ goPanic) (applyPrefix c peer i q) s := by
  induction q generalizing i s with
  | nil => exact fun _ _ _ => ok_alive
  | cons it q ih =>
    unfold applyPrefix
    cases hr : it.received with
    | none => exact fun _ _ _ => ok_alive
    | some b =>
      simp only
      by_cases he : b.id = it.requested
      · rw [if_pos he]
        intro s1 h1 S1
        refine ⟨?_, ?_⟩
        · intro o ho
          cases ho
          exact ⟨hq it List.mem_cons_self b hr, fun _ _ _ he => by cases he⟩
        · rintro r s2 (⟨rfl, rfl⟩ | ⟨⟨e, rfl⟩, rfl⟩)
          rotate_left
          · exact Or.inr (fun _ _ _ => err_alive)
          cases hp : (PutBlock (c.fates (2 * i)) (c.fates (2 * i + 1)) s1.link.db b peer).2 with
          | error e =>
            have hr : Call.res lib s1 (.putBlock (c.fates (2 * i)) (c.fates (2 * i + 1)) b peer) = .error e := hp
            rw [hr]
            cases e with
            | panic => exact Or.inl ⟨put_cause S1 b peer _ _ hp, _, rfl, rfl⟩
            | err e => exact Or.inr (fun _ _ _ => err_alive)
          | ok u =>
            have hr : Call.res lib s1 (.putBlock (c.fates (2 * i)) (c.fates (2 * i + 1)) b peer) = .ok u := hp
            rw [hr]
            exact Or.inr (ih _ _ (fun x hx => hq x (List.mem_cons_of_mem _ hx)))
      · rw [if_neg he]; exact fun _ _ _ => ok_alive

theorem queue_putOpt {a : Addr} {q : List Item} (h : ∀ it, it ∈ q → ∀ b, it.received = some b → src.blocks a b) (b : Option ProtoBlock)
    (hb : ∀ x, b = some x → src.blocks a x) : ∀ it, it ∈ putOpt q b → ∀ x, it.received = some x → src.blocks a x := by
  intro it hit x hx
  rcases putOpt_received hit hx with h' | ⟨it', h1, h2⟩
  · exact hb x h'
  · exact h it' h1 x h2

theorem safe_appendBlock {o : Own} {s : Shared} (c : Ctx) (b : Option ProtoBlock) (F : Fit src o s) (ha : o.active = true)
    (hb : ∀ x, b = some x → src.blocks o.peerID x) :
    Safe lib g src Panics (Done src (.block b) o.obj.triggers) (appendBlock c o b) s := by
  have hq := queue_putOpt F.queue b hb
  have key : ∀ {s2}, Later s s2 → Fit src { o with obj := { o.obj with queue := putOpt o.obj.queue b } } s2 := by
    intro s2 h2
    have F2 := F.later h2
    exact ⟨F2.ticking, F2.conn, F2.scored, F2.matching.putOpt b, F2.stamp, hq, F2.asked, F2.wanted⟩
  unfold appendBlock
  by_cases hr : ready (putOpt o.obj.queue b) = true
  · simp only [hr, if_true]
    have hf : ∀ it, it ∈ putOpt o.obj.queue b → it.received ≠ none := by
      intro it hit he
      have := List.all_eq_true.mp hr it hit
      unfold Item.filled at this
      rw [he] at this
      cases this
    refine (safe_applyAll c o.peerID 0 (putOpt o.obj.queue b) s hq hf).bind ?_ ?_
    · intro r s1 h1 S1 halive
      cases r with
      | error e =>
        intro s2 h2 _
        refine ⟨?_, key (h1.trans h2), Or.inl rfl, by simp⟩
        cases e with
        | panic => exact absurd rfl halive
        | err e => exact err_alive
      | ok u =>
        intro s2 h2 _
        have F2 := key (h1.trans h2)
        exact ⟨ok_alive, ⟨F2.ticking, F2.conn, F2.scored, F2.matching, F2.stamp, F2.queue, F2.asked, F2.wanted⟩,
          Or.inr ⟨rfl, ha, .queueReady, (by simp [rank]), fun _ => trivial, rfl⟩, by simp⟩
    · intro r hr
      cases hr
      exact ⟨_, rfl, rfl⟩
  · simp only [hr]
    intro s2 h2 _
    exact ⟨ok_alive, key h2, Or.inl rfl, by simp⟩

theorem safe_handleFailure {o : Own} {s : Shared} (c : Ctx) (F : Fit src o s) :
    Safe lib g src Panics (Done src .timeout o.obj.triggers) (handleFailure c o) s := by
  refine (safe_applyPrefix c o.peerID 0 o.obj.queue s F.queue).bind ?_ ?_
  · intro r s1 h1 S1 halive
    cases r with
    | error e =>
      intro s2 h2 _
      refine ⟨?_, F.later (h1.trans h2), Or.inl rfl, by simp⟩
      cases e with
      | panic => exact absurd rfl halive
      | err e => exact err_alive
    | ok u =>
      intro s2 h2 _
      have F2 := F.later (h1.trans h2)
      unfold Fail
      split
      · exact ⟨ok_alive, ⟨(fun h => by cases h), (fun h => by cases h), (fun h => by cases h), F2.matching, (fun h => by cases h),
          F2.queue, F2.asked, F2.wanted⟩, Or.inl rfl, by simp⟩
      · exact ⟨ok_alive, F2, Or.inl rfl, by simp⟩
  · intro r hr
    cases hr
    exact ⟨_, rfl, rfl⟩

theorem Fit.goto {o : Own} {s : Shared} (F : Fit src o s) (st : State) : Fit src { o with obj := { o.obj with state := st } } s :=
  ⟨F.ticking, F.conn, F.scored, F.matching, F.stamp, F.queue, F.asked, F.wanted⟩

theorem safe_execute {o : Own} {s : Shared} (c : Ctx) (t : Trigger) (F : Fit src o s) (ha : o.active = true)
    (ht : Given src o.peerID t) : Safe lib g src Panics (Done src t o.obj.triggers) (execute c o t) s := by
  have none : ∀ {r : Go Unit}, r ≠ goPanic → Safe lib g src Panics (Done src t o.obj.triggers) (.ret (o, r)) s :=
    fun hr s1 h1 _ => ⟨hr, F.later h1, Or.inl rfl, fun _ => ha⟩
  have stay : ∀ st {r : Go Unit}, r ≠ goPanic →
      Safe lib g src Panics (Done src t o.obj.triggers) (.ret ({ o with obj := { o.obj with state := st } }, r)) s :=
    fun st r hr s1 h1 _ => ⟨hr, (F.later h1).goto st, Or.inl rfl, fun _ => ha⟩
  have tick : ∀ tm, t = .tick tm → Safe lib g src Panics (Done src t o.obj.triggers) (.ret (onTick o tm)) s := by
    rintro tm rfl
    unfold onTick
    by_cases h : tm - o.obj.timestamp > timeoutDuration
    · rw [if_pos h]
      intro s1 h1 _
      have F1 := F.later h1
      exact ⟨ok_alive, ⟨F1.ticking, F1.conn, F1.scored, F1.matching, F1.stamp, F1.queue, F1.asked, F1.wanted⟩,
        Or.inr ⟨rfl, ha, .timeout, (by simp [rank]), fun _ => trivial, rfl⟩, by simp⟩
    · rw [if_neg h]; exact none ok_alive
  unfold execute
  cases hst : o.obj.state with
  | idle =>
    cases t with
    | start => exact safe_requestIDs c .start (F.goto .waitingForIDs) ha
    | restart => exact safe_requestIDsFromLCA c .restart (F.goto .waitingForIDs) ha
    | _ => exact none ok_alive
  | waitingForIDs =>
    cases t with
    | ids l => exact safe_requestBlocks c l (F.goto .waitingForBlocks) ha ht
    | tick tm => exact tick tm rfl
    | timeout => exact safe_handleFailure c (F.goto .done)
    | _ => exact none ok_alive
  | waitingForBlocks =>
    cases t with
    | block b => exact safe_appendBlock c b F ha ht
    | tick tm => exact tick tm rfl
    | timeout => exact safe_handleFailure c (F.goto .done)
    | queueReady => exact safe_OK (F.goto .idle)
    | _ => exact none ok_alive
  | done =>
    cases t with
    | queueReady => exact none err_alive
    | _ => exact none ok_alive

/-- after a `Fire` -/
structure Fired (src : Source) (t : Trigger) (r : Own × Go Unit) (s : Shared) : Prop where
  alive : r.2 ≠ goPanic
  fit : Fit src r.1 s
  quiet : r.1.obj.triggers = []
  stays : t = .start ∨ t = .restart → r.1.active = true

theorem safe_drain (c : Ctx) (t : Trigger) (n : Nat) (hn : rank t < n) : ∀ {o : Own} {s : Shared}, Fit src o s → o.active = true →
    o.obj.triggers = [t] → Given src o.peerID t → Safe lib g src Panics (Fired src t) (drain c n o) s := by
  induction n generalizing t with
  | zero => omega
  | succ n ih =>
    intro o s F ha hts ht
    rw [drain, hts]
    refine (safe_execute c t (o := { o with obj := { o.obj with triggers := [] } })
      ⟨F.ticking, F.conn, F.scored, F.matching, F.stamp, F.queue, F.asked, F.wanted⟩ ha ht).bind ?_ ?_
    · intro r s1 h1 S1 D
      unfold andThen
      cases hr : r.2 with
      | error e =>
        rcases D.next with h | ⟨h, _⟩
        · intro s2 h2 _
          exact ⟨by rw [← hr]; exact D.alive, D.fit.later h2, h, D.stays⟩
        · rw [h] at hr; cases hr
      | ok u =>
        rcases D.next with h | ⟨_, hact, t', hlt, hg, h⟩
        · have hd : drain c n r.1 = .ret (r.1, .ok ()) := by
            cases n with
            | zero => rfl
            | succ n => rw [drain, h]
          simp only [hd]
          intro s2 h2 _
          exact ⟨ok_alive, D.fit.later h2, h, D.stays⟩
        · refine (ih t' (by omega) D.fit hact h (hg _)).mono ?_
          intro a s2 _ X
          refine ⟨X.alive, X.fit, X.quiet, ?_⟩
          rintro (rfl | rfl) <;> cases hlt
    · intro r hr
      refine ⟨(r.1, goPanic), ?_, rfl⟩
      have h : r.2 = goPanic := hr
      unfold andThen
      rw [h]; rfl

theorem rank_lt (t : Trigger) : rank t < 3 := by cases t <;> simp [rank]

theorem safe_fire (c : Ctx) (t : Trigger) {o : Own} {s : Shared} (F : Fit src o s) (ha : o.active = true) (hq : o.obj.triggers = [])
    (ht : Given src o.peerID t) : Safe lib g src Panics (Fired src t) (fire c o t) s := by
  refine safe_drain c t 3 (rank_lt t) (o := enqueue o t)
    ⟨F.ticking, F.conn, F.scored, F.matching, F.stamp, F.queue, F.asked, F.wanted⟩ ha ?_ ht
  show o.obj.triggers ++ [t] = [t]
  rw [hq]; rfl

/-- at the end of a handler -/
def Rest (src : Source) (r : Go Own) (s : Shared) : Prop := ∃ o, r = .ok o ∧ Fit src o s ∧ o.obj.triggers = []

/-- the handler panicked -/
def Dies (r : Go Own) : Prop := r = goPanic

theorem logged_panics {r : Own × Go Unit} (h : Panics r) : logged r = goPanic := by
  have h : r.2 = goPanic := h
  unfold logged; rw [h]; rfl

theorem logged_alive {r : Own × Go Unit} (h : r.2 ≠ goPanic) : logged r = .ok r.1 := by
  unfold logged
  cases hr : r.2 with
  | ok u => rfl
  | error e =>
    cases e with
    | panic => exact absurd hr h
    | err e => rfl

theorem safe_logged (c : Ctx) (t : Trigger) {o : Own} {s : Shared} (F : Fit src o s) (ha : o.active = true) (hq : o.obj.triggers = [])
    (ht : Given src o.peerID t) : Safe lib g src Dies
      (fun r s => ∃ o', r = .ok o' ∧ Fit src o' s ∧ o'.obj.triggers = [] ∧ (t = .start ∨ t = .restart → o'.active = true))
      ((fire c o t).bind (fun r => .ret (logged r))) s := by
  refine (safe_fire c t F ha hq ht).bind ?_ ?_
  · intro r s1 h1 _ D s2 h2 _
    exact ⟨r.1, logged_alive D.alive, D.fit.later h2, D.quiet, D.stays⟩
  · intro r hr
    exact ⟨_, rfl, logged_panics hr⟩

theorem safe_rest (c : Ctx) (t : Trigger) {o : Own} {s : Shared} (F : Fit src o s) (ha : o.active = true) (hq : o.obj.triggers = [])
    (ht : Given src o.peerID t) : Safe lib g src Dies (Rest src) ((fire c o t).bind (fun r => .ret (logged r))) s :=
  (safe_logged c t F ha hq ht).mono (fun _ _ _ ⟨o', h1, h2, h3, _⟩ => ⟨o', h1, h2, h3⟩)

theorem safe_continueSync (c : Ctx) {o : Own} {s : Shared} (F : Fit src o s) (ha : o.active = true) (hq : o.obj.triggers = []) :
    Safe lib g src Dies (Rest src) (continueSync c o) s := by
  unfold continueSync
  rw [if_pos ha]
  exact safe_rest c .start (o := { o with ticking := true })
    ⟨fun _ => rfl, F.conn, F.scored, F.matching, F.stamp, F.queue, F.asked, F.wanted⟩ ha hq trivial

theorem safe_lagLoop (ps : List Peer) (s : Shared) :
    Safe lib g src (fun _ : List Peer => False) (fun l _ => ∀ p, p ∈ l → p ∈ ps ∧ p.score ≠ none) (lagLoop ps) s := by
  induction ps generalizing s with
  | nil => exact fun _ _ _ p hp => by cases hp
  | cons p ps ih =>
    have tail : ∀ s, Safe lib g src (fun _ : List Peer => False) (fun l _ => ∀ x, x ∈ l → x ∈ p :: ps ∧ x.score ≠ none) (lagLoop ps) s :=
      fun s => (ih s).mono (fun l _ _ h x hx => ⟨List.mem_cons_of_mem _ (h x hx).1, (h x hx).2⟩)
    rw [lagLoop]
    cases hs : p.score with
    | none => exact tail s
    | some sc =>
      have known : ∀ (score : Nat) s1, Safe lib g src (fun _ : List Peer => False) (fun l _ => ∀ x, x ∈ l → x ∈ p :: ps ∧ x.score ≠ none)
          ((lagLoop ps).bind (fun rest => .ret (if sc > score then p :: rest else rest))) s1 := by
        intro score s1
        refine (ih s1).bind ?_ (fun _ h => h.elim)
        intro l s2 _ _ hl s3 _ _ x hx
        by_cases hgt : sc > score
        · rw [if_pos hgt] at hx
          rcases List.mem_cons.mp hx with rfl | hx
          · exact ⟨List.mem_cons_self, by rw [hs]; simp⟩
          · exact ⟨List.mem_cons_of_mem _ (hl x hx).1, (hl x hx).2⟩
        · rw [if_neg hgt] at hx
          exact ⟨List.mem_cons_of_mem _ (hl x hx).1, (hl x hx).2⟩
      refine Safe.read rfl (fun s1 h1 S1 => ?_) (fun s1 r h1 _ _ => ?_)
      · obtain ⟨score, hl⟩ := S1.store.leashScore p.addr
        have hr : Call.res lib s1 (.leashScore p.addr) = .ok score := hl
        rw [hr]
        exact known score s1
      · rcases (r : Go Nat) with e | score
        · exact tail s1
        · exact known score s1

theorem connections_alive {r : Registry} (I : Peers.Inv r) {env : Env} : Peers.Connections lib env r ≠ goPanic := by
  intro h
  unfold Peers.Connections at h
  have hsub : ∀ x, x ∈ env.mapOrder r.connections → x ∈ r.connections := fun x hx => (env.mapOrder_perm _).mem_iff.mp hx
  by_cases hc : Peers.Covered r
  · obtain ⟨ps, h1, _⟩ := Peers.connectionsLoop_ok I _ hsub hc
    rw [h1] at h; cases h
  · have hne : ∃ b c, (Addr.v4 b, c) ∈ env.mapOrder r.connections ∧ Peers.view r.db b = none := by
      refine Classical.byContradiction (fun hn => hc ?_)
      intro b c hb hv
      exact hn ⟨b, c, (env.mapOrder_perm _).mem_iff.mpr hb, hv⟩
    rw [Peers.connectionsLoop_fails I _ hsub hne] at h
    cases h

theorem safe_sync (c : Ctx) {o : Own} {s : Shared} (F : Fit src o s) (hq : o.obj.triggers = []) :
    Safe lib g src Dies (Rest src) (sync c o) s := by
  unfold sync
  by_cases ha : o.active = true
  · rw [if_pos ha]
    exact fun s1 h1 _ => ⟨o, rfl, F.later h1, hq⟩
  · rw [if_neg ha]
    have idle : ∀ {s'}, Later s s' → Safe lib g src Dies (Rest src) (.ret (.ok o)) s' :=
      fun hl s1 h1 _ => ⟨o, rfl, F.later (hl.trans h1), hq⟩
    refine Safe.read rfl (fun s1 h1 S1 => ?_) (fun s1 r h1 _ ⟨e, he⟩ => by rw [he]; exact idle h1)
    cases hc : Peers.Connections lib c.env s1.reg with
    | error e =>
      have hr : Call.res lib s1 (.connections c.env) = .error e := hc
      rw [hr]
      cases e with
      | panic => exact absurd hc (connections_alive S1.reg.inv)
      | err e => exact idle h1
    | ok ps =>
      have hr : Call.res lib s1 (.connections c.env) = .ok ps := hc
      rw [hr]
      refine (safe_lagLoop ps s1).bind ?_ (fun _ h => h.elim)
      intro lag s2 h2 S2 hlag
      by_cases hn : lag = []
      · simp only [if_pos hn]; exact idle (h1.trans h2)
      · simp only [if_neg hn]
        obtain ⟨p, hp, hi⟩ := goIndex_mod lag (c.rand lag.length) hn
        simp only [hi]
        obtain ⟨hmem, hsc⟩ := hlag p hp
        obtain ⟨b, v, cn, hpe, hv, _⟩ := connections_mem S1.reg.inv hc p hmem
        have hs1 : Scored s1.reg p.addr := by
          obtain ⟨sc, hsc⟩ := Option.ne_none_iff_exists'.mp hsc
          subst hpe
          exact ⟨b, v, sc, rfl, hv, hsc⟩
        have hcn : p.conn ≠ none := by subst hpe; simp
        have F2 := F.later (h1.trans h2)
        have Fnew : ∀ (tk : Bool) (fc : FailureCounter), tk = true ∨ tk = o.ticking →
            Fit src { o with active := true, obj := newPeerLoader p, ticking := true, fc := fc } s2 := fun _ fc _ =>
          ⟨fun _ => rfl, fun _ => hcn, fun _ => h2.scored _ hs1, (fun _ h => by cases h), fun _ => Or.inl rfl, (fun _ h => by cases h),
            F2.asked, F2.wanted⟩
        by_cases hth : count o.fc p.addr ≥ restartThreshold
        · rw [if_pos hth]
          refine (safe_logged c .restart (Fnew true _ (Or.inl rfl)) rfl rfl trivial).bind ?_ ?_
          · rintro r s3 h3 S3 ⟨o', rfl, F', hq', ha'⟩
            exact safe_continueSync c F' (ha' (Or.inr rfl)) hq'
          · intro r hr
            cases hr
            exact ⟨_, rfl, rfl⟩
        · rw [if_neg hth]
          unfold continueSync
          rw [if_pos rfl]
          exact safe_rest c .start (Fnew true _ (Or.inl rfl)) rfl rfl trivial

/-- what the input carries comes from the source -/
def Input.From (src : Source) : Input → Prop
  | .ids a l => ∀ id, id ∈ l → src.ids a id
  | .block a b => ∀ x, b = some x → src.blocks a x
  | _ => True

theorem safe_handle (c : Ctx) (i : Input) {o : Own} {s : Shared} (F : Fit src o s) (hq : o.obj.triggers = []) (hi : i.From src) :
    Safe lib g src Dies (Rest src) (handle c o i) s := by
  have idle : Safe lib g src Dies (Rest src) (.ret (.ok o)) s := fun s1 h1 _ => ⟨o, rfl, F.later h1, hq⟩
  cases i with
  | timer => exact safe_sync c F hq
  | tick =>
    show Safe lib g src Dies (Rest src) (tick c o) s
    unfold tick
    by_cases ha : o.active = true
    · rw [if_pos ha]; exact safe_rest c _ F ha hq trivial
    · rw [if_neg ha]; exact idle
  | ids a l =>
    show Safe lib g src Dies (Rest src) (handleIDs c o a l) s
    unfold handleIDs
    split
    · exact idle
    · rename_i ha
      split
      · exact idle
      · split
        · exact idle
        · rename_i hp
          have hp : a = o.peerID := Decidable.of_not_not hp
          subst hp
          exact safe_rest c _ F (by simpa using ha) hq hi
  | block a b =>
    show Safe lib g src Dies (Rest src) (handleBlock c o a b) s
    unfold handleBlock
    split
    · exact idle
    · rename_i ha
      split
      · exact idle
      · rename_i hp
        have hp : a = o.peerID := Decidable.of_not_not hp
        subst hp
        exact safe_rest c _ F (by simpa using ha) hq hi

end Verif.Loading.Fine
