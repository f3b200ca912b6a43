import Verif.Loading.Bill
import Verif.Loading.FineReads
import Verif.Loading.FrugalLemmas
/-
The messages of the loader are caused by its inputs: lemmas for property C134.
-/

set_option autoImplicit false

namespace Verif.Loading.Fine

open Verif
open Verif.Chains (Addr BlockID ProtoBlock Linkage)
open Verif.Peers (Peer Conn Registry Lib)

/-! ### what holds whatever the calls answer -/

def Every {α : Type} (Q : α → Prop) : Proc α → Prop
  | .ret a => Q a
  | .call _ k => ∀ r, Every Q (k r)

theorem Every.bind {α β : Type} {Q : α → Prop} {R : β → Prop} {f : α → Proc β} (hf : ∀ a, Q a → Every R (f a)) :
    ∀ {p : Proc α}, Every Q p → Every R (p.bind f)
  | .ret a, h => hf a h
  | .call _ k, h => fun r => Every.bind hf (p := k r) (h r)

theorem Every.mono {α : Type} {Q R : α → Prop} (hf : ∀ a, Q a → R a) : ∀ {p : Proc α}, Every Q p → Every R p
  | .ret a, h => hf a h
  | .call _ k, h => fun r => Every.mono hf (p := k r) (h r)

theorem Every.any {α : Type} : ∀ {p : Proc α}, Every (fun _ => True) p
  | .ret _ => trivial
  | .call _ k => fun r => Every.any (p := k r)

/-! ### the bill of a trigger -/

def tListed : Trigger → List BlockID
  | .ids l => l
  | _ => []

def tDue : Trigger → Nat
  | .start => 1
  | .restart => 1
  | .ids l => max 1 l.length
  | .block _ => 1
  | .queueReady => 1
  | .tick _ => 0
  | .timeout => 0

def tAsks : Trigger → Nat
  | .tick _ => 0
  | .timeout => 0
  | _ => 1

/-- what is sent and what the waiting triggers may still cause -/
structure Bill (b : List Sent) (n r : Nat) (l : List BlockID) (o : Own) : Prop where
  due : o.out.length + (o.obj.triggers.map tDue).sum ≤ n
  asks : requests o.out + (o.obj.triggers.map tAsks).sum ≤ r
  listed : (wanted o.out ++ o.obj.triggers.flatMap tListed).Sublist l
  grown : b <+: o.out

variable {b : List Sent} {n r : Nat} {l : List BlockID}

theorem requests_append (a b : List Sent) : requests (a ++ b) = requests a + requests b := by
  unfold requests; simp

theorem Bill.enqueue {o : Own} (h : Bill b n r l o) (t : Trigger) : Bill b (n + tDue t) (r + tAsks t) (l ++ tListed t) (Fine.enqueue o t) := by
  refine ⟨?_, ?_, ?_, h.grown⟩
  · have := h.due
    simp only [Fine.enqueue, List.map_append, List.sum_append, List.map_cons, List.map_nil, List.sum_cons, List.sum_nil]; omega
  · have := h.asks
    simp only [Fine.enqueue, List.map_append, List.sum_append, List.map_cons, List.map_nil, List.sum_cons, List.sum_nil]; omega
  · simp only [Fine.enqueue, List.flatMap_append, List.flatMap_cons, List.flatMap_nil, List.append_nil, ← List.append_assoc]
    exact List.Sublist.append h.listed (List.Sublist.refl _)

/-- only the messages and the triggers count -/
theorem Bill.same {o o' : Own} (h : Bill b n r l o) (h1 : o'.out = o.out) (h2 : o'.obj.triggers = o.obj.triggers) : Bill b n r l o' :=
  ⟨by rw [h1, h2]; exact h.due, by rw [h1, h2]; exact h.asks, by rw [h1, h2]; exact h.listed, by rw [h1]; exact h.grown⟩

theorem Bill.mono {o : Own} {n' r' : Nat} {l' : List BlockID} (h : Bill b n r l o) (h1 : n ≤ n') (h2 : r ≤ r') (h3 : l.Sublist l') : Bill b n' r' l' o :=
  ⟨Nat.le_trans h.due h1, Nat.le_trans h.asks h2, h.listed.trans h3, h.grown⟩

/-- what is left when the first trigger has been taken: the bill with the trigger in hand -/
structure Held (b : List Sent) (n r : Nat) (l : List BlockID) (t : Trigger) (o : Own) : Prop where
  due : o.out.length + tDue t + (o.obj.triggers.map tDue).sum ≤ n
  asks : requests o.out + tAsks t + (o.obj.triggers.map tAsks).sum ≤ r
  listed : (wanted o.out ++ tListed t ++ o.obj.triggers.flatMap tListed).Sublist l
  grown : b <+: o.out

theorem Held.drop {t : Trigger} {o : Own} (h : Held b n r l t o) : Bill b n r l o := by
  refine ⟨?_, ?_, ?_, h.grown⟩
  · have := h.due; omega
  · have := h.asks; omega
  · exact ((List.sublist_append_left _ _).append (List.Sublist.refl _)).trans h.listed

theorem Held.same {t : Trigger} {o o' : Own} (h : Held b n r l t o) (h1 : o'.out = o.out) (h2 : o'.obj.triggers = o.obj.triggers) : Held b n r l t o' :=
  ⟨by rw [h1, h2]; exact h.due, by rw [h1, h2]; exact h.asks, by rw [h1, h2]; exact h.listed, by rw [h1]; exact h.grown⟩

/-- the trigger in hand is exchanged for another one -/
theorem Held.exchange {t t' : Trigger} {o : Own} (h : Held b n r l t o) (h1 : tDue t' ≤ tDue t) (h2 : tAsks t' ≤ tAsks t) (h3 : tListed t' = []) :
    Bill b n r l (Fine.enqueue o t') := by
  have e := h.drop
  refine ⟨?_, ?_, ?_, h.grown⟩
  · have := h.due
    simp only [Fine.enqueue, List.map_append, List.sum_append, List.map_cons, List.map_nil, List.sum_cons, List.sum_nil]; omega
  · have := h.asks
    simp only [Fine.enqueue, List.map_append, List.sum_append, List.map_cons, List.map_nil, List.sum_cons, List.sum_nil]; omega
  · simp only [Fine.enqueue, List.flatMap_append, List.flatMap_cons, List.flatMap_nil, List.append_nil, h3]
    exact e.listed

theorem bill_requestBlockIDs {t : Trigger} {o : Own} (c : Ctx) (ids : List BlockID) (h : Held b n r l t o) (h1 : 1 ≤ tDue t) (h2 : 1 ≤ tAsks t) :
    Bill b n r l (requestBlockIDs c o ids).1 := by
  have e := h.drop
  have key : ∀ m : Sent, wants m.msg = none → Bill b n r l { o with out := o.out ++ [m] } := by
    intro m hm
    refine ⟨?_, ?_, ?_, e.grown.trans (List.prefix_append _ _)⟩
    · have := h.due
      simp only [List.length_append, List.length_cons, List.length_nil]; omega
    · have := h.asks
      rw [requests_append]
      have : requests [m] ≤ 1 := by unfold requests; exact Nat.le_trans (List.length_filter_le _ _) (Nat.le_refl _)
      show requests o.out + requests [m] + (o.obj.triggers.map tAsks).sum ≤ r
      omega
    · have h0 : wanted [m] = [] := by simp [wanted, hm]
      rw [wanted_append, h0, List.append_nil]
      exact e.listed
  unfold requestBlockIDs
  split
  · exact e
  · split
    · exact e
    · split
      · exact key _ rfl
      · exact key _ rfl

theorem bill_requestBlockEach (c : Ctx) : ∀ (ids : List BlockID) (o : Own), ∃ more, (requestBlockEach c o ids).1 = { o with out := o.out ++ more } ∧
    more.length ≤ ids.length ∧ requests more = 0 ∧ (wanted more).Sublist ids
  | [], o => ⟨[], by simp [requestBlockEach], Nat.le_refl _, rfl, List.Sublist.refl _⟩
  | id :: ids, o => by
    unfold requestBlockEach
    split
    · exact ⟨[], by simp, Nat.zero_le _, rfl, List.nil_sublist _⟩
    · rename_i cn hcn
      obtain ⟨more, h1, h2, h3, h4⟩ := bill_requestBlockEach c ids { o with out := o.out ++ [⟨c.now, cn, .getBlock id⟩] }
      refine ⟨⟨c.now, cn, .getBlock id⟩ :: more, ?_, Nat.succ_le_succ h2, ?_, ?_⟩
      · rw [h1]; simp
      · exact h3
      · exact h4.cons_cons id

theorem every_requestLoop (c : Ctx) (peer : Addr) : ∀ (ids : List BlockID) (i : Nat),
    Every (fun r => ∀ req, r = .ok req → req.Sublist ids) (requestLoop c peer i ids)
  | [], i => by
    intro req h
    cases h; exact List.Sublist.refl _
  | id :: ids, i => by
    have ih : Every (fun r => ∀ req, r = .ok req → req.Sublist (id :: ids)) (requestLoop c peer (i + 1) ids) :=
      (every_requestLoop c peer ids (i + 1)).mono (fun _ h req e => (h req e).cons id)
    unfold requestLoop
    intro r
    cases r with
    | error e => intro req h; cases h
    | ok b =>
      cases b with
      | false => intro req h; cases h; exact List.Sublist.refl _
      | true =>
        intro r
        cases r with
        | error e => intro req h; cases h
        | ok leash =>
          dsimp only
          split
          · intro r
            cases r with
            | error e => intro req h; cases h
            | ok _ => exact ih
          · exact ih

/-- the result of an action -/
abbrev Paid (b : List Sent) (n r : Nat) (l : List BlockID) : Proc (Own × Go Unit) → Prop := Every (fun x => Bill b n r l x.1)

theorem paid_andThen {x : Own × Go Unit} {f : Own → Proc (Own × Go Unit)} (h : Bill b n r l x.1) (hf : ∀ o, Bill b n r l o → Paid b n r l (f o)) :
    Paid b n r l (andThen x f) := by
  unfold andThen
  split
  · exact h
  · exact hf _ h

theorem paid_requestFrom {t : Trigger} {o : Own} (c : Ctx) (id : BlockID) (h : Held b n r l t o) (h1 : 1 ≤ tDue t) (h2 : 1 ≤ tAsks t) :
    Paid b n r l (requestFrom c o id) := by
  unfold requestFrom
  intro x
  cases x with
  | error e => exact h.drop
  | ok ids => exact paid_andThen (bill_requestBlockIDs c ids h h1 h2) (fun o' h' => h'.same rfl rfl)

theorem paid_requestBlocks {o : Own} (c : Ctx) (ids : List BlockID) (h : Held b n r l (.ids ids) o) : Paid b n r l (requestBlocks c o ids) := by
  unfold requestBlocks
  refine (every_requestLoop c o.peerID ids 0).bind (fun x hx => ?_)
  cases x with
  | error e => exact h.drop
  | ok req =>
    cases req with
    | nil => exact h.exchange (Nat.le_max_left _ _) (Nat.le_refl _) rfl
    | cons id req =>
      have hs := hx _ rfl
      refine paid_andThen ?_ (fun o' h' => h'.same rfl rfl)
      obtain ⟨more, e1, e2, e3, e4⟩ := bill_requestBlockEach c (id :: req) { o with obj := { o.obj with queue := newQueue (id :: req) } }
      rw [e1]
      refine ⟨?_, ?_, ?_, h.grown.trans (List.prefix_append _ _)⟩
      · have := h.due
        have h5 := hs.length_le
        have h6 : ids.length ≤ tDue (.ids ids) := Nat.le_max_right _ _
        simp only [List.length_append]
        show o.out.length + more.length + (o.obj.triggers.map tDue).sum ≤ n
        omega
      · have := h.asks
        rw [requests_append, e3]
        show requests o.out + 0 + (o.obj.triggers.map tAsks).sum ≤ r
        omega
      · rw [wanted_append]
        exact (((List.Sublist.refl _).append (e4.trans hs)).append (List.Sublist.refl _)).trans h.listed

theorem paid_OK {o : Own} (h : Held b n r l .queueReady o) : Paid b n r l (OK o) := by
  have e := h.drop
  unfold OK
  split
  · intro x
    match x with
    | .error .panic => exact e.same rfl rfl
    | .error (.err _) => exact e.same rfl rfl
    | .ok p =>
      intro x
      match x with
      | .error .panic => exact e.same rfl rfl
      | .error (.err _) => exact e.same rfl rfl
      | .ok score =>
        dsimp only
        split
        · exact e.same rfl rfl
        · split
          · exact Held.exchange (t := .queueReady) (h.same rfl rfl) (Nat.le_refl _) (Nat.le_refl _) rfl
          · exact e.same rfl rfl
  · exact e

theorem bill_Fail {o : Own} (h : Bill b n r l o) : Bill b n r l (Fail o) := by
  unfold Fail
  split
  · exact h.same rfl rfl
  · exact h

theorem paid_execute {t : Trigger} {o : Own} (c : Ctx) (h : Held b n r l t o) : Paid b n r l (execute c o t) := by
  unfold execute
  split
  · exact h.drop
  · exact h.drop
  · rename_i st hh
    have h : Held b n r l t { o with obj := { o.obj with state := st } } := h.same rfl rfl
    unfold onEntry
    split
    · exact paid_OK h
    · unfold requestIDs
      intro x
      cases x with
      | error e => exact h.drop
      | ok leash => exact paid_requestFrom c leash h (Nat.le_refl _) (Nat.le_refl _)
    · unfold requestIDsFromLCA
      intro x
      cases x with
      | error e => exact h.drop
      | ok leash => exact paid_requestFrom c leash h (Nat.le_refl _) (Nat.le_refl _)
    · exact paid_requestBlocks c _ h
    · unfold handleFailure
      refine Every.any.bind (fun x _ => ?_)
      cases x with
      | error e => exact h.drop
      | ok _ => exact bill_Fail h.drop
    · exact h.drop
  · unfold onInternal
    split
    · rename_i bk _
      unfold appendBlock
      dsimp only
      have h : Held b n r l (.block bk) { o with obj := { o.obj with queue := putOpt o.obj.queue bk } } := h.same rfl rfl
      split
      · refine Every.any.bind (fun x _ => ?_)
        cases x with
        | error e => exact h.drop
        | ok _ => exact h.exchange (Nat.le_refl _) (Nat.le_refl _) rfl
      · exact h.drop
    · unfold onTick
      split
      · exact h.exchange (Nat.le_refl _) (Nat.le_refl _) rfl
      · exact h.drop
    · exact h.drop

theorem paid_drain (c : Ctx) : ∀ (k : Nat) (o : Own), Bill b n r l o → Paid b n r l (drain c k o)
  | 0, o, h => h
  | k + 1, o, h => by
    unfold drain
    split
    · exact h
    · rename_i t ts ht
      refine Every.bind (Q := fun x => Bill b n r l x.1) (fun x hx => paid_andThen hx (fun o' h' => paid_drain c k o' h')) (paid_execute c ?_)
      refine ⟨?_, ?_, ?_, h.grown⟩
      · have := h.due
        rw [ht] at this
        simp only [List.map_cons, List.sum_cons] at this
        show o.out.length + tDue t + (ts.map tDue).sum ≤ n
        omega
      · have := h.asks
        rw [ht] at this
        simp only [List.map_cons, List.sum_cons] at this
        show requests o.out + tAsks t + (ts.map tAsks).sum ≤ r
        omega
      · have := h.listed
        rw [ht] at this
        simp only [List.flatMap_cons] at this
        rw [← List.append_assoc] at this
        exact this

theorem paid_fire {o : Own} (c : Ctx) (t : Trigger) (h : Bill b n r l o) : Paid b (n + tDue t) (r + tAsks t) (l ++ tListed t) (fire c o t) :=
  paid_drain c 3 _ (h.enqueue t)

/-! ### the inputs -/

/-- the result of a handler -/
abbrev Paying (b : List Sent) (n r : Nat) (l : List BlockID) : Proc (Go Own) → Prop := Every (fun x => ∀ o, x = .ok o → Bill b n r l o)

theorem settled_logged {p : Proc (Own × Go Unit)} (h : Paid b n r l p) : Paying b n r l (p.bind (fun x => .ret (logged x))) := by
  refine Every.bind (Q := fun x => Bill b n r l x.1) (fun x hx => ?_) h
  intro o ho
  unfold logged at ho
  split at ho
  · cases ho
  · cases ho; exact hx

theorem settled_keep {o : Own} {n' r' : Nat} {l' : List BlockID} (h : Bill b n r l o) (h1 : n ≤ n') (h2 : r ≤ r') (h3 : l.Sublist l') :
    Paying b n' r' l' (.ret (.ok o)) := by
  intro o' e
  cases e
  exact h.mono h1 h2 h3

/-- a peer loader that has just been created, or restarted: nothing waits in its queue -/
theorem Bill.fresh {o : Own} (h : Bill b n r l o) (p : Peer) : Bill b n r l { o with active := true, obj := newPeerLoader p } := by
  refine ⟨?_, ?_, ?_, h.grown⟩
  · have := h.due
    show o.out.length + 0 ≤ n
    omega
  · have := h.asks
    show requests o.out + 0 ≤ r
    omega
  · show (wanted o.out ++ []).Sublist l
    exact ((List.Sublist.refl _).append (List.nil_sublist _)).trans h.listed

/-- the restart sends its request, and leaves the machine waiting for ids with an empty queue -/
theorem paid_restart {o : Own} (c : Ctx) (h : Bill b n r l o) (hs : o.obj.state = .idle) (hq : o.obj.triggers = []) :
    Every (fun x : Own × Go Unit => Bill b (n + 1) (r + 1) l x.1 ∧ x.1.obj.state = .waitingForIDs ∧ x.1.obj.triggers = []) (fire c o .restart) := by
  have he := h.enqueue .restart
  have hl : l ++ tListed .restart = l := List.append_nil l
  rw [hl] at he
  unfold fire drain
  simp only [enqueue, hq, List.nil_append]
  have hh : Held b (n + 1) (r + 1) l .restart { o with obj := { o.obj with triggers := [], state := .waitingForIDs } } := by
    refine ⟨?_, ?_, ?_, h.grown⟩
    · have := h.due
      show o.out.length + 1 + 0 ≤ n + 1
      omega
    · have := h.asks
      show requests o.out + 1 + 0 ≤ r + 1
      omega
    · have := h.listed
      rw [hq] at this
      simpa [tListed] using this
  have hd : ∀ o' : Own, Bill b (n + 1) (r + 1) l o' → o'.obj.state = .waitingForIDs → o'.obj.triggers = [] →
      Every (fun x : Own × Go Unit => Bill b (n + 1) (r + 1) l x.1 ∧ x.1.obj.state = .waitingForIDs ∧ x.1.obj.triggers = []) (drain c 2 o') := by
    intro o' h1 h2 h3
    unfold drain
    rw [h3]
    exact ⟨h1, h2, h3⟩
  refine Every.bind (Q := fun x : Own × Go Unit => Bill b (n + 1) (r + 1) l x.1 ∧ x.1.obj.state = .waitingForIDs ∧ x.1.obj.triggers = []) ?_ ?_
  · intro x hx
    unfold andThen
    split
    · exact hx
    · exact hd _ hx.1 hx.2.1 hx.2.2
  · unfold execute
    rw [show handler o.obj.state .restart = some (.goto .waitingForIDs) by rw [hs]; rfl]
    show Every _ (requestIDsFromLCA c { o with obj := { o.obj with triggers := [], state := .waitingForIDs } })
    unfold requestIDsFromLCA
    intro x
    cases x with
    | error e => exact ⟨hh.drop, rfl, rfl⟩
    | ok lca =>
      show Every _ (requestFrom c { o with obj := { o.obj with triggers := [], state := .waitingForIDs } } lca)
      unfold requestFrom
      intro x
      cases x with
      | error e => exact ⟨hh.drop, rfl, rfl⟩
      | ok ids =>
        have h1 := bill_requestBlockIDs c ids hh (Nat.le_refl _) (Nat.le_refl _)
        have h2 : (requestBlockIDs c { o with obj := { o.obj with triggers := [], state := .waitingForIDs } } ids).1.obj =
            { o.obj with triggers := [], state := .waitingForIDs } := by
          unfold requestBlockIDs
          split
          · rfl
          · split
            · rfl
            · split <;> rfl
        show Every _ (andThen _ _)
        unfold andThen
        split
        · exact ⟨h1, by rw [h2], by rw [h2]⟩
        · exact ⟨h1.same rfl rfl, (by show PeerLoader.state _ = _; simp only [h2]), (by show PeerLoader.triggers _ = _; simp only [h2])⟩

/-- a start while the machine waits for ids is ignored -/
theorem settled_ignored {o : Own} (c : Ctx) (h : Bill b n r l o) (hs : o.obj.state = .waitingForIDs) (hq : o.obj.triggers = []) :
    Paying b n r l (continueSync c o) := by
  unfold continueSync
  split
  · refine settled_logged ?_
    unfold fire drain
    simp only [enqueue, hq, List.nil_append]
    refine Every.bind (Q := fun x => Bill b n r l x.1 ∧ x.1.obj.triggers = []) ?_ ?_
    · intro x hx
      refine paid_andThen hx.1 (fun o' h' => paid_drain c 2 o' h')
    · unfold execute
      rw [show handler o.obj.state .start = some .ignored by rw [hs]; rfl]
      exact ⟨h.same rfl hq.symm, rfl⟩
  · intro o' e; cases e

theorem settled_handle {o : Own} (c : Ctx) (i : Input) (h : Bill b n r l o) :
    Paying b (n + i.due) (r + i.asks.toNat) (l ++ i.listed) (handle c o i) := by
  have keep : Paying b (n + i.due) (r + i.asks.toNat) (l ++ i.listed) (.ret (.ok o)) :=
    settled_keep h (Nat.le_add_right _ _) (Nat.le_add_right _ _) (List.sublist_append_left _ _)
  cases i with
  | ids a l' =>
    show Paying b _ _ _ (handleIDs c o a l')
    unfold handleIDs
    split
    · exact keep
    · split
      · exact keep
      · split
        · exact keep
        · exact settled_logged (paid_fire c (.ids l') h)
  | block a bk =>
    show Paying b _ _ _ (handleBlock c o a bk)
    unfold handleBlock
    split
    · exact keep
    · split
      · exact keep
      · exact settled_logged (paid_fire c (.block bk) h)
  | tick =>
    show Paying b _ _ _ (Fine.tick c o)
    unfold Fine.tick
    split
    · exact settled_logged (paid_fire c (.tick c.now) h)
    · exact keep
  | timer =>
    have hl : l ++ Input.listed .timer = l := List.append_nil l
    show Paying b _ _ _ (sync c o)
    unfold sync
    split
    · exact keep
    · intro x
      match x with
      | .error .panic => intro o' e; cases e
      | .error (.err _) => exact keep
      | .ok connections =>
        refine Every.any.bind (fun lag _ => ?_)
        split
        · exact keep
        · split
          · intro o' e; cases e
          · rename_i p hp
            have hf := h.fresh p
            rw [hl]
            dsimp only
            split
            · refine Every.bind (Q := fun x => ∀ o', x = .ok o' → Bill b (n + 1) (r + 1) l o' ∧ o'.obj.state = .waitingForIDs ∧ o'.obj.triggers = []) ?_ ?_
              · intro x hx
                cases x with
                | error e => intro o' e; cases e
                | ok o' =>
                  obtain ⟨h1, h2, h3⟩ := hx o' rfl
                  exact settled_ignored c h1 h2 h3
              · unfold restartSync
                refine Every.bind ?_ (paid_restart c (o := { o with active := true, obj := newPeerLoader p, ticking := true, fc := reset o.fc p.addr }) (hf.same rfl rfl) rfl rfl)
                intro x hx o' e
                unfold logged at e
                split at e
                · cases e
                · cases e; exact hx
            · unfold continueSync
              rw [if_pos rfl]
              refine settled_logged ?_
              have := paid_fire c .start (o := { o with active := true, obj := newPeerLoader p, ticking := true }) (hf.same rfl rfl)
              rw [show l ++ tListed .start = l from List.append_nil l] at this
              exact this

/-! ### runs -/

/-- the bill at every moment, since the loader had sent `b`, sent `r0` requests for ids, and been told `l0` -/
structure Accounts (b : List Sent) (n0 r0 : Nat) (l0 : List BlockID) (ins : List (Ctx × Input)) (w : World) : Prop where
  own : w.todo = none → Bill b (n0 + dueIn ins) (r0 + asksIn ins) (l0 ++ listedIn ins) w.own
  todo : ∀ p, w.todo = some p → Paying b (n0 + dueIn ins) (r0 + asksIn ins) (l0 ++ listedIn ins) p
  old : ∃ m, ∃ ins', ins = ins' ++ m ∧ Bill b (n0 + dueIn ins') (r0 + asksIn ins') (l0 ++ listedIn ins') w.own

variable {lib : Lib}

theorem accounts {n0 r0 : Nat} {l0 : List BlockID} {v w : World} {tr : List Answer} (ht : v.todo = none) (h0 : Bill b n0 r0 l0 v.own)
    (h : RdRun lib v tr w) : ∃ ins, w.ins = v.ins ++ ins ∧ Accounts b n0 r0 l0 ins w := by
  induction h with
  | nil =>
    have e : Bill b (n0 + dueIn []) (r0 + asksIn []) (l0 ++ listedIn []) v.own := by
      refine h0.mono (Nat.le_refl _) (Nat.le_refl _) ?_
      rw [show listedIn [] = [] from rfl, List.append_nil]
      exact List.Sublist.refl _
    exact ⟨[], (List.append_nil _).symm, fun _ => e, (fun p hp => by rw [ht] at hp; cases hp), [], [], rfl, e⟩
  | @snoc w w' _ _ _ t ih =>
    obtain ⟨ins, hins, A⟩ := ih
    cases t with
    | receive c i hn =>
      refine ⟨ins ++ [(c, i)], by rw [hins, List.append_assoc], (fun hp => by cases hp), ?_, [(c, i)], ins, rfl, A.own hn⟩
      intro p hp
      cases hp
      have := settled_handle c i (A.own hn)
      have e1 : dueIn (ins ++ [(c, i)]) = dueIn ins + i.due := by simp [dueIn]
      have e2 : asksIn (ins ++ [(c, i)]) = asksIn ins + i.asks.toNat := by
        unfold asksIn
        rw [List.countP_append]
        cases hi : i.asks <;> simp [hi]
      have e3 : listedIn (ins ++ [(c, i)]) = listedIn ins ++ i.listed := by simp [listedIn]
      rw [e1, e2, e3, ← Nat.add_assoc, ← Nat.add_assoc, ← List.append_assoc]
      exact this
    | call D c k hk =>
      refine ⟨ins, hins, (fun hp => by cases hp), ?_, A.old⟩
      intro p hp
      cases hp
      exact A.todo _ hk _
    | finish o ho =>
      have := A.todo _ ho o rfl
      exact ⟨ins, hins, fun _ => this, (fun p hp => by cases hp), [], ins, (List.append_nil _).symm, this⟩
    | other D x => exact ⟨ins, hins, A.own, A.todo, A.old⟩

theorem dueIn_append (a c : List (Ctx × Input)) : dueIn (a ++ c) = dueIn a + dueIn c := by simp [dueIn]

theorem asksIn_append (a c : List (Ctx × Input)) : asksIn (a ++ c) = asksIn a + asksIn c := List.countP_append

theorem listedIn_append (a c : List (Ctx × Input)) : listedIn (a ++ c) = listedIn a ++ listedIn c := by simp [listedIn]

/-- the bill at any moment, also in the middle of an event -/
theorem Accounts.bill {n0 r0 : Nat} {l0 : List BlockID} {ins : List (Ctx × Input)} {w : World} (A : Accounts b n0 r0 l0 ins w) :
    Bill b (n0 + dueIn ins) (r0 + asksIn ins) (l0 ++ listedIn ins) w.own := by
  obtain ⟨m, ins', rfl, h⟩ := A.old
  rw [dueIn_append, asksIn_append, listedIn_append]
  exact h.mono (by omega) (by omega) ((List.Sublist.refl _).append (List.sublist_append_left _ _))

end Verif.Loading.Fine
