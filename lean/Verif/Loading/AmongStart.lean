import Verif.Loading.AmongRun
/-
The start of a synchronisation, call by call: lemmas for property C106.
-/

set_option autoImplicit false

namespace Verif.Loading.Fine

open Verif
open Verif.Chains (Addr BlockID ProtoBlock MicroInv Linkage LeashOf LCB)
open Verif.Chains.Spec (Stored)
open Verif.Peers (Peer Conn Registry Lib)

variable {lib : Lib} {g : ProtoBlock} {N : Nat} {α β : Type}

/-- from the state `x` on the program ends with a result for which `Q` holds, whatever others do between the calls -/
def Ends (lib : Lib) (g : ProtoBlock) (Q : α → Shared → Prop) : Proc α → Shared → Prop
  | .ret a, x => ∀ y, Later x y → Sound lib g 0 y → Q a y
  | .call c k, x => ∀ y, Later x y → Sound lib g c.cost y → Ends lib g Q (k (c.res lib y)) (c.effect y)

variable {Q : α → Shared → Prop} {Q' : β → Shared → Prop}

theorem Ends.later {p : Proc α} {x y : Shared} (h : Ends lib g Q p x) (hl : Later x y) : Ends lib g Q p y := by
  cases p with
  | ret a => exact fun z hz => h z (hl.trans hz)
  | call c k => exact fun z hz => h z (hl.trans hz)

theorem Ends.bind {p : Proc α} {f : α → Proc β} {x : Shared} (h : Ends lib g Q p x)
    (hf : ∀ a y, Sound lib g 0 y → Q a y → Ends lib g Q' (f a) y) : Ends lib g Q' (p.bind f) x := by
  induction p generalizing x with
  | ret a =>
    have key : ∀ y, Later x y → Sound lib g 0 y → Ends lib g Q' (f a) y := fun y hl hs => hf a y hs (h y hl hs)
    show Ends lib g Q' (f a) x
    cases hp : f a with
    | ret b =>
      intro y hl hs
      have := key y hl hs
      rw [hp] at this
      exact this y (Later.refl y) hs
    | call c k =>
      intro y hl hs
      have := key y hl (hs.mono (Nat.zero_le _))
      rw [hp] at this
      exact this y (Later.refl y) hs
  | call c k ih => exact fun y hl hs => ih _ (h y hl hs)

theorem Ends.mono {p : Proc α} {x : Shared} {Q2 : α → Shared → Prop} (h : Ends lib g Q p x) (hq : ∀ a y, Q a y → Q2 a y) :
    Ends lib g Q2 p x := by
  induction p generalizing x with
  | ret a => exact fun y hl hs => hq a y (h y hl hs)
  | call c k ih => exact fun y hl hs => ih _ (h y hl hs)

/-- a call that only reads -/
theorem Ends.read {c : Call} {k : c.Res → Proc α} {x : Shared} (hc : c.op = none)
    (h : ∀ y, Later x y → Sound lib g 0 y → ∃ v, c.res lib y = v ∧ Ends lib g Q (k v) y) : Ends lib g Q (.call c k) x := by
  intro y hl hs
  obtain ⟨v, hv, h⟩ := h y hl (hs.mono (Nat.zero_le _))
  have he : c.effect y = y := by unfold Call.effect; rw [hc]
  rw [he, hv]
  exact h

/-- a request for ids was sent -/
def Sends (o : Own) (r : Own × Go Unit) (x : Shared) : Prop :=
  ∃ m req, r = ({ o with out := o.out ++ [m], obj := { o.obj with timestamp := m.time } }, .ok ()) ∧ o.obj.peer.conn = some m.to ∧ AsksIDs m.to req m.msg ∧
    ∀ id, id ∈ req → Stored x.link.db id

theorem ends_requestFrom (c : Ctx) {o : Own} {x : Shared} (hcn : o.obj.peer.conn ≠ none) {id : BlockID} (hst : Stored x.link.db id) :
    Ends lib g (Sends o) (requestFrom c o id) x := by
  refine Ends.read rfl (fun z h2 S2 => ?_)
  obtain ⟨ids, hi, hne, hw, _, _⟩ := S2.store.lastIDs (h2.stored _ hst)
  refine ⟨.ok ids, hi, ?_⟩
  obtain ⟨cn, hcn⟩ := Option.ne_none_iff_exists'.mp hcn
  have fin : ∀ m, AsksIDs cn ids m → Ends lib g (Sends o)
      (.ret ({ o with out := o.out ++ [⟨c.now, cn, m⟩], obj := { o.obj with timestamp := c.now } }, .ok ())) z := by
    intro m hm u h3 _
    exact ⟨⟨c.now, cn, m⟩, ids, rfl, hcn, hm, fun id hid => h3.stored _ (walk_stored S2.store hw id hid)⟩
  simp only [requestBlockIDs, hcn, if_neg hne]
  by_cases hv : cn.handshake.version.lt protobufVersion = true
  · rw [if_pos hv]; exact fin (.getSignatures ids) ⟨rfl, hv⟩
  · rw [if_neg hv]; exact fin (.getBlockIds ids) ⟨rfl, by simpa [protobufVersion] using hv⟩

theorem ends_requestIDs (c : Ctx) {o : Own} {x : Shared} (hcn : o.obj.peer.conn ≠ none) : Ends lib g (Sends o) (requestIDs c o) x := by
  refine Ends.read rfl (fun y _ S1 => ?_)
  obtain ⟨leash, hl, hst⟩ := S1.store.leash o.peerID
  exact ⟨.ok leash, hl, ends_requestFrom c hcn hst⟩

theorem ends_requestIDsFromLCA (c : Ctx) {o : Own} {x : Shared} (hcn : o.obj.peer.conn ≠ none) {b : Chains.BytesN 4} (hb : o.peerID = .v4 b) :
    Ends lib g (fun r y => r.2 = goPanic ∨ Sends o r y) (requestIDsFromLCA c o) x := by
  refine Ends.read rfl (fun y _ S1 => ?_)
  have key : ∀ r, Call.res lib y (.lcb c.env o.peerID) = r → (r = goPanic ∨ ∃ l, r = .ok l ∧ Stored y.link.db l) →
      ∃ v, Call.res lib y (.lcb c.env o.peerID) = v ∧ Ends lib g (fun r y => r.2 = goPanic ∨ Sends o r y)
        ((fun (r : Go BlockID) => match r with | .error e => .ret (o, .error e) | .ok lca => requestFrom c o lca) v) y := by
    rintro r hr (rfl | ⟨l, rfl, hst⟩)
    · exact ⟨_, hr, fun z _ _ => Or.inl rfl⟩
    · refine ⟨_, hr, ?_⟩
      exact (ends_requestFrom c hcn hst).mono (fun _ _ h => Or.inr h)
  have hl := S1.store.lcb c.env b
  rw [← hb] at hl
  exact key _ rfl hl

/-- the synchronisation with the peer of `o` was opened with one request for ids -/
def Opened (o : Own) (o' : Own) (x : Shared) : Prop :=
  o'.active = true ∧ o'.obj.state = .waitingForIDs ∧ o'.obj.triggers = [] ∧ o'.obj.peer = o.obj.peer ∧ o'.prevDiff = o.prevDiff ∧
    ∃ m req, o'.out = o.out ++ [m] ∧ o'.obj.timestamp = m.time ∧ o'.obj.peer.conn = some m.to ∧ AsksIDs m.to req m.msg ∧ ∀ id, id ∈ req → Stored x.link.db id

theorem Opened.later {o o' : Own} {x y : Shared} (h : Opened o o' x) (hl : Later x y) : Opened o o' y := by
  obtain ⟨h1, h2, h3, h4, h5, m, req, h6, ht, hc, h7, h8⟩ := h
  exact ⟨h1, h2, h3, h4, h5, m, req, h6, ht, hc, h7, fun id hid => hl.stored _ (h8 id hid)⟩

/-- the trigger that opens it -/
theorem ends_fire (c : Ctx) {o : Own} {x : Shared} {t : Trigger} {p : Proc (Own × Go Unit)} (ha : o.active = true) (hs : o.obj.state = .idle)
    (hq : o.obj.triggers = []) (ht : t = .start ∨ t = .restart)
    (hp : onEntry c { o with obj := { o.obj with state := .waitingForIDs } } .waitingForIDs t = p)
    (h : Ends lib g (fun r y => r.2 = goPanic ∨ Sends { o with obj := { o.obj with state := .waitingForIDs } } r y) p x) :
    Ends lib g (fun r y => r = goPanic ∨ ∃ o', r = .ok o' ∧ Opened o o' y) ((fire c o t).bind (fun r => .ret (logged r))) x := by
  have key : Ends lib g (fun r y => r.2 = goPanic ∨ (r.2 = .ok () ∧ Opened o r.1 y)) (fire c o t) x := by
    unfold fire
    have henq : (enqueue o t).obj.triggers = [t] := by show o.obj.triggers ++ _ = _; rw [hq]; rfl
    have he : execute c { enqueue o t with obj := { (enqueue o t).obj with triggers := [] } } t = p := by
      have : ({ enqueue o t with obj := { (enqueue o t).obj with triggers := [] } } : Own) = o := by
        show ({ o with obj := { o.obj with triggers := [] } } : Own) = o
        rw [← hq]
      rw [this, ← hp]
      unfold execute
      rw [hs]
      rcases ht with rfl | rfl <;> simp only [handler]
    rw [drain, henq]
    simp only [he]
    refine h.bind ?_
    rintro r y _ (hr | ⟨m, req, rfl, hcn, hm, hst⟩)
    · unfold andThen
      rw [hr]
      exact fun _ _ _ => Or.inl rfl
    · simp only [andThen]
      rw [drain]
      simp only [hq]
      intro z hz _
      exact Or.inr ⟨rfl, ha, rfl, rfl, rfl, rfl, m, req, rfl, rfl, hcn, hm, fun id hid => hz.stored _ (hst id hid)⟩
  refine key.bind ?_
  rintro r y _ (hr | ⟨hr, hO⟩) z hz _
  · exact Or.inl (logged_panics hr)
  · exact Or.inr ⟨r.1, logged_alive (by rw [hr]; exact ok_alive), hO.later hz⟩

/-- what the timer does while the loader has no peer: it opens a synchronisation, or changes nothing -/
theorem ends_sync (c : Ctx) {o : Own} {x : Shared} (hn : o.active = false) :
    Ends lib g (fun r y => ∀ o', r = .ok o' → o'.active = true → o'.obj.state = .waitingForIDs ∧ o'.prevDiff = o.prevDiff ∧
      ∃ m req, o'.out = o.out ++ [m] ∧ o'.obj.timestamp = m.time ∧ o'.obj.peer.conn = some m.to ∧ AsksIDs m.to req m.msg ∧
        ∀ id, id ∈ req → Stored y.link.db id) (sync c o) x := by
  have quiet : ∀ r : Go Own, (∀ o', r = .ok o' → o' = o) → ∀ z, Ends lib g (fun r y => ∀ o', r = .ok o' → o'.active = true → o'.obj.state = .waitingForIDs ∧
      o'.prevDiff = o.prevDiff ∧ ∃ m req, o'.out = o.out ++ [m] ∧ o'.obj.timestamp = m.time ∧ o'.obj.peer.conn = some m.to ∧ AsksIDs m.to req m.msg ∧
        ∀ id, id ∈ req → Stored y.link.db id) (.ret r) z := by
    intro r hr z y _ _ o' ho ha
    rw [hr o' ho, hn] at ha; cases ha
  unfold sync
  rw [if_neg (by rw [hn]; simp)]
  refine Ends.read rfl (fun y _ S1 => ?_)
  refine ⟨_, rfl, ?_⟩
  cases hc : Peers.Connections lib c.env y.reg with
  | error e =>
    have hr : Call.res lib y (.connections c.env) = .error e := hc
    rw [hr]
    cases e with
    | panic => exact quiet _ (fun o' h => by cases h) y
    | err e => exact quiet _ (fun o' h => by cases h; rfl) y
  | ok ps =>
    have hr : Call.res lib y (.connections c.env) = .ok ps := hc
    rw [hr]
    have hlag : ∀ z, Ends lib g (fun l _ => ∀ p, p ∈ l → p ∈ ps) (lagLoop ps) z := by
      have : ∀ (qs : List Peer) z, Ends lib g (fun l _ => ∀ p, p ∈ l → p ∈ qs) (lagLoop qs) z := by
        intro qs
        induction qs with
        | nil => exact fun _ _ _ _ p hp => by cases hp
        | cons q qs ih =>
          intro z
          have tail : ∀ z, Ends lib g (fun l _ => ∀ p, p ∈ l → p ∈ q :: qs) (lagLoop qs) z :=
            fun z => (ih z).mono (fun l _ h p hp => List.mem_cons_of_mem _ (h p hp))
          rw [lagLoop]
          cases hs : q.score with
          | none => exact tail z
          | some sc =>
            refine Ends.read rfl (fun u _ _ => ⟨_, rfl, ?_⟩)
            rcases (Call.res lib u (.leashScore q.addr) : Go Nat) with e | score
            · exact tail u
            · refine (ih u).bind ?_
              intro l _ _ hl _ _ _ p hp
              by_cases hgt : sc > score
              · rw [if_pos hgt] at hp
                rcases List.mem_cons.mp hp with rfl | hp
                · exact List.mem_cons_self
                · exact List.mem_cons_of_mem _ (hl p hp)
              · rw [if_neg hgt] at hp
                exact List.mem_cons_of_mem _ (hl p hp)
      exact this ps
    refine (hlag y).bind ?_
    intro lag z _ hlag
    by_cases hl : lag = []
    · simp only [if_pos hl]; exact quiet _ (fun o' h => by cases h; rfl) z
    · simp only [if_neg hl]
      obtain ⟨p, hp, hi⟩ := goIndex_mod lag (c.rand lag.length) hl
      simp only [hi]
      obtain ⟨b, v, cn, hpe, _, _⟩ := connections_mem S1.reg.inv hc p (hlag p hp)
      have hcn : p.conn ≠ none := by subst hpe; simp
      have hpa : p.addr = .v4 b := by subst hpe; rfl
      have fin : ∀ {o1 : Own} {r : Go Own} {y : Shared}, o1.out = o.out → o1.prevDiff = o.prevDiff → (r = goPanic ∨ ∃ o', r = .ok o' ∧ Opened o1 o' y) →
          ∀ o', r = .ok o' → o'.active = true → o'.obj.state = .waitingForIDs ∧ o'.prevDiff = o.prevDiff ∧
            ∃ m req, o'.out = o.out ++ [m] ∧ o'.obj.timestamp = m.time ∧ o'.obj.peer.conn = some m.to ∧ AsksIDs m.to req m.msg ∧ ∀ id, id ∈ req → Stored y.link.db id := by
        rintro o1 r y h1 h2 (rfl | ⟨o', rfl, hO⟩) o'' ho _
        · cases ho
        · cases ho
          obtain ⟨_, h4, _, _, h5, m, req, h6, hti, hco, h7, h8⟩ := hO
          exact ⟨h4, h5.trans h2, m, req, by rw [h6, h1], hti, hco, h7, h8⟩
      by_cases hth : count o.fc p.addr ≥ restartThreshold
      · rw [if_pos hth]
        refine (ends_fire c (o := { o with active := true, obj := newPeerLoader p, ticking := true, fc := reset o.fc p.addr }) (t := .restart) rfl rfl rfl
          (Or.inr rfl) rfl (ends_requestIDsFromLCA c hcn hpa)).bind ?_
        rintro r u _ (rfl | ⟨o', rfl, hO⟩)
        · exact quiet _ (fun o' h => by cases h) u
        · have hO' := hO
          obtain ⟨h1, h2, h3, _⟩ := hO'
          simp only [continueSync, h1, if_true]
          rw [fire_ignored c _ _ (by exact h3) (by rw [show ({ o' with ticking := true } : Own).obj.state = .waitingForIDs from h2]; rfl)]
          intro q hq _
          obtain ⟨g1, g2, g3, g4, g5, m, req, g6, hti, hco, g7, g8⟩ := hO.later hq
          exact fin (o1 := { o with active := true, obj := newPeerLoader p, ticking := true, fc := reset o.fc p.addr }) rfl rfl
            (Or.inr ⟨{ o' with active := true, ticking := true }, rfl, rfl, g2, g3, g4, g5, m, req, g6, hti, hco, g7, g8⟩)
      · rw [if_neg hth]
        unfold continueSync
        rw [if_pos rfl]
        exact (ends_fire c (o := { o with active := true, obj := newPeerLoader p, ticking := true }) (t := .start) rfl rfl rfl
          (Or.inl rfl) rfl ((ends_requestIDs c hcn).mono (fun _ _ h => Or.inr h))).mono (fun r y h =>
            fin (o1 := { o with active := true, obj := newPeerLoader p, ticking := true }) rfl rfl h)

/-- along the handling of an event -/
theorem ends_along {Q : Go Own → Shared → Prop} {v w : World} {p : Proc (Go Own)} (ht : v.todo = some p) (hp : Ends lib g Q p v.sh)
    (hs : ∀ u, Handling lib v u → Chains.Spec.inserts u.calls ≤ N → Sound lib g (N - Chains.Spec.inserts u.calls) u.sh ∧
      ∀ u', Step lib u u' → Chains.Spec.inserts u'.calls ≤ N → Later u.sh u'.sh)
    (h : Handling lib v w) (hN : Chains.Spec.inserts w.calls ≤ N) : ∃ q, w.todo = some q ∧ Ends lib g Q q w.sh := by
  induction h with
  | start => exact ⟨p, ht, hp⟩
  | @call u h c k ht' ih =>
    have := step_room hN
    obtain ⟨q, hq, hE⟩ := ih (by omega)
    rw [ht'] at hq; cases hq
    have hc : c.cost = Chains.Spec.inserts c.op.toList := rfl
    exact ⟨_, rfl, hE u.sh (Later.refl _) ((hs u h (by omega)).1.mono (by omega))⟩
  | @other u h x ih =>
    have := step_room hN
    obtain ⟨q, hq, hE⟩ := ih (by omega)
    exact ⟨q, hq, hE.later ((hs u h (by omega)).2 _ (.other u x) hN)⟩

/-! ### calls that are no disturbance -/

/-- a call on the store leaves the position of a peer where it is, or moves it to the block of the call, if it was made for this peer -/
theorem leash_step {n : Nat} {lk : Linkage} (S : Serving g (n + 1) lk) (o : Chains.Spec.Op) {a0 : Addr} {id : BlockID}
    (ht : Chains.Spec.target o = some (a0, id)) (peer : Addr) :
    LeashOf (Chains.Spec.step lk o).1 peer = LeashOf lk peer ∨ (peer.plain = a0.plain ∧ LeashOf (Chains.Spec.step lk o).1 peer = .ok id) := by
  obtain ⟨ns, hs, R, hb⟩ := Chains.reachable_rep S.reachable
  have hg := Chains.step_genesis_of_target (l := lk) (o := o) (by rw [ht]; simp)
  have h := R.step_outcome hb o
  rw [ht] at h
  simp only at h
  have same : Chains.getLeash (Chains.Spec.step lk o).1.db peer = Chains.getLeash lk.db peer →
      LeashOf (Chains.Spec.step lk o).1 peer = LeashOf lk peer := by
    intro he; unfold LeashOf; rw [he, hg]
  have moved : ∀ {db}, db = (Chains.Spec.step lk o).1.db →
      Chains.getLeash db peer = (if peer.plain = a0.plain then .ok id else Chains.getLeash lk.db peer) →
      LeashOf (Chains.Spec.step lk o).1 peer = LeashOf lk peer ∨ (peer.plain = a0.plain ∧ LeashOf (Chains.Spec.step lk o).1 peer = .ok id) := by
    rintro db rfl he
    by_cases hp : peer.plain = a0.plain
    · rw [if_pos hp] at he
      exact Or.inr ⟨hp, by unfold LeashOf; rw [he]⟩
    · rw [if_neg hp] at he
      exact Or.inl (same he)
  rcases h with ⟨_, hm, _⟩ | ⟨_, hs⟩ | ⟨_, _, hm, _⟩
  · exact moved rfl (hm peer)
  · exact Or.inl (same (hs peer))
  · exact moved rfl (hm peer)

/-! ### the number of requests -/

variable {peer : Addr} {s s0 : Nat} {ch : List ProtoBlock} {d0 : Option Int}

theorem Stage.bound {o : Own} {x : Shared} {more : List Sent} (h : Stage d0 peer s s0 ch o x more) :
    Loading.asking more = 0 ∨ Loading.asking more < ch.length := by
  cases h with
  | asking m req h =>
    rcases h.diff with ⟨_, rfl⟩ | ⟨i, _, _, _, _, hi, _, ha, _⟩
    · exact Or.inl rfl
    · exact Or.inr (by omega)
  | loading k a arrived j h =>
    have hj := h.last
    rcases h.mark with ⟨_, h0⟩ | ⟨i, hi, hc, _⟩
    · exact Or.inl h0
    · exact Or.inr (by omega)
  | released _ _ hc => exact Or.inr hc

theorem bounded {w0 w : World}
    (hK : ∀ w, Among lib peer s s0 ch w0 w → Chains.Spec.inserts w.calls ≤ N → ∃ src, Underway lib g N src peer s s0 ch w0 w)
    (h : Among lib peer s s0 ch w0 w) (hN : Chains.Spec.inserts w.calls ≤ N) :
    ∃ more, w.own.out = w0.own.out ++ more ∧ (Loading.asking more = 0 ∨ Loading.asking more < ch.length) := by
  induction h with
  | start => exact ⟨[], (List.append_nil _).symm, Or.inl rfl⟩
  | receive h ha c i ht hh ih => exact ih hN
  | call h c k ht ih => exact ih (by have := step_room hN; omega)
  | other h ha x hx ih => exact ih (by have := step_room hN; omega)
  | finish h o ht ih =>
    obtain ⟨_, K⟩ := hK _ (.finish h o ht) hN
    obtain ⟨more, hout, P, _⟩ := K.phase
    exact ⟨more, hout, (P rfl).bound⟩

end Verif.Loading.Fine
