import Verif.Loading.AmongSafe
import Verif.Loading.FrugalLemmas
/-
One event of a synchronisation with an honest peer, call by call: lemmas for property C106.
-/

set_option autoImplicit false

namespace Verif.Loading.Fine

open Verif
open Verif.Chains (Addr BlockID ProtoBlock MicroInv Linkage LeashOf PutBlock MoveLeash HasBlock LastIDs LeashScore)
open Verif.Chains.Spec (Stored SameTree ScoreOf IsWalk)
open Verif.Peers (Peer Conn Registry Lib second)
open Verif.KV (Fate)

variable {lib : Lib} {g : ProtoBlock} {n : Nat} {peer : Addr} {s s0 : Nat} {ch : List ProtoBlock} {d0 : Option Int}

/-- the remembered difference is the one from before the synchronisation, or that of an earlier block of the history -/
def Mark (d0 : Option Int) (s s0 : Nat) (ch : List ProtoBlock) (d : Option Int) (c j : Nat) : Prop :=
  d = d0 ∧ c = 0 ∨ ∃ i, i < j ∧ c ≤ i + 1 ∧ d = some ((s : Int) - worth s0 ch i)

/-- Where a synchronisation may end: with the last block, or with a block whose difference was remembered from before. -/
def Final (d0 : Option Int) (peer : Addr) (s s0 : Nat) (ch : List ProtoBlock) (x : Shared) : Prop :=
  At peer ch x (ch.length - 1) ∨ ∃ k, At peer ch x k ∧ d0 = some ((s : Int) - worth s0 ch k)

theorem Final.onward {x y : Shared} (h : Final d0 peer s s0 ch x) (ho : Onward peer ch x y) : Final d0 peer s s0 ch y := by
  rcases h with h | ⟨k, h, hd⟩
  · exact Or.inl (h.onward ho)
  · exact Or.inr ⟨k, h.onward ho, hd⟩

theorem Final.full {x : Shared} (h : Final d0 peer s s0 ch x) (hd : d0 = none) : At peer ch x (ch.length - 1) := by
  rcases h with h | ⟨k, _, h⟩
  · exact h
  · rw [hd] at h; cases h

/-- the loader waits for the blocks up to the one with index `j` -/
structure Expects (d0 : Option Int) (s s0 : Nat) (ch : List ProtoBlock) (o : Own) (x : Shared) (more : List Sent) (k : Nat) (a : ProtoBlock)
    (arrived : List ProtoBlock) (j : Nat) : Prop where
  active : o.active = true
  state : o.obj.state = .waitingForBlocks
  lt : k < j
  last : j < ch.length
  here : ch[k]? = some a
  stored : Stored x.link.db a.id
  queue : o.obj.queue = arrived.foldl put (newQueue ((part ch (k + 1) j).map (·.id)))
  waits : ready o.obj.queue = false
  genuine : ∀ b, b ∈ arrived → Genuine ch b
  mark : Mark d0 s s0 ch o.prevDiff (asking more) j

/-- The loader waits for ids.  The remembered difference is that of the block with index `i`, which is not the last one; the request begins with this block
or a later one. -/
structure Asks (d0 : Option Int) (s s0 : Nat) (ch : List ProtoBlock) (o : Own) (x : Shared) (more : List Sent) (m : Sent) (req : List BlockID) : Prop where
  active : o.active = true
  state : o.obj.state = .waitingForIDs
  sent : o.out.getLast? = some m
  asks : AsksIDs m.to req m.msg
  stored : ∀ id, id ∈ req → Stored x.link.db id
  diff : o.prevDiff = d0 ∧ more = [] ∨ ∃ i i' a, i ≤ i' ∧ ch[i']? = some a ∧ i + 1 < ch.length ∧ req.head? = some a.id ∧
    asking more ≤ i + 1 ∧ o.prevDiff = some ((s : Int) - worth s0 ch i)

/-- where the synchronisation stands while the loader waits for the next event -/
inductive Stage (d0 : Option Int) (peer : Addr) (s s0 : Nat) (ch : List ProtoBlock) (o : Own) (x : Shared) (more : List Sent) : Prop where
  | asking (m : Sent) (req : List BlockID) (h : Asks d0 s s0 ch o x more m req)
  | loading (k : Nat) (a : ProtoBlock) (arrived : List ProtoBlock) (j : Nat) (h : Expects d0 s s0 ch o x more k a arrived j)
  | released (ha : o.active = false) (hp : Final d0 peer s s0 ch x) (hc : Loading.asking more < ch.length) (hd : o.prevDiff = none)

theorem Expects.later {o : Own} {x y : Shared} {more : List Sent} {k j : Nat} {a : ProtoBlock} {arrived : List ProtoBlock}
    (h : Expects d0 s s0 ch o x more k a arrived j) (hl : Later x y) : Expects d0 s s0 ch o y more k a arrived j :=
  { h with stored := hl.stored _ h.stored }

theorem Asks.later {o : Own} {x y : Shared} {more : List Sent} {m : Sent} {req : List BlockID}
    (h : Asks d0 s s0 ch o x more m req) (hl : Later x y) : Asks d0 s s0 ch o y more m req :=
  { h with stored := fun id hid => hl.stored _ (h.stored id hid) }

theorem Stage.between {o : Own} {x y : Shared} {more : List Sent} (h : Stage d0 peer s s0 ch o x more) (hl : Between peer ch x y) :
    Stage d0 peer s s0 ch o y more := by
  cases h with
  | asking m req h => exact .asking m req (h.later hl.later)
  | loading k a arrived j h => exact .loading k a arrived j (h.later hl.later)
  | released ha hp hc hd => exact .released ha (hp.onward hl.onward) hc hd

theorem Stage.later {o : Own} {x y : Shared} {more : List Sent} (h : Stage d0 peer s s0 ch o x more) (ha : o.active = true) (hl : Later x y) :
    Stage d0 peer s s0 ch o y more := by
  cases h with
  | asking m req h => exact .asking m req (h.later hl)
  | loading k a arrived j h => exact .loading k a arrived j (h.later hl)
  | released ha' => rw [ha] at ha'; cases ha'

/-! ### the end of a batch -/

/-- the state of the loader after a fired trigger; `j` is where a batch has ended -/
structure Batch (d0 : Option Int) (peer : Addr) (s s0 : Nat) (ch : List ProtoBlock) (o : Own) (more : List Sent) (j : Nat) (r : Own × Go Unit) (x : Shared) : Prop where
  fine : r.2 = .ok ()
  quiet : r.1.obj.triggers = []
  who : r.1.peerID = peer
  conn : r.1.obj.peer = o.obj.peer
  stage : ∃ out', r.1.out = o.out ++ out' ∧ Stage d0 peer s s0 ch r.1 x (more ++ out') ∧ (r.1.active = true → r.1.obj.state = .waitingForIDs ∧ out' ≠ [])
  last : j + 1 = ch.length → r.1.active = false
  modest : ∀ out', r.1.out = o.out ++ out' → wanted out' = []
  reached : ∃ b, ch[j]? = some b ∧ Stored x.link.db b.id

/-- after `OK` -/
inductive Decided (d0 : Option Int) (peer : Addr) (s s0 : Nat) (ch : List ProtoBlock) (o : Own) (more : List Sent) (j : Nat) (r : Own × Go Unit) (x : Shared) : Prop where
  | over (fc : FailureCounter) (h : r = ({ o with fc := fc, active := false, prevDiff := none }, .ok ())) (hp : Final d0 peer s s0 ch x)
  | again (fc : FailureCounter) (i : Nat) (hj : j ≤ i) (hi : i + 1 < ch.length) (hp : At peer ch x i)
      (h : r = (enqueue { o with fc := fc, prevDiff := some ((s : Int) - worth s0 ch i), ticking := true } .start, .ok ()))

theorem at_stored {x : Shared} (S : Serving g n x.link) {i : Nat} (h : At peer ch x i) :
    ∃ k b, i ≤ k ∧ ch[k]? = some b ∧ LeashOf x.link peer = .ok b.id ∧ Stored x.link.db b.id := by
  obtain ⟨k, b, h1, h2, h3⟩ := h
  obtain ⟨l, hl, hst⟩ := S.leash peer
  rw [h3] at hl; cases hl
  exact ⟨k, b, h1, h2, h3, hst⟩

theorem leads_OK (H : History ch) (hscore : s = worth s0 ch (ch.length - 1)) {o : Own} {x : Shared} {more : List Sent} {j : Nat}
    (ha : o.active = true) (hs : o.obj.state = .idle) (hwho : o.peerID = peer) (hp : At peer ch x j) (hj : j < ch.length)
    (hd : Mark d0 s s0 ch o.prevDiff (asking more) j) : Leads lib g peer s s0 ch 0 (Decided d0 peer s s0 ch o more j) (OK o) x := by
  unfold OK
  rw [if_pos ⟨ha, hs⟩]
  refine Leads.read rfl (fun y h1 G1 => ?_)
  obtain ⟨p, hpe, hps⟩ := G1.announced
  refine ⟨.ok p, by rw [← hwho] at hpe; exact hpe, (fun ⟨_, h⟩ => by cases h), ?_⟩
  refine Leads.read rfl (fun z h2 G2 => ?_)
  obtain ⟨k, b, hjk, hb, hle, _⟩ := at_stored G2.sound.store ((hp.onward h1.onward).onward h2.onward)
  obtain ⟨sc, hsc, hof⟩ := leashScore_of G2.sound.store peer b.id hle
  have hw := G2.faithful.worth hb hof
  subst hw
  refine ⟨.ok (worth s0 ch k), by rw [← hwho] at hsc; exact hsc, (fun ⟨_, h⟩ => by cases h), ?_⟩
  simp only [hps]
  have hkl := (List.getElem?_eq_some_iff.mp hb).1
  by_cases hlast : k + 1 = ch.length
  · have hs : s = worth s0 ch k := by rw [hscore, ← hlast]; rfl
    have hno : (isLagging o.prevDiff s (worth s0 ch k)).2 = false := by
      unfold isLagging
      cases o.prevDiff <;> simp [hs]
    rw [if_neg (by rw [hno]; simp)]
    intro u h3 _
    refine .over _ rfl ?_
    have : At peer ch z (ch.length - 1) := ⟨k, b, by omega, hb, hle⟩
    exact Or.inl (this.onward h3.onward)
  · have hlt : worth s0 ch k < s := by rw [hscore]; exact worth_mono H (by omega) (by omega)
    by_cases hne : o.prevDiff = some ((s : Int) - worth s0 ch k)
    · have hd0 : d0 = some ((s : Int) - worth s0 ch k) := by
        rcases hd with ⟨h0, _⟩ | ⟨i, hi, _, h0⟩
        · rw [← h0]; exact hne
        · have := worth_mono (s0 := s0) H (show i < k by omega) hkl
          rw [h0] at hne
          have he : (s : Int) - worth s0 ch i = (s : Int) - worth s0 ch k := by simpa using hne
          omega
      have hno : (isLagging o.prevDiff s (worth s0 ch k)).2 = false := by
        unfold isLagging
        rw [hne]
        simp
      rw [if_neg (by rw [hno]; simp)]
      intro u h3 _
      refine .over _ rfl ?_
      have : At peer ch z k := ⟨k, b, Nat.le_refl _, hb, hle⟩
      exact Or.inr ⟨k, this.onward h3.onward, hd0⟩
    · have hyes : isLagging o.prevDiff s (worth s0 ch k) = ((s : Int) - worth s0 ch k, true) := by
        unfold isLagging
        cases hpd : o.prevDiff with
        | none => simp [hlt]
        | some d =>
          rw [hpd] at hne
          have : d ≠ (s : Int) - worth s0 ch k := fun e => hne (by rw [e])
          simp [hlt, this]
      rw [hyes]
      simp only [if_true]
      intro u h3 _
      have : At peer ch z k := ⟨k, b, Nat.le_refl _, hb, hle⟩
      exact .again _ k hjk (by omega) (this.onward h3.onward) rfl

/-- the result of a request for ids -/
structure AskedOn (ch : List ProtoBlock) (o : Own) (i : Nat) (r : Own × Go Unit) (x : Shared) : Prop where
  sent : ∃ m req k a t, r = ({ o with out := o.out ++ [m], obj := { o.obj with timestamp := t } }, .ok ()) ∧ AsksIDs m.to req m.msg ∧
    (∀ id, id ∈ req → Stored x.link.db id) ∧ i ≤ k ∧ ch[k]? = some a ∧ req.head? = some a.id

theorem leads_requestIDs (c : Ctx) {o : Own} {x : Shared} {i : Nat} (hwho : o.peerID = peer) (hcn : o.obj.peer.conn ≠ none) (hp : At peer ch x i) :
    Leads lib g peer s s0 ch 0 (AskedOn ch o i) (requestIDs c o) x := by
  refine Leads.read rfl (fun y h1 G1 => ?_)
  obtain ⟨k, a, hik, ha, hle, hst⟩ := at_stored G1.sound.store (hp.onward h1.onward)
  refine ⟨.ok a.id, by rw [hwho]; exact hle, (fun ⟨_, h⟩ => by cases h), ?_⟩
  refine Leads.read rfl (fun z h2 G2 => ?_)
  obtain ⟨ids, hi, hne, hw, hh, _⟩ := G2.sound.store.lastIDs (h2.later.stored _ hst)
  refine ⟨.ok ids, hi, (fun ⟨_, h⟩ => by cases h), ?_⟩
  obtain ⟨cn, hcn⟩ := Option.ne_none_iff_exists'.mp hcn
  have fin : ∀ m, AsksIDs cn ids m → Leads lib g peer s s0 ch 0 (AskedOn ch o i)
      (.ret ({ o with out := o.out ++ [⟨c.now, cn, m⟩], obj := { o.obj with timestamp := c.now } }, .ok ())) z := by
    intro m hm u h3 _
    exact ⟨⟨c.now, cn, m⟩, ids, k, a, c.now, rfl, hm, fun id hid => h3.later.stored _ (walk_stored G2.sound.store hw id hid), hik, ha, hh⟩
  simp only [requestBlockIDs, hcn, if_neg hne]
  by_cases hv : cn.handshake.version.lt protobufVersion = true
  · rw [if_pos hv]; exact fin (.getSignatures ids) ⟨rfl, hv⟩
  · rw [if_neg hv]; exact fin (.getBlockIds ids) ⟨rfl, by simpa [protobufVersion] using hv⟩

/-- the block up to which the position has come is stored -/
theorem at_reached {x : Shared} (G : Good lib g peer s s0 ch n x) {j : Nat} (hj : j < ch.length) (h : At peer ch x j) :
    ∃ b, ch[j]? = some b ∧ Stored x.link.db b.id := by
  obtain ⟨k, b, hjk, hb, _, hst⟩ := at_stored G.sound.store h
  have hcj : ch[j]? = some ch[j] := List.getElem?_eq_getElem hj
  exact ⟨_, hcj, G.faithful.below G.sound.store k b hb hst j _ hjk hcj⟩

/-- a batch that ends on block `j` is completed -/
theorem leads_completed (H : History ch) (hscore : s = worth s0 ch (ch.length - 1)) (c : Ctx) (n : Nat) {o : Own} {x : Shared} {more : List Sent} {j : Nat}
    (ha : o.active = true) (hs : o.obj.state = .waitingForBlocks) (hwho : o.peerID = peer) (hcn : o.obj.peer.conn ≠ none)
    (ht : o.obj.triggers = [.queueReady]) (hp : At peer ch x j) (hj : j < ch.length) (hd : Mark d0 s s0 ch o.prevDiff (asking more) j)
    (hre : ∃ b, ch[j]? = some b ∧ Stored x.link.db b.id) :
    Leads lib g peer s s0 ch 0 (Batch d0 peer s s0 ch o more j) (drain c (n + 2) o) x := by
  have hlast : 0 < ch.length := by omega
  have reach : ∀ {u : Shared}, Later x u → ∃ b, ch[j]? = some b ∧ Stored u.link.db b.id := by
    intro u hu
    obtain ⟨b, h1, h2⟩ := hre
    exact ⟨b, h1, hu.stored _ h2⟩
  have drained : ∀ m (o' : Own), o'.obj.triggers = [] → drain c m o' = .ret (o', .ok ()) := by
    intro m o' h
    cases m with
    | zero => rfl
    | succ m => rw [drain, h]
  rw [drain, ht]
  simp only [execute, hs, handler, onEntry]
  refine (leads_OK H hscore (o := { o with obj := { o.obj with triggers := [], state := .idle } }) (more := more) (j := j) ha rfl hwho hp hj hd).seq ?_
  intro r y h1 G1 D
  cases D with
  | over fc h hp' =>
    subst h
    simp only [andThen]
    rw [drained _ _ rfl]
    intro z h2 G2
    refine ⟨rfl, rfl, hwho, rfl, ⟨[], (List.append_nil _).symm, ?_, (fun h => by cases h)⟩, fun _ => rfl, ?_, reach (h1.trans h2.later)⟩
    rotate_left
    · intro out' h
      have : out' = [] := List.append_cancel_left (h.symm.trans (List.append_nil _).symm)
      rw [this]; rfl
    rw [List.append_nil]
    refine .released rfl (hp'.onward h2.onward) ?_ rfl
    rcases hd with ⟨_, h0⟩ | ⟨i, hi, hc, _⟩ <;> omega
  | again fc i hji hi hp' h =>
    subst h
    simp only [andThen]
    rw [drain]
    simp only [enqueue, List.nil_append, execute, handler, onEntry]
    refine (leads_requestIDs (i := i) c ?_ ?_ ?_).seq ?_
    · exact hwho
    · exact hcn
    · exact hp'
    · rintro r z h2 G2 ⟨m, req, k, a, t, rfl, hm, hreq, hik, hka, hh⟩
      simp only [andThen]
      rw [drained _ _ rfl]
      intro u h3 G3
      refine ⟨rfl, rfl, hwho, rfl, ⟨[m], rfl, ?_, (fun _ => ⟨rfl, by simp⟩)⟩, fun h => by omega, ?_, reach ((h1.trans h2).trans h3.later)⟩
      rotate_left
      · intro out' h
        have h : o.out ++ [m] = o.out ++ out' := h
        rw [← List.append_cancel_left h]
        obtain ⟨t, cn, m⟩ := m
        exact wanted_one hm
      refine .asking m req ⟨ha, rfl, by simp, hm, fun id hid => h3.later.stored _ (hreq id hid), Or.inr ⟨i, k, a, hik, hka, hi, hh, ?_, rfl⟩⟩
      have h1 : asking [m] = 1 := by
        obtain ⟨t, cn, m⟩ := m
        exact asking_one hm
      rw [asking_append, h1]
      rcases hd with ⟨_, h0⟩ | ⟨i0, hi0, hc, _⟩ <;> omega

theorem Batch.stageOf {o : Own} {more : List Sent} {j : Nat} {r : Own × Go Unit} {x : Shared} (h : Batch d0 peer s s0 ch o more j r x) :
    ∃ out', r.1.out = o.out ++ out' ∧ Stage d0 peer s s0 ch r.1 x (more ++ out') := by
  obtain ⟨out', h1, h2, _⟩ := h.stage
  exact ⟨out', h1, h2⟩

/-! ### a list of ids -/

/-- the result of the loop over the ids, which end with block `j`; the first block to request was not stored in the state `u` -/
def WalkedOn (peer : Addr) (ch : List ProtoBlock) (u : Shared) (j : Nat) (r : Go (List BlockID)) (x : Shared) : Prop :=
  ∃ req, r = .ok req ∧ (req = [] ∧ At peer ch x j ∨
    req ≠ [] ∧ ∃ k a, k < j ∧ ch[k]? = some a ∧ Stored x.link.db a.id ∧ req = (part ch (k + 1) j).map (·.id) ∧
      ∀ b, ch[k + 1]? = some b → ¬ Stored u.link.db b.id)

theorem leads_requestLoop {c : Ctx} (hf : ∀ m, c.fates m = .ok) (u : Shared) {j : Nat} (hj : j < ch.length) (d : Nat) :
    ∀ (b m : Nat) (x : Shared), Later u x → b + d = j + 1 →
      ((∃ k a, b = k + 1 ∧ ch[k]? = some a ∧ Stored x.link.db a.id) ∨ ∃ a, ch[b]? = some a ∧ Stored x.link.db a.id) →
      (d = 0 → At peer ch x j) →
      Leads lib g peer s s0 ch 0 (WalkedOn peer ch u j) (requestLoop c peer m ((part ch b j).map (·.id))) x := by
  induction d with
  | zero =>
    intro b m x _ hb _ h0
    rw [part_nil (by omega)]
    intro y h1 _
    exact ⟨[], rfl, Or.inl ⟨rfl, (h0 rfl).onward h1.onward⟩⟩
  | succ d ih =>
    intro b m x hu hb hprev _
    have hcb : ch[b]? = some ch[b] := List.getElem?_eq_getElem (by omega)
    have hc : part ch b j = ch[b] :: part ch (b + 1) j := part_cons (by omega) hcb
    rw [hc, List.map_cons, requestLoop]
    refine Leads.read rfl (fun y h1 G1 => ?_)
    by_cases hst : Stored y.link.db ch[b].id
    · refine ⟨.ok true, hst, (fun ⟨_, h⟩ => by cases h), ?_⟩
      refine Leads.read rfl (fun z h2 G2 => ?_)
      obtain ⟨leash, hl, _⟩ := G2.sound.store.leash peer
      refine ⟨.ok leash, hl, (fun ⟨_, h⟩ => by cases h), ?_⟩
      have hst2 := h2.later.stored _ hst
      by_cases hid : ch[b].id = leash
      · rw [← hid] at hl
        simp only [hid, ne_eq, not_true_eq_false, if_false]
        exact ih (b + 1) (m + 1) z ((hu.trans h1.later).trans h2.later) (by omega) (Or.inl ⟨b, _, rfl, hcb, hst2⟩) (fun _ => ⟨b, _, by omega, hcb, hl⟩)
      · simp only [ne_eq, hid, not_false_eq_true, if_true]
        refine Leads.move (hf m) hcb hst2 (fun v h3 G3 hp => ?_)
        exact ih (b + 1) (m + 1) v (((hu.trans h1.later).trans h2.later).trans h3) (by omega) (Or.inl ⟨b, _, rfl, hcb, h3.stored _ hst2⟩) (fun _ => hp.mono (by omega))
    · refine ⟨.ok false, (G1.sound.store.has _).resolve_left hst, (fun ⟨_, h⟩ => by cases h), ?_⟩
      intro z h2 _
      rcases hprev with ⟨k, a, rfl, hk, hka⟩ | ⟨a, ha, hs⟩
      · refine ⟨_, rfl, Or.inr ⟨by simp, k, a, by omega, hk, h2.later.stored _ (h1.later.stored _ hka), ?_, ?_⟩⟩
        · rw [hc]; rfl
        · intro b hb hbu
          rw [hcb] at hb; cases hb
          exact hst ((hu.trans h1.later).stored _ hbu)
      · rw [hcb] at ha; cases ha
        exact absurd (h1.later.stored _ hs) hst

/-- after a list of ids, which came in the state `u`: nothing to load, or blocks are awaited -/
inductive AfterIds (d0 : Option Int) (peer : Addr) (s s0 : Nat) (ch : List ProtoBlock) (u : Shared) (o : Own) (more : List Sent) (j : Nat) (r : Own × Go Unit) (x : Shared) : Prop where
  | known (h : Batch d0 peer s s0 ch o more j r x)
  | wanted (k : Nat) (a : ProtoBlock) (out' : List Sent) (hf : r.2 = .ok ()) (hq : r.1.obj.triggers = []) (hw : r.1.peerID = peer)
      (hc : r.1.obj.peer = o.obj.peer) (ho : r.1.out = o.out ++ out') (h : Expects d0 s s0 ch r.1 x (more ++ out') k a [] j)
      (hn : Loading.wanted out' = (part ch (k + 1) j).map (·.id)) (hm : ∀ b, ch[k + 1]? = some b → ¬ Stored u.link.db b.id)

theorem leads_ids (H : History ch) (hscore : s = worth s0 ch (ch.length - 1)) {c : Ctx} (hf : ∀ m, c.fates m = .ok) {o : Own} {x : Shared}
    {more : List Sent} (hq : o.obj.triggers = []) (hwho : o.peerID = peer) (hcn : o.obj.peer.conn ≠ none) {m : Sent} {req ids : List BlockID}
    (A : Asks d0 s s0 ch o x more m req) {pre post : List BlockID} {a : ProtoBlock} {i j : Nat} (hreq : req = pre ++ a.id :: post)
    (hpre : ∀ y, y ∈ pre → ∀ z, z ∈ ch → z.id ≠ y) (hi : ch[i]? = some a) (hij : i ≤ j) (hj : j < ch.length) (hgo : i + 1 < ch.length → i < j)
    (hids : ids = (part ch i j).map (·.id) ∨ i < j ∧ ids = (part ch (i + 1) j).map (·.id)) :
    Leads lib g peer s s0 ch 0 (AfterIds d0 peer s s0 ch x o more j) (fire c o (.ids ids)) x := by
  have hast : Stored x.link.db a.id := A.stored _ (by rw [hreq]; simp)
  have hmark : Mark d0 s s0 ch o.prevDiff (asking more) j := by
    rcases A.diff with ⟨h1, h2⟩ | ⟨i0, i', a0, h0, h1, h2, h3, h4, h5⟩
    · exact Or.inl ⟨h1, by rw [h2]; rfl⟩
    · have : pre = [] := by
        cases pre with
        | nil => rfl
        | cons x pre =>
          rw [hreq] at h3
          have hx : x = a0.id := by simpa using h3
          exact absurd hx.symm (hpre x List.mem_cons_self a0 (List.mem_of_getElem? h1))
      subst this
      rw [hreq] at h3
      have hx : a.id = a0.id := by simpa using h3
      have hii := H.index hi h1 hx
      subst hii
      refine Or.inr ⟨i0, ?_, h4, h5⟩
      by_cases hl : i + 1 < ch.length
      · have := hgo hl; omega
      · have := (List.getElem?_eq_some_iff.mp hi).1
        omega
  have hloop : Leads lib g peer s s0 ch 0 (WalkedOn peer ch x j) (requestLoop c peer 0 ids) x := by
    rcases hids with h | ⟨h1, h2⟩
    · subst h
      exact leads_requestLoop hf x hj (j + 1 - i) i 0 x (Later.refl x) (by omega) (Or.inr ⟨a, hi, hast⟩) (by omega)
    · subst h2
      exact leads_requestLoop hf x hj (j - i) (i + 1) 0 x (Later.refl x) (by omega) (Or.inl ⟨i, a, rfl, hi, hast⟩) (by omega)
  unfold fire
  have henq : (enqueue o (.ids ids)).obj.triggers = [.ids ids] := by show o.obj.triggers ++ _ = _; rw [hq]; rfl
  rw [drain, henq]
  have hst : (enqueue o (.ids ids)).obj.state = .waitingForIDs := A.state
  simp only [execute, hst, handler, onEntry, requestBlocks]
  have hl' : Leads lib g peer s s0 ch 0 (fun r y => (∃ k b out' cn, r = ({ o with out := o.out ++ out', obj := { o.obj with
        state := .waitingForBlocks, triggers := [], timestamp := c.now, queue := newQueue ((part ch (k + 1) j).map (·.id)) } }, (.ok () : Go Unit)) ∧
          k < j ∧ ch[k]? = some b ∧ Stored y.link.db b.id ∧ (∀ d, ch[k + 1]? = some d → ¬ Stored x.link.db d.id) ∧ o.obj.peer.conn = some cn ∧
          out' = ((part ch (k + 1) j).map (·.id)).map (fun id => (⟨c.now, cn, .getBlock id⟩ : Sent))) ∨
      (At peer ch y j ∧ r = ({ o with obj := { o.obj with state := .waitingForBlocks, triggers := [.queueReady] } }, .ok ())))
      (requestBlocks c { enqueue o (.ids ids) with obj := { (enqueue o (.ids ids)).obj with triggers := [], state := .waitingForBlocks } } ids) x := by
    unfold requestBlocks
    rw [show (Own.peerID { enqueue o (.ids ids) with obj := { (enqueue o (.ids ids)).obj with triggers := [], state := .waitingForBlocks } }) = peer
      from hwho]
    refine hloop.seq ?_
    rintro r y h1 G1 ⟨rq, rfl, ⟨rfl, hp⟩ | ⟨hne, k, b, hkj, hk, hbst, hrq, hmiss⟩⟩
    · intro z h2 _
      exact Or.inr ⟨hp.onward h2.onward, rfl⟩
    · obtain ⟨cn, hcn⟩ := Option.ne_none_iff_exists'.mp hcn
      cases rq with
      | nil => exact absurd rfl hne
      | cons id rq =>
        simp only
        rw [requestBlockEach_ok c (id :: rq) (by exact hcn)]
        intro z h2 _
        refine Or.inl ⟨k, b, _, cn, ?_, hkj, hk, h2.later.stored _ hbst, hmiss, hcn, rfl⟩
        rw [← hrq]; rfl
  refine hl'.seq ?_
  rintro r y h1 G1 (⟨k, b, out', cn, rfl, hkj, hk, hbst, hmiss, hcn', hout⟩ | ⟨hp, rfl⟩)
  · simp only [andThen]
    rw [drain]
    intro z h2 _
    refine .wanted k b out' rfl rfl hwho rfl rfl ⟨A.active, rfl, hkj, hj, hk, h2.later.stored _ hbst, rfl, ?_, (fun _ h => by cases h), ?_⟩ ?_ hmiss
    · refine new_not_ready ?_
      intro h
      rw [part_cons (i := k + 1) (by omega) (List.getElem?_eq_getElem (by omega))] at h
      cases h
    · rw [hout, asking_append, asking_blocks, Nat.add_zero]
      exact hmark
    · rw [hout, wanted_blocks]
  · simp only [andThen]
    refine (leads_completed (d0 := d0) H hscore c 0 (more := more) (j := j) ?_ rfl ?_ ?_ rfl hp hj ?_ (at_reached G1 hj hp)).mono ?_
    · exact A.active
    · exact hwho
    · exact hcn
    · exact hmark
    · intro r z _ B
      exact .known ⟨B.fine, B.quiet, B.who, B.conn, B.stage, B.last, B.modest, B.reached⟩

/-! ### a block -/

theorem leads_applyAll (H : History ch) {c : Ctx} (hf : ∀ m, c.fates m = .ok) {j : Nat} (hj : j < ch.length) (d : Nat) :
    ∀ (k m : Nat) (a : ProtoBlock) (q : List Item) (x : Shared), k + d = j → ch[k]? = some a → Stored x.link.db a.id →
      (d = 0 → At peer ch x j) → q.map (·.received) = (part ch (k + 1) j).map some →
      Leads lib g peer s s0 ch d (fun r y => r = .ok () ∧ At peer ch y j) (applyAll c peer m q) x := by
  induction d with
  | zero =>
    intro k m a q x hk _ _ h0 hq
    rw [part_nil (by omega)] at hq
    have : q = [] := by simpa using hq
    subst this
    intro y h1 _
    exact ⟨rfl, (h0 rfl).onward h1.onward⟩
  | succ d ih =>
    intro k m a q x hk hka hst _ hq
    have hcb : ch[k + 1]? = some ch[k + 1] := List.getElem?_eq_getElem (by omega)
    rw [part_cons (by omega) hcb, List.map_cons] at hq
    cases q with
    | nil => cases hq
    | cons it q =>
      obtain ⟨h1, h2⟩ := List.cons.inj hq
      have h1 : it.received = some ch[k + 1] := h1
      rw [applyAll, h1]
      simp only
      refine Leads.put H (hf _) (hf _) hka hcb hst (fun y hl G hsb hp => ?_)
      exact ih (k + 1) (m + 1) _ q y (by omega) hcb hsb (fun _ => hp.mono (by omega)) h2

/-- after a block: the batch is complete, or the loader goes on waiting -/
inductive AfterBlock (d0 : Option Int) (peer : Addr) (s s0 : Nat) (ch : List ProtoBlock) (o : Own) (more : List Sent) (j : Nat) (b : Option ProtoBlock) (r : Own × Go Unit)
    (x : Shared) : Prop where
  | complete (hr : ready (putOpt o.obj.queue b) = true) (h : Batch d0 peer s s0 ch o more j r x)
  | waiting (hr : ready (putOpt o.obj.queue b) = false) (h : r = ({ o with obj := { o.obj with queue := putOpt o.obj.queue b } }, .ok ()))

theorem Expects.put {o : Own} {x : Shared} {more : List Sent} {k j : Nat} {a : ProtoBlock} {arrived : List ProtoBlock}
    (h : Expects d0 s s0 ch o x more k a arrived j) (b : Option ProtoBlock) (hb : ∀ y, b = some y → Genuine ch y) :
    putOpt o.obj.queue b = (arrived ++ b.toList).foldl Loading.put (newQueue ((part ch (k + 1) j).map (·.id))) ∧
      (∀ y, y ∈ arrived ++ b.toList → Genuine ch y) ∧
      (ready (putOpt o.obj.queue b) = false →
        Expects d0 s s0 ch { o with obj := { o.obj with queue := putOpt o.obj.queue b } } x more k a (arrived ++ b.toList) j) := by
  have hq' : putOpt o.obj.queue b = (arrived ++ b.toList).foldl Loading.put (newQueue ((part ch (k + 1) j).map (·.id))) := by
    cases b with
    | none => rw [Option.toList_none, List.append_nil]; exact h.queue
    | some y => rw [Option.toList_some, List.foldl_append, ← h.queue]; rfl
  have hg' : ∀ y, y ∈ arrived ++ b.toList → Genuine ch y := by
    intro y hy
    rcases List.mem_append.mp hy with h' | h'
    · exact h.genuine y h'
    · cases b with
      | none => cases h'
      | some z =>
        have : y = z := by simpa using h'
        exact hb y (by rw [this])
  exact ⟨hq', hg', fun hr => ⟨h.active, h.state, h.lt, h.last, h.here, h.stored, hq', hr, hg', h.mark⟩⟩

theorem leads_block (H : History ch) (hscore : s = worth s0 ch (ch.length - 1)) {c : Ctx} (hf : ∀ m, c.fates m = .ok) {o : Own} {x : Shared}
    {more : List Sent} (hq : o.obj.triggers = []) (hwho : o.peerID = peer) (hcn : o.obj.peer.conn ≠ none) {k j : Nat} {a : ProtoBlock}
    {arrived : List ProtoBlock} (E : Expects d0 s s0 ch o x more k a arrived j) (b : Option ProtoBlock) (hb : ∀ y, b = some y → Genuine ch y) :
    Leads lib g peer s s0 ch (if ready (putOpt o.obj.queue b) = true then j - k else 0) (AfterBlock d0 peer s s0 ch o more j b) (fire c o (.block b)) x := by
  obtain ⟨hq', hg', hwait⟩ := E.put b hb
  unfold fire
  have henq : (enqueue o (.block b)).obj.triggers = [.block b] := by show o.obj.triggers ++ _ = _; rw [hq]; rfl
  rw [drain, henq]
  have hst : (enqueue o (.block b)).obj.state = .waitingForBlocks := E.state
  simp only [execute, hst, handler, onInternal, appendBlock]
  have hqq : putOpt (enqueue o (.block b)).obj.queue b = putOpt o.obj.queue b := rfl
  rw [hqq]
  by_cases hr : ready (putOpt o.obj.queue b) = true
  · rw [if_pos hr, if_pos hr]
    have hall : Leads lib g peer s s0 ch (j - k) (fun r y => r = .ok () ∧ At peer ch y j) (applyAll c o.peerID 0 (putOpt o.obj.queue b)) x := by
      rw [hwho]
      refine leads_applyAll H hf E.last (j - k) k 0 a _ x (by have := E.lt; omega) E.here E.stored (by have := E.lt; omega) ?_
      rw [hq'] at hr ⊢
      exact answer_queue (part_nodup H _ _) (arrived_all H hg' hr)
    refine Leads.seq (Q := fun r y => At peer ch y j ∧
      r = ({ o with obj := { o.obj with state := .waitingForBlocks, queue := putOpt o.obj.queue b, triggers := [.queueReady] } }, .ok ())) ?_ ?_
    · refine hall.seq ?_
      rintro r y h1 _ ⟨rfl, hp⟩
      intro z h2 _
      exact ⟨hp.onward h2.onward, rfl⟩
    · rintro r y h1 G1 ⟨hp, rfl⟩
      simp only [andThen]
      refine (leads_completed (d0 := d0) H hscore c 0 (more := more) (j := j) ?_ ?_ ?_ ?_ rfl hp E.last ?_ (at_reached G1 E.last hp)).mono ?_
      · exact E.active
      · rfl
      · exact hwho
      · exact hcn
      · exact E.mark
      · intro r z _ B
        exact .complete hr ⟨B.fine, B.quiet, B.who, B.conn, B.stage, B.last, B.modest, B.reached⟩
  · rw [if_neg hr, if_neg hr]
    intro y h1 _
    refine .waiting (by simpa using hr) ?_
    show (({ o with obj := { o.obj with state := .waitingForBlocks, queue := putOpt o.obj.queue b, triggers := [] } } : Own), (.ok () : Go Unit)) = _
    rw [← hq, ← E.state]

/-! ### events -/

theorem fire_ignored (c : Ctx) (o : Own) (t : Trigger) (hq : o.obj.triggers = []) (h : handler o.obj.state t = some .ignored) :
    fire c o t = .ret (o, .ok ()) := by
  unfold fire
  have henq : (enqueue o t).obj.triggers = [t] := by show o.obj.triggers ++ _ = _; rw [hq]; rfl
  have hst : (enqueue o t).obj.state = o.obj.state := rfl
  rw [drain, henq]
  simp only [execute, hst, h]
  show drain c 2 { enqueue o t with obj := { (enqueue o t).obj with triggers := [] } } = _
  rw [drain]
  show Proc.ret (({ o with obj := { o.obj with triggers := [] } } : Own), (.ok () : Go Unit)) = _
  rw [← hq]

theorem fire_calm_tick (c : Ctx) (o : Own) (t : Int) (hq : o.obj.triggers = []) (hw : o.obj.state = .waitingForIDs ∨ o.obj.state = .waitingForBlocks)
    (ht : t - o.obj.timestamp ≤ 30 * second) : fire c o (.tick t) = .ret (o, .ok ()) := by
  unfold fire
  have henq : (enqueue o (.tick t)).obj.triggers = [.tick t] := by show o.obj.triggers ++ _ = _; rw [hq]; rfl
  have hst : (enqueue o (.tick t)).obj.state = o.obj.state := rfl
  rw [drain, henq]
  have hno : ¬ (t - o.obj.timestamp > timeoutDuration) := by unfold timeoutDuration; exact Int.not_lt.mpr ht
  have he : execute c { enqueue o (.tick t) with obj := { (enqueue o (.tick t)).obj with triggers := [] } } (.tick t) = .ret (o, .ok ()) := by
    have : ({ enqueue o (.tick t) with obj := { (enqueue o (.tick t)).obj with triggers := [] } } : Own) = o := by
      show ({ o with obj := { o.obj with triggers := [] } } : Own) = o
      rw [← hq]
    rw [this]
    unfold execute
    rcases hw with h | h <;> rw [h] <;> simp only [handler, onInternal, onTick, if_neg hno]
  simp only [he]
  show drain c 2 o = _
  rw [drain, hq]

/-- what is known when an event has been handled -/
def Handled (d0 : Option Int) (peer : Addr) (s s0 : Nat) (ch : List ProtoBlock) (o : Own) (more : List Sent) (r : Go Own) (x : Shared) : Prop :=
  ∃ o' out', r = .ok o' ∧ o'.peerID = peer ∧ o'.out = o.out ++ out' ∧ Stage d0 peer s s0 ch o' x (more ++ out')

theorem AfterIds.handled {o : Own} {more : List Sent} {j : Nat} {r : Own × Go Unit} {u x : Shared} (h : AfterIds d0 peer s s0 ch u o more j r x) :
    Handled d0 peer s s0 ch o more (logged r) x := by
  cases h with
  | known B =>
    obtain ⟨out', h1, h2⟩ := B.stageOf
    exact ⟨r.1, out', logged_alive (by rw [B.fine]; exact ok_alive), B.who, h1, h2⟩
  | wanted k a out' hf _ hw _ ho E => exact ⟨r.1, out', logged_alive (by rw [hf]; exact ok_alive), hw, ho, .loading k a [] j E⟩

theorem leads_handle (H : History ch) (hscore : s = worth s0 ch (ch.length - 1)) {o : Own} {x : Shared} {more : List Sent} (ha : o.active = true)
    (hq : o.obj.triggers = []) (hwho : o.peerID = peer) (hcn : o.obj.peer.conn ≠ none) (P : Stage d0 peer s s0 ch o x more) (c : Ctx) (i : Input)
    (hh : Honest peer s s0 ch (o.on x) ⟨c, i.event⟩) : Leads lib g peer s s0 ch ch.length (Handled d0 peer s s0 ch o more) (handle c o i) x := by
  have same : Leads lib g peer s s0 ch ch.length (Handled d0 peer s s0 ch o more) (.ret (.ok o)) x :=
    fun y h1 _ => ⟨o, [], rfl, hwho, (List.append_nil _).symm, by rw [List.append_nil]; exact P.between h1⟩
  have done : ∀ {t}, fire c o t = .ret (o, .ok ()) →
      Leads lib g peer s s0 ch ch.length (Handled d0 peer s s0 ch o more) ((fire c o t).bind (fun r => .ret (logged r))) x := by
    intro t ht
    rw [ht]; exact same
  have hna : ¬ o.active = false := by rw [ha]; simp
  cases i with
  | timer => simp only [handle, sync, ha, if_true]; exact same
  | tick =>
    simp only [handle, tick, ha, if_true]
    refine done (fire_calm_tick c o _ hq ?_ (hh.tick rfl))
    cases P with
    | asking m req A => exact Or.inl A.state
    | loading k a arrived j E => exact Or.inr E.state
    | released ha' => rw [ha] at ha'; cases ha'
  | ids p ids =>
    simp only [handle, handleIDs, if_neg hna]
    by_cases hne : ids = []
    · rw [if_pos hne]; exact same
    rw [if_neg hne]
    by_cases hp : p = o.peerID
    · subst hp
      rw [if_neg (by simp)]
      rw [hwho] at hh
      by_cases hs : o.obj.state = .waitingForIDs
      · obtain ⟨hf, hfo⟩ := hh.ids ids rfl hs hne
        cases P with
        | asking m req A =>
          obtain ⟨pre, a, post, i, j, hreq, hpre, hi, hij, hj, hgo, hids⟩ := hfo m req A.sent A.asks
          refine ((leads_ids H hscore hf hq hwho hcn A hreq hpre hi hij hj hgo hids).seq ?_).room (Nat.zero_le _)
          intro r y h1 G1 h z h2 _
          obtain ⟨o', out', e1, e2, e3, e4⟩ := h.handled
          exact ⟨o', out', e1, e2, e3, e4.between h2⟩
        | loading k a arrived j E =>
          have := E.state
          rw [hs] at this; cases this
        | released ha' => rw [ha] at ha'; cases ha'
      · refine done (fire_ignored c o _ hq ?_)
        cases hs' : o.obj.state with
        | waitingForIDs => exact absurd hs' hs
        | _ => rfl
    · rw [if_pos hp]; exact same
  | block p b =>
    simp only [handle, handleBlock, if_neg hna]
    by_cases hp : p = o.peerID
    · subst hp
      rw [if_neg (by simp)]
      rw [hwho] at hh
      by_cases hs : o.obj.state = .waitingForBlocks
      · obtain ⟨hf, hb⟩ := hh.block b rfl
        cases P with
        | asking m req A =>
          have := A.state
          rw [hs] at this; cases this
        | loading k a arrived j E =>
          refine ((leads_block H hscore hf hq hwho hcn E b hb).seq ?_).room (by have := E.last; split <;> omega)
          intro r y h1 G1 h z h2 _
          cases h with
          | complete _ B =>
            obtain ⟨out', e1, e2⟩ := B.stageOf
            exact ⟨r.1, out', logged_alive (by rw [B.fine]; exact ok_alive), B.who, e1, e2.between h2⟩
          | waiting hr h =>
            subst h
            refine ⟨_, [], rfl, hwho, (List.append_nil _).symm, ?_⟩
            rw [List.append_nil]
            exact .loading k a _ j (((E.put b hb).2.2 hr).later (h1.trans h2.later))
        | released ha' => rw [ha] at ha'; cases ha'
      · refine done (fire_ignored c o _ hq ?_)
        cases hs' : o.obj.state with
        | waitingForBlocks => exact absurd hs' hs
        | _ => rfl
    · rw [if_pos hp]; exact same

end Verif.Loading.Fine
