import Verif.Loading.Honest
import Verif.Loading.Outcomes
import Verif.Chains.Origin
/-
Lemmas for property C89.
-/

set_option autoImplicit false

namespace Verif.Chains
open Verif KV Spec
variable {ns : List Node} {hs : List Nat}

/-- a record after `PutBlock`, with its score -/
theorem Rep.put_record {l : Linkage} (R : Rep l.db ns hs) (hb : ns.length + 1 < 2 ^ 32) (b : ProtoBlock) (a : Addr) (f1 f2 : Fate)
    {id : BlockID} {r : BlockRec} (h : Chains.getBlockByID (PutBlock f1 f2 l.db b a).1 id = .ok r) :
    Chains.getBlockByID l.db id = .ok r ∨ (id = b.id ∧ r.parent = b.parent.1 ∧ ∃ r0 sc, Chains.getBlockByID l.db b.parent = .ok r0 ∧
      calculateScore b.baseTarget = .ok sc ∧ r.score = sc + r0.score) := by
  cases hn : numOf ns b.id with
  | some n => rw [R.PutBlock_known hn] at h; exact Or.inl (R.record_leash f1 a b.id h)
  | none =>
    cases hp : numOf ns b.parent with
    | none => rw [R.PutBlock_orphan hn hp] at h; exact Or.inl h
    | some p =>
      obtain ⟨y, hy, _⟩ := numOf_some hp
      rw [R.PutBlock_new hb hn hp hy] at h
      cases hg : b.generator with
      | none => rw [hg] at h; exact Or.inl h
      | some ga =>
        rw [hg] at h
        simp only at h
        cases hc : calculateScore b.baseTarget with
        | error e => rw [hc] at h; exact Or.inl h
        | ok sc =>
          rw [hc] at h
          rcases R.record_insert f1 f2 hb (R.newOK_block hb hn hp hy) rfl a h with h | ⟨rfl, rfl⟩
          · exact Or.inl h
          · exact Or.inr ⟨rfl, rfl, y.br, sc, R.getBlockByID_some hp hy, rfl, rfl⟩

/-- a record after `PutMicroBlock` -/
theorem Rep.micro_record {l : Linkage} (R : Rep l.db ns hs) (hb : ns.length + 1 < 2 ^ 32) (b : MicroInv) (a : Addr) (f1 f2 : Fate)
    {id : BlockID} {r : BlockRec} (h : Chains.getBlockByID (PutMicroBlock f1 f2 l.db b a).1 id = .ok r) :
    Chains.getBlockByID l.db id = .ok r ∨ (id = b.totalBlockID ∧ ¬ Stored l.db id ∧
      ∃ r0, Chains.getBlockByID l.db b.reference = .ok r0 ∧ r0.parent ≠ [] ∧ r = { r0 with id := b.totalBlockID.1 }) := by
  cases hn : numOf ns b.totalBlockID with
  | some n => rw [R.PutMicro_known hn] at h; exact Or.inl (R.record_leash f1 a b.totalBlockID h)
  | none =>
    cases hp : numOf ns b.reference with
    | none => rw [R.PutMicro_orphan hn hp] at h; exact Or.inl h
    | some p =>
      obtain ⟨y, hy, _⟩ := numOf_some hp
      rw [R.PutMicro_new hn hp hy] at h
      by_cases h1 : p = 1
      · rw [if_pos h1] at h; exact Or.inl h
      · rw [if_neg h1] at h
        rcases R.record_insert f1 f2 hb (R.newOK_micro hn hy h1) rfl a h with h | ⟨rfl, rfl⟩
        · exact Or.inl h
        · refine Or.inr ⟨rfl, ?_, y.br, R.getBlockByID_some hp hy, ?_, rfl⟩
          · rw [R.stored_iff, hn]
            rintro ⟨n, hn'⟩
            cases hn'
          · obtain ⟨q, hq, _, _, hpar, _⟩ := R.tree.node p y hy h1
            intro he
            rw [he] at hpar
            rcases R.tree.idlen _ q hq with h | h <;> (rw [← hpar] at h; cases h)

end Verif.Chains

namespace Verif.Loading

open Verif
open Verif.Chains (Addr BlockID ProtoBlock MicroInv Linkage LeashOf BlockRec getBlockByID PutBlock)
open Verif.Chains.Spec (Stored SameTree ScoreOf blockScore IsWalk)
open Verif.Peers (Registry Lib Conn second)
open Verif.KV (Fate)

variable {lib : Lib} {g : ProtoBlock} {n : Nat} {s s0 : Nat} {ch : List ProtoBlock} {peer : Addr}

/-! ### parts of a history -/

theorem part_get {i j t : Nat} (h : i + t ≤ j) : (part ch i j)[t]? = ch[i + t]? := by
  unfold part
  rw [List.getElem?_drop, List.getElem?_take, if_pos (by omega)]

theorem part_get_none {i j t : Nat} (h : j < i + t) : (part ch i j)[t]? = none := by
  unfold part
  rw [List.getElem?_drop, List.getElem?_take, if_neg (by omega)]

theorem part_length {i j : Nat} (hj : j < ch.length) : (part ch i j).length = j + 1 - i := by
  unfold part
  rw [List.length_drop, List.length_take]; omega

theorem part_mem {i j : Nat} {b : ProtoBlock} (h : b ∈ part ch i j) : ∃ k, i ≤ k ∧ k ≤ j ∧ ch[k]? = some b := by
  obtain ⟨t, ht⟩ := List.getElem?_of_mem h
  by_cases hle : i + t ≤ j
  · exact ⟨i + t, by omega, hle, by rw [← part_get hle]; exact ht⟩
  · rw [part_get_none (by omega)] at ht; cases ht

theorem part_sub {i j : Nat} {b : ProtoBlock} (h : b ∈ part ch i j) : b ∈ ch := by
  obtain ⟨k, _, _, hk⟩ := part_mem h
  exact List.mem_of_getElem? hk

theorem part_cons {i j : Nat} (hij : i ≤ j) {b : ProtoBlock} (hb : ch[i]? = some b) : part ch i j = b :: part ch (i + 1) j := by
  have hl : i < (ch.take (j + 1)).length := by
    have := (List.getElem?_eq_some_iff.mp hb).1
    rw [List.length_take]; omega
  unfold part
  rw [List.drop_eq_getElem_cons hl]
  congr 1
  have h1 : (ch.take (j + 1))[i]? = some b := by rw [List.getElem?_take, if_pos (by omega)]; exact hb
  exact (List.getElem?_eq_some_iff.mp h1).2

theorem part_nil {i j : Nat} (h : j < i) : part ch i j = [] := by
  unfold part
  rw [List.drop_eq_nil_iff, List.length_take]; omega

theorem part_drop {i j t : Nat} : (part ch i j).drop t = part ch (i + t) j := by
  unfold part; rw [List.drop_drop]

theorem part_last {i j : Nat} (hij : i ≤ j) {b : ProtoBlock} (hb : ch[j]? = some b) : (part ch i j).getLast? = some b := by
  have hj := (List.getElem?_eq_some_iff.mp hb).1
  rw [List.getLast?_eq_getElem?, part_length hj]
  rw [part_get (by omega)]
  rw [show i + (j + 1 - i - 1) = j by omega]; exact hb

theorem part_nodup (H : History ch) (i j : Nat) : ((part ch i j).map (·.id)).Nodup := by
  unfold part
  rw [List.map_drop, List.map_take]
  exact ((H.ids.sublist (List.take_sublist ..)).sublist (List.drop_sublist ..))

theorem History.index (H : History ch) {i j : Nat} {a b : ProtoBlock} (ha : ch[i]? = some a) (hb : ch[j]? = some b)
    (h : a.id = b.id) : i = j := by
  obtain ⟨hi, rfl⟩ := List.getElem?_eq_some_iff.mp ha
  obtain ⟨hj, rfl⟩ := List.getElem?_eq_some_iff.mp hb
  have hp := List.pairwise_iff_getElem.mp H.ids
  rcases Nat.lt_trichotomy i j with hlt | he | hlt
  · exact absurd (by rw [List.getElem_map, List.getElem_map]; exact h) (hp i j (by simpa using hi) (by simpa using hj) hlt)
  · exact he
  · exact absurd (by rw [List.getElem_map, List.getElem_map]; exact h.symm) (hp j i (by simpa using hj) (by simpa using hi) hlt)

theorem worth_lt (H : History ch) {i : Nat} (h : i + 1 < ch.length) : worth s0 ch i < worth s0 ch (i + 1) := by
  have hb : ch[i + 1]? = some ch[i + 1] := List.getElem?_eq_getElem h
  obtain ⟨_, h1, h2⟩ := H.sound i _ hb
  rw [worth, hb]
  simp only [blockScore]
  rw [if_neg (by omega)]
  have : 0 < 2 ^ 64 / ch[i + 1].baseTarget.toNat := Nat.div_pos (by omega) h1
  omega

theorem worth_mono (H : History ch) {i j : Nat} (hij : i < j) (h : j < ch.length) : worth s0 ch i < worth s0 ch j := by
  induction j with
  | zero => omega
  | succ j ih =>
    have h1 := worth_lt (s0 := s0) H (i := j) h
    by_cases he : i = j
    · rw [he]; exact h1
    · exact Nat.lt_trans (ih (by omega) (by omega)) h1

/-- `PutBlock` accepts a part of the history when the block before it is stored -/
theorem chained_part (H : History ch) (d : Nat) : ∀ (k : Nat) (S : BlockID → Prop) (a : ProtoBlock), ch[k]? = some a → S a.id →
    Chained S (part ch (k + 1) (k + d)) := by
  induction d with
  | zero => intro k S a _ _; rw [part_nil (by omega)]; trivial
  | succ d ih =>
    intro k S a ha hS
    cases hb : ch[k + 1]? with
    | none =>
      have : part ch (k + 1) (k + (d + 1)) = [] := by
        unfold part
        rw [List.drop_eq_nil_iff, List.length_take]
        have := List.getElem?_eq_none_iff.mp hb
        omega
      rw [this]; trivial
    | some b =>
      rw [part_cons (by omega) hb]
      obtain ⟨h1, _, h3⟩ := H.sound k b hb
      refine ⟨h1, h3, Or.inr (by rw [H.linked k a b ha hb]; exact hS), ?_⟩
      have := ih (k + 1) (fun i => S i ∨ i = b.id) b hb (Or.inr rfl)
      rwa [show k + 1 + d = k + (d + 1) by omega] at this

/-! ### the store stays faithful -/

theorem stored_record {lk : Linkage} (S : Serving g n lk) {id : BlockID} {r : BlockRec} (h : getBlockByID lk.db id = .ok r) :
    Stored lk.db id := by
  obtain ⟨ns, hs, R, _⟩ := Chains.reachable_rep S.reachable
  rw [R.getBlockByID] at h
  cases hn : Chains.numOf ns id with
  | none => rw [hn] at h; cases h
  | some k => exact R.stored_iff.mpr ⟨k, hn⟩

theorem Faithful.worth {db : Chains.DB} (F : Faithful s0 ch db) {i : Nat} {b : ProtoBlock} {sc : Nat} (hb : ch[i]? = some b)
    (h : ScoreOf db b.id sc) : sc = Loading.worth s0 ch i := by
  obtain ⟨r, hr, rfl⟩ := h
  exact (F.fits i b r hb hr).1

theorem Faithful.same {db db' : Chains.DB} (F : Faithful s0 ch db) (T : SameTree db db') : Faithful s0 ch db' where
  first := fun a ha => (sameTree_stored T a.id).mpr (F.first a ha)
  fits := fun i b r hb hr => F.fits i b r hb (by rw [← T.record]; exact hr)

theorem Faithful.put {lk : Linkage} (H : History ch) (F : Faithful s0 ch lk.db) (S : Serving g (n + 1) lk) (x : ProtoBlock) (a : Addr)
    (f1 f2 : Fate) (hx : Genuine ch x) : Faithful s0 ch (PutBlock f1 f2 lk.db x a).1 where
  first := fun y hy => put_kept S x a f1 f2 _ (F.first y hy)
  fits := by
    intro i b r hb hr
    obtain ⟨ns, hs, R, hlen⟩ := Chains.reachable_rep S.reachable
    rcases R.put_record hlen x a f1 f2 hr with h | ⟨he, hp, r0, sc, h0, hsc, hscore⟩
    · exact F.fits i b r hb h
    · have := hx b (List.mem_of_getElem? hb) he
      subst this
      cases i with
      | zero =>
        obtain ⟨r', hr'⟩ := S.record x.id (F.first x hb)
        have hk := (S.put x a f1 f2)
        obtain ⟨ns', hs', R', hpre, _⟩ := R.exec (l := lk) [.putBlock x a f1 f2] (by simpa [Chains.Spec.inserts] using hlen)
        have : getBlockByID (PutBlock f1 f2 lk.db x a).1 x.id = .ok r' := R.record_kept R' hpre hr'
        rw [hr] at this; cases this
        exact F.fits 0 x r hb hr'
      | succ i =>
        have hlt := (List.getElem?_eq_some_iff.mp hb).1
        have hy : ch[i]? = some ch[i] := List.getElem?_eq_getElem (by omega)
        have hpar := H.linked i _ _ hy hb
        obtain ⟨_, _, hbt⟩ := H.sound i x hb
        rw [Chains.calculateScore_eq hbt] at hsc
        cases hsc
        rw [hpar] at h0 hp
        refine ⟨?_, ?_⟩
        · rw [hscore, (F.fits i _ r0 hy h0).1, Loading.worth, hb]
          simp only; omega
        · intro k y hk hky
          have : k = i := by omega
          subst this
          rw [hy] at hky; cases hky
          exact hp

theorem Faithful.micro {lk : Linkage} (F : Faithful s0 ch lk.db) (S : Serving g (n + 1) lk) (inv : MicroInv) (a : Addr)
    (f1 f2 : Fate) (hx : GenuineMicro s0 ch lk.db inv) : Faithful s0 ch (Chains.PutMicroBlock f1 f2 lk.db inv a).1 where
  first := fun y hy => micro_kept S inv a f1 f2 _ (F.first y hy)
  fits := by
    intro i b r hb hr
    obtain ⟨ns, hs, R, hlen⟩ := Chains.reachable_rep S.reachable
    rcases R.micro_record hlen inv a f1 f2 hr with h | ⟨hid, hst, r0, h0, hne, rfl⟩
    · exact F.fits i b r hb h
    · exact hx i b r0 hb hid.symm hst h0 hne

theorem Faithful.puts (H : History ch) (bs : List ProtoBlock) : ∀ {lk : Linkage}, Faithful s0 ch lk.db →
    Serving g (n + bs.length) lk → (∀ b, b ∈ bs → Genuine ch b) →
    Faithful s0 ch (Chains.Spec.exec lk (bs.map (putOp peer))).db := by
  induction bs with
  | nil => intro lk F _ _; exact F
  | cons b bs ih =>
    intro lk F S hg
    have S : Serving g (n + bs.length + 1) lk := S
    exact ih (F.put H S b peer .ok .ok (hg b List.mem_cons_self)) (S.put b peer .ok .ok)
      (fun x hx => hg x (List.mem_cons_of_mem _ hx))

/-- with a block of the history all blocks before it are stored -/
theorem Faithful.below {lk : Linkage} (F : Faithful s0 ch lk.db) (S : Serving g n lk) (j : Nat) :
    ∀ b, ch[j]? = some b → Stored lk.db b.id → ∀ i a, i ≤ j → ch[i]? = some a → Stored lk.db a.id := by
  induction j with
  | zero =>
    intro b hb hst i a hi ha
    have : i = 0 := by omega
    subst this
    rw [hb] at ha; cases ha; exact hst
  | succ j ih =>
    intro b hb hst i a hi ha
    have hlt := (List.getElem?_eq_some_iff.mp hb).1
    have hy : ch[j]? = some ch[j] := List.getElem?_eq_getElem (by omega)
    by_cases he : i = j + 1
    · subst he; rw [hb] at ha; cases ha; exact hst
    · obtain ⟨r, hr⟩ := S.record b.id hst
      have hp := (F.fits (j + 1) b r hb hr).2 j _ rfl hy
      obtain ⟨ns, hs, R, _⟩ := Chains.reachable_rep S.reachable
      obtain ⟨_, rp, _, hrp, _, _⟩ := Chains.parent_height_score R (p := ch[j].id) (c := b.id) ⟨r, hr, hp⟩
      exact ih _ hy (stored_record S hrp) i a (by omega) ha

theorem Faithful.bottom {db : Chains.DB} (F : Faithful s0 ch db) (h : 0 < ch.length) : ∃ a, ch[0]? = some a ∧ Stored db a.id :=
  ⟨_, List.getElem?_eq_getElem h, F.first _ (List.getElem?_eq_getElem h)⟩

theorem Genuine.of_mem (H : History ch) {b : ProtoBlock} (hb : b ∈ ch) : Genuine ch b := by
  intro y hy he
  obtain ⟨i, hi⟩ := List.getElem?_of_mem hb
  obtain ⟨j, hj⟩ := List.getElem?_of_mem hy
  have := H.index hj hi he
  subst this
  rw [hi] at hj; cases hj; rfl

/-! ### the announced score -/

theorem announced_step {r : Registry} {e : Peers.Event} (I : Peers.Inv r) (hs : Scored r peer) (h : Announced r peer s)
    (he : ∀ f s', e.op = .updateScore f peer s' → s' = s) : Announced (Peers.step lib r e) peer s := by
  obtain ⟨b, v, s1, rfl, hv, hs1⟩ := hs
  obtain ⟨p, hp, hps⟩ := h
  obtain ⟨v0, hv0, rfl⟩ := I.peerOf.mp hp
  rw [hv] at hv0; cases hv0
  have hs : v.score = some s := hps
  have hon : Peers.onFile r (.v4 b) = v.toPeer (.v4 b) := by rw [Peers.onFile_v4 I.good, hv]
  suffices ∃ v', Peers.view (Peers.step lib r e).db b = some v' ∧ v'.score = some s by
    obtain ⟨v', h1, h2⟩ := this
    exact ⟨_, I.step.peerOf.mpr ⟨v', h1, rfl⟩, h2⟩
  rcases Peers.step_view (lib := lib) (e := e) I.good b with h | ⟨v', h, w⟩
  · exact ⟨v, h.trans hv, hs⟩
  · refine ⟨v', h, ?_⟩
    have old' : ∀ v0, Peers.view r.db b = some v0 → v0 = v := by intro v0 h0; rw [hv] at h0; cases h0; rfl
    cases w with
    | connected f np hh op acc name applied eq =>
      subst eq
      simp only [Peers.acceptedPeer, Peers.Peer.toValue, hon, Peers.Value.toPeer, hs]
    | shut f np hh op rej v0 old name eq => cases old' v0 old; subst eq; exact hs
    | left f op v0 old eq => cases old' v0 old; subst eq; exact hs
    | marked f op name eq =>
      subst eq
      simp only [Peers.Peer.toValue, hon, Peers.Value.toPeer, hs]
    | scored f s' op v0 old eq => subst eq; rw [he f s' op]
    | first f op old ver best eq => rw [hv] at old; cases old
    | again f op v0 old state ver next eq => cases old' v0 old; subst eq; exact hs
    | added fs l op old port acc mem eq => rw [hv] at old; cases old

/-! ### the phases of a session -/

/-- how many of the messages ask for ids -/
def asking (out : List Sent) : Nat := out.countP (fun m => asksIDs m.msg)

theorem asking_append (a b : List Sent) : asking (a ++ b) = asking a + asking b := List.countP_append

theorem asking_blocks (t : Int) (cn : Conn) (ids : List BlockID) :
    asking (ids.map (fun id => (⟨t, cn, .getBlock id⟩ : Sent))) = 0 := by
  unfold asking
  rw [List.countP_eq_zero]
  intro m hm
  obtain ⟨id, _, rfl⟩ := List.mem_map.mp hm
  simp [asksIDs]

theorem asking_one {t : Int} {cn : Conn} {ids : List BlockID} {m : Msg} (h : AsksIDs cn ids m) : asking [⟨t, cn, m⟩] = 1 := by
  cases m with
  | getBlock id => cases h
  | _ => rfl

theorem asks_unique {cn : Conn} {ids ids' : List BlockID} {m : Msg} (h : AsksIDs cn ids m) (h' : AsksIDs cn ids' m) : ids = ids' := by
  cases m with
  | getBlock id => cases h
  | _ => exact h.1.symm.trans h'.1

/-- the remembered difference is that of an earlier block of the history -/
def Mark (s s0 : Nat) (ch : List ProtoBlock) (d : Option Int) (c j : Nat) : Prop :=
  d = none ∧ c = 0 ∨ ∃ i, i < j ∧ c ≤ i + 1 ∧ d = some ((s : Int) - worth s0 ch i)

/-- the loader waits for the blocks up to the one with index `j` -/
def Waits (s s0 : Nat) (ch : List ProtoBlock) (l : Loader) (more : List Sent) (j : Nat) : Prop :=
  ∃ (k : Nat) (a : ProtoBlock) (arrived : List ProtoBlock), l.active = true ∧ l.obj.state = .waitingForBlocks ∧ k < j ∧ j < ch.length ∧
    ch[k]? = some a ∧ Stored l.link.db a.id ∧
    l.obj.queue = arrived.foldl put (newQueue ((part ch (k + 1) j).map (·.id))) ∧ ready l.obj.queue = false ∧
    (∀ x, x ∈ arrived → Genuine ch x) ∧ Mark s s0 ch l.prevDiff (asking more) j

inductive Phase (peer : Addr) (s s0 : Nat) (ch : List ProtoBlock) (l : Loader) (more : List Sent) : Prop where
  | asking (ha : l.active = true) (hs : l.obj.state = .waitingForIDs) (m : Sent) (req : List BlockID)
      (hm : l.out.getLast? = some m) (hr : AsksIDs m.to req m.msg) (hst : ∀ x, x ∈ req → Stored l.link.db x)
      (hd : l.prevDiff = none ∧ more = [] ∨ ∃ i a, ch[i]? = some a ∧ i + 1 < ch.length ∧ req.head? = some a.id ∧
        Loading.asking more ≤ i + 1 ∧ l.prevDiff = some ((s : Int) - worth s0 ch i))
  | loading (j : Nat) (h : Waits s s0 ch l more j)
  | released (ha : l.active = false) (b : ProtoBlock) (hb : ch[ch.length - 1]? = some b) (hl : LeashOf l.link peer = .ok b.id)
      (hst : ∀ x, x ∈ ch → Stored l.link.db x.id) (hc : Loading.asking more < ch.length)

structure Base (lib : Lib) (g : ProtoBlock) (peer : Addr) (s s0 : Nat) (ch : List ProtoBlock) (l0 : Loader) (n : Nat) (l : Loader) :
    Prop where
  running : Running lib g n l
  who : l.peerID = peer
  announced : Announced l.reg peer s
  faithful : Faithful s0 ch l.link.db
  phase : ∃ more, l.out = l0.out ++ more ∧ Phase peer s s0 ch l more

theorem walk_stored {lk : Linkage} (S : Serving g n lk) : ∀ {ids : List BlockID}, IsWalk lk.db ids → ∀ x, x ∈ ids → Stored lk.db x
  | [], _, x, hx => by cases hx
  | [a], h, x, hx => by rw [List.mem_singleton.mp hx]; exact h
  | a :: b :: rest, h, x, hx => by
    rcases List.mem_cons.mp hx with rfl | hx
    · obtain ⟨r, hr, _⟩ := h.1; exact stored_record S hr
    · exact walk_stored S h.2 x hx

/-- a batch that ends on block `j` is completed -/
theorem completed (H : History ch) (hscore : s = worth s0 ch (ch.length - 1)) (c : Ctx) {l : Loader} {more : List Sent} {j : Nat} {b : ProtoBlock}
    (I : Inv lib l) (ha : l.active = true) (S : Serving g n l.link) (hwho : l.peerID = peer) (han : Announced l.reg peer s)
    (F : Faithful s0 ch l.link.db) (hb : ch[j]? = some b) (hl : LeashOf l.link peer = .ok b.id)
    (hd : Mark s s0 ch l.prevDiff (asking more) j) :
    ∃ l' out', succeed c l = (l', .ok ()) ∧ l'.link = l.link ∧ l'.reg = l.reg ∧ l'.peerID = peer ∧ l'.out = l.out ++ out' ∧
      Phase peer s s0 ch l' (more ++ out') ∧ (j + 1 = ch.length → l'.active = false) ∧
      (j + 1 ≠ ch.length → l'.active = true ∧ l'.obj.state = .waitingForIDs ∧ out' ≠ []) := by
  obtain ⟨l', s', leash, score, e1, e2, e3, e4, e5, e6, e7, e8, e9⟩ := succeed_serving c l I ha S
  rw [hwho] at e6 e7
  cases han.unique e6
  obtain ⟨e71, e72⟩ := e7
  rw [hl] at e71; cases e71
  cases F.worth hb e72
  have hjl := (List.getElem?_eq_some_iff.mp hb).1
  by_cases hlast : j + 1 = ch.length
  · have hs : s = worth s0 ch j := by rw [hscore, ← hlast]; rfl
    have R := e9 (by rw [hs]; omega)
    have hp : l'.peerID = peer := by
      have := frame_succeed c l I.quiet ha
      rw [e1] at this; exact (this.peerID).trans hwho
    refine ⟨l', [], e1, e2, e3, hp, by rw [R.sent, List.append_nil], ?_, fun _ => R.active, fun h => absurd hlast h⟩
    refine .released R.active b (by rw [← hlast]; exact hb) (by rw [e2]; exact hl) ?_ ?_
    · intro x hx
      obtain ⟨i, hi⟩ := List.getElem?_of_mem hx
      have hil := (List.getElem?_eq_some_iff.mp hi).1
      rw [e2]
      obtain ⟨lsh, hl1, hl2⟩ := S.leash peer
      rw [hl] at hl1; cases hl1
      exact F.below S j b hb hl2 i x (by omega) hi
    · rw [List.append_nil]
      rcases hd with ⟨_, h0⟩ | ⟨i, hi, hc, _⟩ <;> omega
  · have hlt : worth s0 ch j < s := by rw [hscore]; exact worth_mono H (by omega) (by omega)
    have hne : l.prevDiff ≠ some ((s : Int) - worth s0 ch j) := by
      rcases hd with ⟨h0, _⟩ | ⟨i, hi, _, h0⟩
      · rw [h0]; simp
      · rw [h0]
        have := worth_mono (s0 := s0) H hi hjl
        intro he
        have he : (s : Int) - worth s0 ch i = (s : Int) - worth s0 ch j := by simpa using he
        omega
    have C := e8 ⟨hlt, hne⟩
    obtain ⟨ids, cn, m, hw, hcn, hask, hout⟩ := C.sent
    refine ⟨l', [⟨c.now, cn, m⟩], e1, e2, e3, ?_, hout, ?_, fun h => absurd h hlast, fun _ => ⟨C.active, C.state, by simp⟩⟩
    · have : l'.obj.peer = l.obj.peer := C.peer
      unfold Loader.peerID at hwho ⊢
      rw [this]; exact hwho
    · refine .asking C.active C.state ⟨c.now, cn, m⟩ ids (by rw [hout]; simp) hask ?_ (Or.inr ⟨j, b, hb, by omega, hw.2.1, ?_, C.diff⟩)
      · exact walk_stored (e2 ▸ S) hw.1
      · rw [asking_append, asking_one hask]
        rcases hd with ⟨_, h0⟩ | ⟨i, hi, hc, _⟩
        · omega
        · omega

end Verif.Loading
