import Verif.Services.Settled
import Verif.Services.SideRun
import Verif.Services.SideTrue
import Verif.Loading.OwedRun
/-
What has been answered by an honest peer has been heard by the loader: lemmas for property C109.
-/

set_option autoImplicit false

namespace Verif.Services.Fine

open Verif
open Verif.Chains (Addr BlockID ProtoBlock MicroInv Linkage)
open Verif.Peers (Lib Registry Peer Conn)
open Verif.Loading (Ctx Starts History Serving Sent AsksIDs newQueue put part)
open Verif.Loading.Fine (World Shared Disk Input Answer Call Own Proc Underway Entry Owing Afterwards NoFail All owing_then all_samePeer all_afterwards
  Stage Between)

variable {lib : Lib} {g : ProtoBlock} {N : Nat} {peer : Addr} {s s0 : Nat} {ch : List ProtoBlock} {x0 x x' : Sys} {es : List Ev} {W : List Word} {T : List Entry}
  {d d' : Dist}

/-- the package that the distributor makes of a message of the peer -/
inductive Gives (peer : Addr) (ch : List ProtoBlock) (q : Sender) (msg : Message) : Pkg → Prop where
  | ids (l : List BlockID) (hq : q.remote = some peer) (h : msg.idList = some l) (hne : l ≠ []) : Gives peer ch q msg (.ids peer l)
  | block (b : ProtoBlock) (i : Nat) (hq : q.remote = some peer) (h : msg.theBlock = some b) (hb : ch[i + 1]? = some b) : Gives peer ch q msg (.block peer b)

/-- what was told after a request has been heard after it, or is held by the distributor -/
def Tracks (peer : Addr) (ch : List ProtoBlock) (W : List Word) (T : List Entry) (d : Dist) : Prop :=
  ∀ T1 m T2, T = T1 ++ .said m :: T2 → ∃ W1 W2, W = W1 ++ .said m :: W2 ∧
    ∀ q msg, .told q msg ∈ W2 → ∀ pk, Gives peer ch q msg pk → .heard pk.input ∈ T2 ∨ d = .sending pk

theorem Tracks.told (h : Tracks peer ch W T d) (hd : ∀ pk, d ≠ .sending pk) (q : Sender) (msg : Message)
    (hg : ∀ pk, Gives peer ch q msg pk → d' = .sending pk) : Tracks peer ch (W ++ [.told q msg]) T d' := by
  intro T1 m T2 e
  obtain ⟨W1, W2, e', h⟩ := h T1 m T2 e
  refine ⟨W1, W2 ++ [.told q msg], by rw [e']; simp, fun q' msg' hm pk hp => ?_⟩
  rcases List.mem_append.mp hm with hm | hm
  · rcases h q' msg' hm pk hp with h | h
    · exact Or.inl h
    · exact absurd h (hd pk)
  · cases List.mem_singleton.mp hm
    exact Or.inr (hg pk hp)

theorem Tracks.same (h : Tracks peer ch W T d) (hd : ∀ pk, d ≠ .sending pk) : Tracks peer ch W T d' := by
  intro T1 m T2 e
  obtain ⟨W1, W2, e', h⟩ := h T1 m T2 e
  exact ⟨W1, W2, e', fun q msg hm pk hp => Or.inl ((h q msg hm pk hp).resolve_right (hd pk))⟩

theorem snoc_split {α : Type} {T T1 T2 : List α} {a b : α} (h : T ++ [b] = T1 ++ a :: T2) (hab : b ≠ a) : ∃ T3, T2 = T3 ++ [b] ∧ T = T1 ++ a :: T3 := by
  rcases List.eq_nil_or_concat T2 with rfl | ⟨T3, c, rfl⟩
  · have := List.append_inj_right' h rfl
    cases this
    exact absurd rfl hab
  · have h' : T ++ [b] = (T1 ++ a :: T3) ++ [c] := by rw [h]; simp
    have e1 := List.append_inj_right' h' rfl
    have e2 := List.append_inj_left' h' rfl
    cases e1
    exact ⟨T3, by simp, e2⟩

theorem Tracks.heard (h : Tracks peer ch W T d) (i : Input) (hd : ∀ pk, d = .sending pk → d' = d ∨ i = pk.input) :
    Tracks peer ch W (T ++ [.heard i]) d' := by
  intro T1 m T2 e
  obtain ⟨T3, rfl, e3⟩ := snoc_split e (by intro h; cases h)
  obtain ⟨W1, W2, e', h⟩ := h T1 m T3 e3
  refine ⟨W1, W2, e', fun q msg hm pk hp => ?_⟩
  rcases h q msg hm pk hp with h | h
  · exact Or.inl (List.mem_append.mpr (Or.inl h))
  · rcases hd pk h with e | e
    · exact Or.inr (e.trans h)
    · exact Or.inl (by rw [e]; simp)

theorem Tracks.said1 (h : Tracks peer ch W T d) (m : Sent) : Tracks peer ch (W ++ [.said m]) (T ++ [.said m]) d := by
  intro T1 m' T2 e
  rcases List.eq_nil_or_concat T2 with rfl | ⟨T3, c, rfl⟩
  · have e1 := List.append_inj_right' e rfl
    cases e1
    exact ⟨W, [], rfl, fun _ _ h => (List.not_mem_nil h).elim⟩
  · have h' : T ++ [.said m] = (T1 ++ .said m' :: T3) ++ [c] := by rw [e]; simp
    have e1 := List.append_inj_right' h' rfl
    have e2 := List.append_inj_left' h' rfl
    cases e1
    obtain ⟨W1, W2, e', h⟩ := h T1 m' T3 e2
    refine ⟨W1, W2 ++ [.said m], by rw [e']; simp, fun q msg hm pk hp => ?_⟩
    rcases List.mem_append.mp hm with hm | hm
    · exact (h q msg hm pk hp).imp (fun h => by simp [h]) id
    · cases List.mem_singleton.mp hm

theorem Tracks.said : ∀ (new : List Sent) {W : List Word} {T : List Entry}, Tracks peer ch W T d → Tracks peer ch (W ++ new.map .said) (T ++ new.map .said) d
  | [], W, T, h => by simpa using h
  | m :: new, W, T, h => by
    have := Tracks.said new (h.said1 m)
    simpa using this

/-! ### the conversation -/

theorem talk_append {tr : List Answer} (h : Path lib x0 es tr x) : ∀ es', talk lib x0 (es ++ es') = talk lib x0 es ++ talk lib x es' := by
  induction h with
  | nil => intro es'; rfl
  | @snoc es tr x x' h e hs ih =>
    intro es'
    rw [List.append_assoc, ih, ih, List.append_assoc]
    congr 1
    show talk lib x (e :: es') = talk lib x [e] ++ _
    simp only [talk, hs, List.append_nil]

theorem talk_snoc {tr : List Answer} (h : Path lib x0 es tr x) {e : Ev} (hs : x.step lib e = some (.ok x')) :
    talk lib x0 (es ++ [e]) = talk lib x0 es ++ x.words e x' := by
  rw [talk_append h]
  simp only [talk, hs, List.append_nil]

/-! ### what the distributor makes of a message -/

theorem gives_pkg (H : History ch) (S : Serving g 1 x.world.sh.link) {D : Disk} {c : Ctx} {q : Sender} {msg : Message} {y : Handled}
    (hu : ∀ b, q.remote = some peer → msg.theBlock = some b → D = .good ∧ ∀ j, c.fates j = .ok)
    (hy : receive D lib c x.world.sh q msg = .ok y) {pk : Pkg} (hg : Gives peer ch q msg pk) : y.pkg = some pk := by
  rw [receive_eq] at hy
  cases hg with
  | ids l hq h hne =>
    cases msg with
    | blockIds l' =>
      cases h
      simp only [handleMessage, handleBlockIDs, hq, if_neg hne] at hy
      cases hy; rfl
    | signatures l' =>
      cases h
      simp only [handleMessage, handleSignatures, hq] at hy
      cases hy; rfl
    | _ => cases h
  | block b i hq h hb =>
    obtain ⟨rfl, hf⟩ := hu b hq h
    have key : handleBlock .good c x.world.sh q (some b) = .ok y → y.pkg = some (.block peer b) := by
      intro hy
      have e1 : Chains.Rd.PutBlock Disk.good.chains .ok .ok x.world.sh.link.db b peer = Chains.PutBlock .ok .ok x.world.sh.link.db b peer :=
        putBlock_good .ok .ok _ b peer
      simp only [handleBlock, hq, hf 0, hf 1, e1] at hy
      rcases put_outcome (m := 0) S H hb peer with h | h
      · rw [h] at hy; cases hy; rfl
      · rw [h] at hy; cases hy; rfl
    cases msg with
    | block b' => cases (show b' = some b from h); exact key hy
    | pbBlock b' => cases (show b' = some b from h); exact key hy
    | _ => cases h

/-! ### the loader -/

/-- what the loader waits for, between two events -/
def Waiting (o : Own) (T : List Entry) : Prop := o.active = true → o.obj.triggers = [] ∧ Owing o T

/-- at every moment of the synchronisation -/
structure Heeds (lib : Lib) (peer : Addr) (ch : List ProtoBlock) (p0 : Peer) (W : List Word) (x : Sys) (T : List Entry) : Prop where
  tracks : Tracks peer ch W T x.dist
  who : x.world.own.obj.peer = p0
  rest : x.world.todo = none → Waiting x.world.own T
  busy : ∀ p, x.world.todo = some p → ∃ tr T0 c i, T = T0 ++ [.heard i] ∧ NoFail tr ∧ Waiting x.world.own T0 ∧
    All (Afterwards c x.world.own i) tr p ∧ All (fun _ r => ∀ o', r = .ok o' → o'.obj.peer = p0) tr p ∧
    ∀ l, i = .ids peer l → x.world.own.obj.state = .waitingForIDs → l ≠ [] → l.Nodup

theorem Heeds.called {p0 : Peer} {w : World} (h : Heeds lib peer ch p0 W x T) (h1 : w.own = x.world.own) (h2 : w.todo = x.world.todo)
    {y : Sys} (hy : y.world = w) {W' : List Word} (ht : Tracks peer ch W' T y.dist) : Heeds lib peer ch p0 W' y T := by
  refine ⟨ht, ?_, ?_, ?_⟩
  · rw [hy, h1]; exact h.who
  · rw [hy, h1, h2]; exact h.rest
  · rw [hy, h1, h2]; exact h.busy

theorem Heeds.receive {p0 : Peer} (h : Heeds lib peer ch p0 W x T) (ha : x.world.own.active = true) (hr : x.world.todo = none) (c : Ctx) (i : Input)
    (hi : ∀ l, i = .ids peer l → x.world.own.obj.state = .waitingForIDs → l ≠ [] → l.Nodup) {y : Sys} (hy : y.world = x.world.receive c i)
    (hd : ∀ pk, x.dist = .sending pk → y.dist = x.dist ∨ i = pk.input) : Heeds lib peer ch p0 W y (T ++ [.heard i]) := by
  have hw := h.rest hr
  refine ⟨h.tracks.heard i hd, by rw [hy]; exact h.who, fun ht => (by rw [hy] at ht; cases ht), fun p ht => ?_⟩
  rw [hy] at ht
  cases ht
  rw [hy]
  refine ⟨[], T, c, i, rfl, fun _ h => (List.not_mem_nil h).elim, hw, all_afterwards c x.world.own i (fun ha => ?_), ?_, hi⟩
  · obtain ⟨h1, h2⟩ := hw ha
    refine ⟨h1, ?_⟩
    cases h2 with
    | ids hs => exact Or.inl hs
    | blocks hs => exact Or.inr hs
  · have := all_samePeer c x.world.own i ha []
    rw [h.who] at this
    exact this

/-- an honest list of ids names no block twice -/
theorem follows_nodup (H : History ch) {req ids : List BlockID} (h : Loading.Follows ch req ids) : ids.Nodup := by
  obtain ⟨_, _, _, i, j, _, _, _, _, _, _, h⟩ := h
  rcases h with h | ⟨_, h⟩
  · rw [h]; exact Loading.part_nodup H _ _
  · rw [h]; exact Loading.part_nodup H _ _

/-- an event of the synchronisation -/
theorem heeds_step {p0 : Peer} {src : Loading.Source} (H : History ch) (hp : p0.addr = peer) (K : Underway lib g N src peer s s0 ch x0.world x.world)
    (h : Heeds lib peer ch p0 W x T) (ha : x.world.own.active = true) {e : Ev} (hc : Civil peer s s0 ch x e)
    (hs : x.step lib e = some (.ok x')) (hN : Chains.Spec.inserts x'.world.calls < N)
    (hu : ∀ D c q m b, e = .message D c q m → q.remote = some peer → m.theBlock = some b → D = .good ∧ ∀ j, c.fates j = .ok) :
    ∃ new, Heeds lib peer ch p0 (W ++ x.words e x') x' (T ++ new) ∧ ∀ m, .said m ∈ new → .said m ∈ x.words e x' := by
  suffices h : Heeds lib peer ch p0 (W ++ x.words e x') x' T ∨ (∃ i, Heeds lib peer ch p0 (W ++ x.words e x') x' (T ++ [.heard i])) ∨
      ∃ l : List Sent, Heeds lib peer ch p0 (W ++ x.words e x') x' (T ++ l.map .said) ∧ x.words e x' = l.map .said by
    rcases h with h | ⟨i, h⟩ | ⟨l, h, e⟩
    · exact ⟨[], by rw [List.append_nil]; exact h, fun _ h => (List.not_mem_nil h).elim⟩
    · exact ⟨_, h, fun _ h => by cases List.mem_singleton.mp h⟩
    · refine ⟨_, h, fun m hm => ?_⟩
      obtain ⟨m', hm', e'⟩ := List.mem_map.mp hm
      cases e'
      rw [e]
      exact List.mem_map.mpr ⟨m, hm', rfl⟩
  obtain ⟨_, hcase⟩ := step_case hs
  obtain ⟨more, hout, P, L⟩ := K.phase
  have stay : ∀ {y : Sys}, y.world.own = x.world.own → y.world.todo = x.world.todo → (∀ D c q m, e ≠ .message D c q m) →
      (x.dist = y.dist ∨ ∀ pk, x.dist ≠ .sending pk) → Heeds lib peer ch p0 (W ++ x.words e y) y T := by
    intro y h1 h2 h3 h4
    have hw : x.words e y = [] := by
      unfold Sys.words
      split
      · exact absurd rfl (h3 _ _ _ _)
      · rw [h1]; simp
    rw [hw, List.append_nil]
    refine h.called h1 h2 rfl ?_
    rcases h4 with h4 | h4
    · rw [← h4]; exact h.tracks
    · exact h.tracks.same h4
  cases hcase with
  | @handled _ r y hd hr hx =>
    have hns : ∀ pk, x.dist ≠ .sending pk := fun pk h => by rw [hd] at h; cases h
    by_cases hm : ∃ D c q m, e = .message D c q m
    · obtain ⟨D, c, q, m, rfl⟩ := hm
      refine Or.inl (Heeds.called h (w := x.world.called y.sh y.call) rfl rfl rfl (h.tracks.told hns q m (fun pk hg => ?_)))
      have hy : receive D lib c x.world.sh q m = .ok y := by cases hr with | message => exact hx
      have hroom : 1 ≤ N - Chains.Spec.inserts x.world.calls := by have := (step_ins hs).2; omega
      rw [gives_pkg H (K.steady.sound.store.mono hroom) (fun b hq hb => hu D c q m b rfl hq hb) hy hg]
    · exact Or.inl (stay rfl rfl (fun D c q m he => hm ⟨D, c, q, m, he⟩) (Or.inr hns))
  | take c p hd hw =>
    have hrest := (waits_iff hw).2
    refine Or.inr (Or.inl ⟨p.input, ?_⟩)
    have hwd : x.words (.take c) { x with world := x.world.receive c p.input, dist := .ready, taken := x.taken ++ [p] } = [] := by
      simp [Sys.words, World.receive]
    rw [hwd, List.append_nil]
    refine h.receive ha hrest c p.input ?_ rfl (fun pk hpk => Or.inr ?_)
    · intro l hl hst hne
      cases p with
      | block a b => cases hl
      | ids a ids =>
        cases hl
        cases P hrest with
        | asking m req A => exact follows_nodup H (hc.ids c l rfl hd hst hne m req A.sent A.asks)
        | loading k a arrived j E => rw [E.state] at hst; cases hst
        | released hna => rw [ha] at hna; cases hna
    · rw [hd] at hpk; cases hpk; rfl
  | tick c hw ht =>
    refine Or.inr (Or.inl ⟨.tick, ?_⟩)
    have hwd : x.words (.tick c) { x with world := x.world.receive c .tick } = [] := by simp [Sys.words, World.receive]
    rw [hwd, List.append_nil]
    exact h.receive ha (waits_iff hw).2 c .tick (fun _ h => by cases h) rfl (fun pk hpk => Or.inl rfl)
  | timer c hw =>
    refine Or.inr (Or.inl ⟨.timer, ?_⟩)
    have hwd : x.words (.timer c) { x with world := x.world.receive c .timer } = [] := by simp [Sys.words, World.receive]
    rw [hwd, List.append_nil]
    exact h.receive ha (waits_iff hw).2 c .timer (fun _ h => by cases h) rfl (fun pk hpk => Or.inl rfl)
  | call D c k ht hk =>
    cases hc.disk D rfl
    refine Or.inl ?_
    have hwd : x.words (.go .good) { x with world := ⟨x.world.own, some (k (c.resRd .good lib x.world.sh)), c.effectRd .good x.world.sh, x.world.ins, x.world.log ++ (c.op.map (fun o => (true, o))).toList⟩ } = [] := by
      simp [Sys.words]
    rw [hwd, List.append_nil]
    obtain ⟨tr, T0, c', i, h1, h2, h3, h4, h5, h6⟩ := h.busy _ ht
    refine ⟨h.tracks, h.who, (fun h => by cases h), fun p hp' => ?_⟩
    cases hp'
    refine ⟨tr ++ [⟨c, c.resRd .good lib x.world.sh⟩], T0, c', i, h1, ?_, h3, h4 _, h5 _, h6⟩
    intro a hm
    rcases List.mem_append.mp hm with hm | hm
    · exact h2 a hm
    · cases List.mem_singleton.mp hm
      obtain ⟨_, L⟩ := L _ ht
      have hcost : Chains.Spec.inserts x.world.calls + c.cost ≤ N := Loading.Fine.step_room (w := x.world) (b := true) (o := c.op) (Nat.le_of_lt hN)
      obtain ⟨_, L⟩ := L x.world.sh (Between.refl _) (K.good.mono (Nat.zero_le _))
      obtain ⟨_, _, hnf, _⟩ := L (K.good.mono (by omega))
      rw [Loading.Fine.Call.res_good]
      exact hnf
  | finish D o ht =>
    obtain ⟨tr, T0, c', i, h1, h2, h3, h4, h5, h6⟩ := h.busy _ ht
    refine Or.inr (Or.inr ⟨o.out.drop x.world.own.out.length, ⟨?_, h5 o rfl, fun _ ha' => ?_, (fun p h => by cases h)⟩, rfl⟩)
    · exact Tracks.said _ h.tracks
    · rw [h1]
      refine owing_then h3 h4 h2 (fun l hi hst => ?_) ha'
      rw [h5 o rfl, hp] at hi
      by_cases hne : l = []
      · rw [hne]; exact List.nodup_nil
      · exact h6 l hi hst hne
  | distExit hcn hd => exact Or.inl (stay rfl rfl (fun _ _ _ _ h => by cases h) (Or.inr (fun pk h => by rw [hd] at h; cases h)))
  | respawn D now failed hu' har =>
    refine Or.inl (stay ?_ ?_ (fun _ _ _ _ h => by cases h) (Or.inl ?_))
    all_goals
      unfold Sys.respawn
      split
      · rfl
      · dsimp only
        split <;> rfl
  | _ => exact Or.inl (stay rfl rfl (fun _ _ _ _ h => by cases h) (Or.inl rfl))

/-- a block that was told is genuine -/
theorem told_genuine (h : Side lib peer s s0 ch x0 es x) {q : Sender} {m : Message} {b : ProtoBlock} (ht : .told q m ∈ talk lib x0 es)
    (hb : m.theBlock = some b) : Loading.Genuine ch b := by
  induction h with
  | start => cases ht
  | @step es x x' e h ha hc hs ih =>
    obtain ⟨_, hp⟩ := h.path
    rw [talk_snoc hp hs] at ht
    rcases List.mem_append.mp ht with ht | ht
    · exact ih ht
    · unfold Sys.words at ht
      split at ht
      · cases List.mem_singleton.mp ht
        cases m with
        | block b' => cases (show b' = some b from hb); exact hc.block _ _ _ _ (Or.inl rfl)
        | pbBlock b' => cases (show b' = some b from hb); exact hc.block _ _ _ _ (Or.inr rfl)
        | _ => cases hb
      · obtain ⟨_, _, h⟩ := List.mem_map.mp ht
        cases h

/-- from the request on -/
theorem heeds_side {reg : Registry} {lk : Linkage} {tr : List Answer} {m : Sent} (H : History ch) (S : Serving g N lk) (R : Peers.Reachable lib reg)
    (h0 : Loading.Fine.RdRun lib (World.start reg lk) tr x0.world) (ht : x0.world.todo = none) (hb : Starts peer s s0 ch (x0.world.own.on x0.world.sh))
    (ho : Opens x0 m) (h : Side lib peer s s0 ch x0 es x) (hN : Chains.Spec.inserts x.world.calls < N) (hu : Undamaged peer es) :
    ∃ T, Heeds lib peer ch x0.world.own.obj.peer (.said m :: talk lib x0 es) x T := by
  have hp : x0.world.own.obj.peer.addr = peer := hb.who
  induction h with
  | start =>
    have K := side_kept H S R h0 ht hb (.start (x0 := x0) (lib := lib)) (Nat.le_of_lt hN)
    refine ⟨[.said m], ?_, rfl, fun _ _ => ⟨(K.steady.rest ht).2, ?_⟩, fun p hp => (by rw [ht] at hp; cases hp)⟩
    · intro T1 m' T2 e
      cases T1 with
      | nil => cases e; exact ⟨[], [], rfl, fun _ _ h => (List.not_mem_nil h).elim⟩
      | cons a T1 => simp at e
    · obtain ⟨m', req, hm, hr, _⟩ := hb.asked
      have : m' = m := Option.some.inj (hm.symm.trans ho.last)
      subst this
      exact .ids hb.state ⟨[], m', req, [], rfl, ho.time.symm, ho.conn, hr, fun _ h => (List.not_mem_nil h).elim⟩
  | @step es x x' e h ha hc hs ih =>
    have hN' : Chains.Spec.inserts x.world.calls < N := Nat.lt_of_le_of_lt (step_ins hs).2 hN
    obtain ⟨T, hT⟩ := ih hN' (fun D c q m b hm => hu D c q m b (List.mem_append_left _ hm))
    have K := side_kept H S R h0 ht hb h (Nat.le_of_lt hN')
    obtain ⟨_, hpath⟩ := h.path
    obtain ⟨new, hT', _⟩ := heeds_step H hp K hT ha hc hs hN (fun D c q m b he => hu D c q m b (by rw [he]; simp))
    refine ⟨T ++ new, ?_⟩
    rw [talk_snoc hpath hs]
    exact hT'

theorem foldl_requested : ∀ (bs : List ProtoBlock) (q : List Loading.Item), (bs.foldl put q).map (·.requested) = q.map (·.requested)
  | [], _ => rfl
  | b :: bs, q => by rw [List.foldl_cons, foldl_requested bs, Loading.put_requested]

/-- What the loader waits for between two events has not been answered, if what was answered after a request has been heard after it. -/
theorem waits_unheard {p0 : Peer} {src : Loading.Source} {m0 : Sent} (hp : p0.addr = peer) (hcn : p0.conn = some m0.to)
    (K : Underway lib g N src peer s s0 ch x0.world x.world) (hW : ∀ q msg b, .told q msg ∈ W → msg.theBlock = some b → Loading.Genuine ch b)
    (hr : x.world.todo = none) (hwho : x.world.own.obj.peer = p0) (h : Waiting x.world.own T)
    (htrk : ∀ T1 m T2, T = T1 ++ .said m :: T2 → ∃ W1 W2, W = W1 ++ .said m :: W2 ∧
      ∀ q msg, .told q msg ∈ W2 → ∀ pk, Gives peer ch q msg pk → .heard pk.input ∈ T2)
    (hA : AllAnswered peer m0.to W) : x.world.own.active = false := by
  cases ha : x.world.own.active with
  | false => rfl
  | true =>
    exfalso
    obtain ⟨_, _, P, _⟩ := K.phase
    rcases (h ha).2.owed with ⟨_, T1, m, req, T2, hT, _, hc, hreq, hno⟩ | ⟨hst, id, hid, T1, m, T2, hT, _, hc, hmsg, hno⟩
    · rw [hwho] at hc hno
      obtain ⟨W1, W2, hW, htr⟩ := htrk T1 m T2 hT
      obtain ⟨q, msg, l, h1, h2, h3, h4⟩ := (hA W1 m W2 hW (Option.some.inj (hc.symm.trans hcn))).ids req hreq
      exact h4 (hno l (by rw [hp]; exact htr q msg h1 _ (.ids l h2 h3 h4)))
    · rw [hwho] at hc hno
      obtain ⟨W1, W2, hW', htr⟩ := htrk T1 m T2 hT
      obtain ⟨q, msg, b, h1, h2, h3, h4⟩ := (hA W1 m W2 hW' (Option.some.inj (hc.symm.trans hcn))).block id hmsg
      cases P hr with
      | asking m' req A => rw [A.state] at hst; cases hst
      | released hna => rw [ha] at hna; cases hna
      | loading k a arrived j E =>
        rw [E.queue, foldl_requested] at hid
        obtain ⟨y, hy, rfl⟩ : ∃ y, y ∈ part ch (k + 1) j ∧ y.id = id := by
          simp only [newQueue, List.map_map, List.mem_map] at hid
          obtain ⟨y, hy, e⟩ := hid
          exact ⟨y, hy, e⟩
        obtain ⟨t, hkt, _, hyt⟩ := Loading.part_mem hy
        have hby : b = y := hW q msg b (by rw [hW']; simp [h1]) h3 y (List.mem_of_getElem? hyt) h4.symm
        subst hby
        have ht1 : t = (t - 1) + 1 := by omega
        rw [ht1] at hyt
        exact hno b (by rw [hp]; exact htr q msg h1 _ (.block b (t - 1) h2 h3 hyt)) rfl

/-- what was told after a request and is not held has been heard -/
theorem Tracks.settled (h : Tracks peer ch W T d) (hd : (∀ l, d ≠ .sending (.ids peer l)) ∧ ∀ b, d ≠ .sending (.block peer b)) :
    ∀ T1 m T2, T = T1 ++ .said m :: T2 → ∃ W1 W2, W = W1 ++ .said m :: W2 ∧
      ∀ q msg, .told q msg ∈ W2 → ∀ pk, Gives peer ch q msg pk → .heard pk.input ∈ T2 := by
  intro T1 m T2 e
  obtain ⟨W1, W2, e', h⟩ := h T1 m T2 e
  refine ⟨W1, W2, e', fun q msg hm pk hp => (h q msg hm pk hp).resolve_right (fun hs => ?_)⟩
  cases hp with
  | ids l => exact hd.1 l hs
  | block b => exact hd.2 b hs

/-- What the loader waits for between two events has not been answered, unless the distributor holds the answer. -/
theorem waits_unanswered {p0 : Peer} {src : Loading.Source} {m0 : Sent} (hp : p0.addr = peer) (hcn : p0.conn = some m0.to)
    (K : Underway lib g N src peer s s0 ch x0.world x.world) (hS : Side lib peer s s0 ch x0 es x)
    (h : Heeds lib peer ch p0 (.said m0 :: talk lib x0 es) x T) (hr : x.world.todo = none)
    (hd : NothingHeld peer x) (hA : AllAnswered peer m0.to (.said m0 :: talk lib x0 es)) : x.world.own.active = false := by
  refine waits_unheard hp hcn K (fun q msg b hm hb => told_genuine hS ((List.mem_cons.mp hm).resolve_left (fun h => by cases h)) hb)
    hr h.who (h.rest hr) (h.tracks.settled hd) hA

end Verif.Services.Fine
