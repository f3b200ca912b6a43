import Verif.Loading.AmongRun
/-
What is requested from an honest peer, while the other goroutines work between the calls of the loader: lemmas for property C132.
-/

set_option autoImplicit false

namespace Verif.Loading.Fine

open Verif
open Verif.Chains (Addr BlockID ProtoBlock MicroInv Linkage LeashOf PutBlock)
open Verif.Chains.Spec (Stored)
open Verif.Peers (Peer Conn Registry Lib second)
open Verif.KV (Fate)

variable {lib : Lib} {g : ProtoBlock} {N : Nat} {peer : Addr} {s s0 : Nat} {ch : List ProtoBlock} {d0 : Option Int} {w0 w : World}

/-- the loader waits for blocks, and the last of them is the one with index `t` -/
def Pending (ch : List ProtoBlock) (o : Own) (t : Nat) : Prop :=
  o.obj.state = .waitingForBlocks ∧ ∃ b it, ch[t]? = some b ∧ o.obj.queue.getLast? = some it ∧ it.requested = b.id

/-- the block with index `t` is stored -/
def Has (ch : List ProtoBlock) (x : Shared) (t : Nat) : Prop := ∃ b, ch[t]? = some b ∧ Stored x.link.db b.id

theorem Has.later {x y : Shared} {t : Nat} (h : Has ch x t) (hl : Later x y) : Has ch y t := by
  obtain ⟨b, h1, h2⟩ := h
  exact ⟨b, h1, hl.stored _ h2⟩

/-- What is requested while an event is handled that came in the state `u`: nothing, and what was awaited is still awaited or stored; or the blocks from
`k + 1` to `j`, the first of which was not stored. -/
def Demanded (ch : List ProtoBlock) (u : Shared) (o o' : Own) (x : Shared) (out : List Sent) : Prop :=
  (wanted out = [] ∧ ∀ t, Pending ch o t → Pending ch o' t ∨ Has ch x t) ∨
  (o.obj.state = .waitingForIDs ∧ ∃ k j, k < j ∧ j < ch.length ∧ wanted out = (part ch (k + 1) j).map (·.id) ∧ ¬ Has ch u (k + 1) ∧ Pending ch o' j)

/-- what is known when an event has been handled -/
def Spent (ch : List ProtoBlock) (u : Shared) (o : Own) (r : Go Own) (x : Shared) : Prop :=
  ∃ o' out, r = .ok o' ∧ o'.out = o.out ++ out ∧ Demanded ch u o o' x out

theorem Demanded.later {u x y : Shared} {o o' : Own} {out : List Sent} (h : Demanded ch u o o' x out) (hl : Later x y) : Demanded ch u o o' y out := by
  rcases h with ⟨h1, h2⟩ | h
  · refine Or.inl ⟨h1, fun t ht => ?_⟩
    rcases h2 t ht with h | h
    · exact Or.inl h
    · exact Or.inr (h.later hl)
  · exact Or.inr h

theorem Expects.pending (H : History ch) {o : Own} {x : Shared} {more : List Sent} {k j : Nat} {a : ProtoBlock} {arrived : List ProtoBlock}
    (h : Expects d0 s s0 ch o x more k a arrived j) : o.obj.queue.map (·.requested) = (part ch (k + 1) j).map (·.id) ∧ Pending ch o j := by
  have h4 : o.obj.queue.map (·.requested) = (part ch (k + 1) j).map (·.id) := by
    rw [h.queue, fold_newQueue _ (part_nodup H _ _)]; simp
  refine ⟨h4, h.state, ?_⟩
  have hl := h.last
  have hj : ch[j]? = some ch[j] := List.getElem?_eq_getElem hl
  have h5 : (o.obj.queue.map (·.requested)).getLast? = some ch[j].id := by
    rw [h4, List.getLast?_map, part_last (by have := h.lt; omega) hj]; rfl
  rw [List.getLast?_map] at h5
  cases h7 : o.obj.queue.getLast? with
  | none => rw [h7] at h5; cases h5
  | some it => rw [h7] at h5; exact ⟨_, it, hj, rfl, Option.some.inj h5⟩

theorem Pending.unique (H : History ch) {o : Own} {i j : Nat} (hi : Pending ch o i) (hj : Pending ch o j) : i = j := by
  obtain ⟨_, a, it, h1, h2, h3⟩ := hi
  obtain ⟨_, b, it', h4, h5, h6⟩ := hj
  rw [h2] at h5; cases h5
  exact H.index h1 h4 (h3.symm.trans h6)

theorem leads_spent (H : History ch) (hscore : s = worth s0 ch (ch.length - 1)) {o : Own} {x : Shared} {more : List Sent} (ha : o.active = true)
    (hq : o.obj.triggers = []) (hwho : o.peerID = peer) (hcn : o.obj.peer.conn ≠ none) (P : Stage d0 peer s s0 ch o x more) (c : Ctx) (i : Input)
    (hh : Honest peer s s0 ch (o.on x) ⟨c, i.event⟩) : Leads lib g peer s s0 ch ch.length (Spent ch x o) (handle c o i) x := by
  have same : Leads lib g peer s s0 ch ch.length (Spent ch x o) (.ret (.ok o)) x :=
    fun y h1 _ => ⟨o, [], rfl, (List.append_nil _).symm, Or.inl ⟨rfl, fun t ht => Or.inl ht⟩⟩
  have done : ∀ {t}, fire c o t = .ret (o, .ok ()) →
      Leads lib g peer s s0 ch ch.length (Spent ch x o) ((fire c o t).bind (fun r => .ret (logged r))) x := by
    intro t ht
    rw [ht]; exact same
  have hna : ¬ o.active = false := by rw [ha]; simp
  cases i with
  | timer => simp only [handle, sync, ha, if_true]; exact same
  | tick =>
    simp only [handle, tick, ha, if_true]
    refine done (fire_calm_tick c o _ hq ?_ (hh.tick rfl))
    cases P with
    | asking m req A => exact Or.inl A.state
    | loading k a arrived j E => exact Or.inr E.state
    | released ha' => rw [ha] at ha'; cases ha'
  | ids p ids =>
    simp only [handle, handleIDs, if_neg hna]
    by_cases hne : ids = []
    · rw [if_pos hne]; exact same
    rw [if_neg hne]
    by_cases hp : p = o.peerID
    · subst hp
      rw [if_neg (by simp)]
      rw [hwho] at hh
      by_cases hs : o.obj.state = .waitingForIDs
      · obtain ⟨hf, hfo⟩ := hh.ids ids rfl hs hne
        cases P with
        | asking m req A =>
          obtain ⟨pre, a, post, i, j, hreq, hpre, hi, hij, hj, hgo, hids⟩ := hfo m req A.sent A.asks
          refine ((leads_ids H hscore hf hq hwho hcn A hreq hpre hi hij hj hgo hids).seq ?_).room (Nat.zero_le _)
          intro r y h1 G1 h z h2 _
          cases h with
          | known B =>
            obtain ⟨out', e1, _⟩ := B.stageOf
            refine ⟨r.1, out', logged_alive (by rw [B.fine]; exact ok_alive), e1, Or.inl ⟨B.modest out' e1, ?_⟩⟩
            intro t ht
            have := ht.1
            rw [hs] at this; cases this
          | wanted k a out' hf _ hw _ ho E hn hm =>
            refine ⟨r.1, out', logged_alive (by rw [hf]; exact ok_alive), ho, Or.inr ⟨hs, k, j, E.lt, E.last, hn, ?_, (E.pending H).2⟩⟩
            rintro ⟨b, hb, hst⟩
            exact hm b hb hst
        | loading k a arrived j E =>
          have := E.state
          rw [hs] at this; cases this
        | released ha' => rw [ha] at ha'; cases ha'
      · refine done (fire_ignored c o _ hq ?_)
        cases hs' : o.obj.state with
        | waitingForIDs => exact absurd hs' hs
        | _ => rfl
    · rw [if_pos hp]; exact same
  | block p b =>
    simp only [handle, handleBlock, if_neg hna]
    by_cases hp : p = o.peerID
    · subst hp
      rw [if_neg (by simp)]
      rw [hwho] at hh
      by_cases hs : o.obj.state = .waitingForBlocks
      · obtain ⟨hf, hb⟩ := hh.block b rfl
        cases P with
        | asking m req A =>
          have := A.state
          rw [hs] at this; cases this
        | loading k a arrived j E =>
          refine ((leads_block H hscore hf hq hwho hcn E b hb).seq ?_).room (by have := E.last; split <;> omega)
          intro r y h1 G1 h z h2 _
          cases h with
          | complete _ B =>
            obtain ⟨out', e1, e2⟩ := B.stageOf
            refine ⟨r.1, out', logged_alive (by rw [B.fine]; exact ok_alive), e1, Or.inl ⟨B.modest out' e1, fun t ht => Or.inr ?_⟩⟩
            cases ht.unique H (E.pending H).2
            exact Has.later B.reached h2.later
          | waiting hr h =>
            subst h
            refine ⟨_, [], rfl, (List.append_nil _).symm, Or.inl ⟨rfl, fun t ht => Or.inl ?_⟩⟩
            cases ht.unique H (E.pending H).2
            exact (((E.put b hb).2.2 hr).pending H).2
        | released ha' => rw [ha] at ha'; cases ha'
      · refine done (fire_ignored c o _ hq ?_)
        cases hs' : o.obj.state with
        | waitingForBlocks => exact absurd hs' hs
        | _ => rfl
    · rw [if_pos hp]; exact same

/-! ### along the synchronisation -/

/-- where the requests have come to; the loader waits for the next event -/
structure Thrifty (ch : List ProtoBlock) (x0 : Shared) (o : Own) (x : Shared) (more : List Sent) (t : Nat) : Prop where
  order : (wanted more).Sublist ((ch.take (t + 1)).map (·.id))
  fresh : ∀ id, id ∈ wanted more → ¬ Stored x0.link.db id
  place : wanted more = [] ∨ Has ch x t ∨ Pending ch o t

theorem Thrifty.later {x0 x y : Shared} {o : Own} {more : List Sent} {t : Nat} (h : Thrifty ch x0 o x more t) (hl : Later x y) :
    Thrifty ch x0 o y more t := by
  refine ⟨h.order, h.fresh, ?_⟩
  rcases h.place with h1 | h1 | h1
  · exact Or.inl h1
  · exact Or.inr (Or.inl (h1.later hl))
  · exact Or.inr (Or.inr h1)

theorem Thrifty.handled {n : Nat} {x0 u x : Shared} {o o' : Own} {more out : List Sent} {t : Nat} (h : Thrifty ch x0 o u more t)
    (S : Serving g n u.link) (F : Faithful s0 ch u.link.db) (h0 : Later x0 u) (hl : Later u x) (hr : Demanded ch u o o' x out) :
    ∃ t', Thrifty ch x0 o' x (more ++ out) t' := by
  rcases hr with ⟨hw, hp⟩ | ⟨hs, k, j, hkj, hj, hw, hno, hp⟩
  · have e : wanted (more ++ out) = wanted more := by rw [wanted_append, hw, List.append_nil]
    refine ⟨t, e ▸ h.order, e ▸ h.fresh, ?_⟩
    rw [e]
    rcases h.place with h1 | h1 | h1
    · exact Or.inl h1
    · exact Or.inr (Or.inl (h1.later hl))
    · rcases hp t h1 with h2 | h2
      · exact Or.inr (Or.inr h2)
      · exact Or.inr (Or.inl h2)
  · have e : wanted (more ++ out) = wanted more ++ (part ch (k + 1) j).map (·.id) := by rw [wanted_append, hw]
    have hk1 : ch[k + 1]? = some ch[k + 1] := List.getElem?_eq_getElem (by omega)
    have hold : (wanted more).Sublist ((ch.take (k + 1)).map (·.id)) := by
      rcases h.place with h1 | ⟨b, h1, h2⟩ | ⟨h1, _⟩
      · rw [h1]; exact List.nil_sublist _
      · refine h.order.trans (List.Sublist.map _ (List.take_sublist_take_left ?_))
        refine Nat.succ_le_succ (Nat.le_of_not_lt (fun hlt => ?_))
        exact hno ⟨_, hk1, F.below S t b h1 h2 (k + 1) _ hlt hk1⟩
      · rw [hs] at h1; cases h1
    refine ⟨j, ?_, ?_, Or.inr (Or.inr hp)⟩
    · rw [e, ← take_part (ch := ch) (Nat.le_of_lt hkj), List.map_append]
      exact List.Sublist.append hold (List.Sublist.refl _)
    · rw [e]
      intro id hid
      rcases List.mem_append.mp hid with h1 | h1
      · exact h.fresh id h1
      · intro hst
        obtain ⟨y, hy, rfl⟩ := List.mem_map.mp h1
        obtain ⟨i, hi1, hi2, hi3⟩ := part_mem hy
        exact hno ⟨_, hk1, F.below S i y hi3 (h0.stored _ hst) (k + 1) _ hi1 hk1⟩

/-- what holds at every moment -/
structure Saving (lib : Lib) (g : ProtoBlock) (peer : Addr) (s s0 : Nat) (ch : List ProtoBlock) (w0 w : World) : Prop where
  later : Later w0.sh w.sh
  phase : ∃ more t, w.own.out = w0.own.out ++ more ∧ Thrifty ch w0.sh w.own w.sh more t ∧
    ∀ p, w.todo = some p → ∃ u, Later w0.sh u ∧ Later u w.sh ∧ (∃ n, Good lib g peer s s0 ch n u) ∧ Thrifty ch w0.sh w.own u more t ∧
      Leads lib g peer s s0 ch ch.length (Spent ch u w.own) p w.sh

theorem Saving.start (ht : w0.todo = none) : Saving lib g peer s s0 ch w0 w0 :=
  ⟨Later.refl _, [], 0, (List.append_nil _).symm, ⟨List.nil_sublist _, (fun _ h => by cases h), Or.inl rfl⟩,
    (fun p hp => by rw [ht] at hp; cases hp)⟩

theorem Saving.receive {src : Source} {v : World} (H : History ch) (hscore : s = worth s0 ch (ch.length - 1)) (V : Saving lib g peer s s0 ch w0 w)
    (K : Underway lib g N src peer s s0 ch v w) (ha : w.own.active = true) (c : Ctx) (i : Input) (ht : w.todo = none)
    (hh : Honest peer s s0 ch (w.own.on w.sh) ⟨c, i.event⟩) :
    Saving lib g peer s s0 ch w0 { w with todo := some (handle c w.own i), ins := w.ins ++ [(c, i)] } := by
  obtain ⟨more', _, P, _⟩ := K.phase
  obtain ⟨F, hq⟩ := K.steady.rest ht
  obtain ⟨more, t, hout, T, _⟩ := V.phase
  refine ⟨V.later, more, t, hout, T, fun p hp => ?_⟩
  cases hp
  exact ⟨_, V.later, Later.refl _, ⟨_, K.good⟩, T, leads_spent H hscore ha hq K.who (F.conn ha) (P ht) c i hh⟩

theorem Saving.call {src : Source} {v : World} (V : Saving lib g peer s s0 ch w0 w) (K : Underway lib g N src peer s s0 ch v w) (c : Call)
    (k : c.Res → Proc (Go Own)) (ht : w.todo = some (.call c k)) (hN : Chains.Spec.inserts w.calls + c.cost ≤ N) : Saving lib g peer s s0 ch w0
      ⟨w.own, some (k (c.res lib w.sh)), c.effect w.sh, w.ins, w.log ++ (c.op.map (fun o => (true, o))).toList⟩ := by
  have G := K.good
  obtain ⟨more, t, hout, T, L⟩ := V.phase
  obtain ⟨u, h1, h2, h3, h4, L⟩ := L _ ht
  obtain ⟨_, L⟩ := L _ (Between.refl _) (G.mono (Nat.zero_le _))
  obtain ⟨_, hl, _, L⟩ := L (G.mono (by omega))
  refine ⟨V.later.trans hl, more, t, hout, T.later hl, fun p hp => ?_⟩
  cases hp
  exact ⟨u, h1, h2.trans hl, h3, h4, L.room (Nat.sub_le _ _)⟩

theorem Saving.finish {src : Source} {v : World} (V : Saving lib g peer s s0 ch w0 w) (K : Underway lib g N src peer s s0 ch v w) (o : Own)
    (ht : w.todo = some (.ret (.ok o))) : Saving lib g peer s s0 ch w0 { w with own := o, todo := none } := by
  obtain ⟨more, t, hout, T, L⟩ := V.phase
  obtain ⟨u, h1, h2, ⟨n, Gu⟩, h4, L⟩ := L _ ht
  obtain ⟨o', out, e1, e2, hr⟩ := L _ (Between.refl _) (K.good.mono (Nat.zero_le _))
  cases e1
  obtain ⟨t', T'⟩ := h4.handled Gu.sound.store Gu.faithful h1 h2 hr
  refine ⟨V.later, more ++ out, t', ?_, T', (fun p hp => by cases hp)⟩
  show o.out = _
  rw [e2, hout, List.append_assoc]

theorem Saving.other (V : Saving lib g peer s s0 ch w0 w) {y : Shared} {log : List (Bool × Chains.Spec.Op)} (hl : Later w.sh y)
    (ho : w.todo ≠ none → Onward peer ch w.sh y) : Saving lib g peer s s0 ch w0 { w with sh := y, log := log } := by
  obtain ⟨more, t, hout, T, L⟩ := V.phase
  refine ⟨V.later.trans hl, more, t, hout, T.later hl, fun p hp => ?_⟩
  have hp : w.todo = some p := hp
  obtain ⟨u, h1, h2, h3, h4, L⟩ := L _ hp
  exact ⟨u, h1, h2.trans hl, h3, h4, L.later ⟨hl, ho (by rw [hp]; simp)⟩⟩

theorem saving (H : History ch) (hscore : s = worth s0 ch (ch.length - 1)) (ht0 : w0.todo = none)
    (hK : ∀ w, Among lib peer s s0 ch w0 w → Chains.Spec.inserts w.calls ≤ N → ∃ src v, Underway lib g N src peer s s0 ch v w)
    (h : Among lib peer s s0 ch w0 w) (hN : Chains.Spec.inserts w.calls ≤ N) : Saving lib g peer s s0 ch w0 w := by
  induction h with
  | start => exact Saving.start ht0
  | receive h ha c i ht hh ih =>
    obtain ⟨_, _, K⟩ := hK _ h hN
    exact (ih hN).receive H hscore K ha c i ht hh
  | call h c k ht ih =>
    have hr := step_room hN
    obtain ⟨_, _, K⟩ := hK _ h (by omega)
    exact (ih (by omega)).call K c k ht hr
  | finish h o ht ih =>
    obtain ⟨_, _, K⟩ := hK _ h hN
    exact (ih hN).finish K o ht
  | other h ha x hx ih =>
    have hr := step_room hN
    obtain ⟨_, _, K⟩ := hK _ h (by omega)
    exact (ih (by omega)).other (K.steady.other x (fun _ => Other.sound x) hr).2 hx.onward

theorem Among.trans {v : World} (h0 : Among lib peer s s0 ch v w0) (h : Among lib peer s s0 ch w0 w) : Among lib peer s s0 ch v w := by
  induction h with
  | start => exact h0
  | receive _ ha c i ht hh ih => exact .receive ih ha c i ht hh
  | call _ c k ht ih => exact .call ih c k ht
  | finish _ o ht ih => exact .finish ih o ht
  | other _ ha x hx ih => exact .other ih ha x hx

end Verif.Loading.Fine
