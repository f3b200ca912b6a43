import Verif.Services.Lives
/-
Lemmas about the databases over many runs.
-/

set_option autoImplicit false

namespace Verif.Services

open Verif
open Verif.Chains (Linkage ProtoBlock NewLinkage LogInitialStats getBlockByID PutBlock PutMicroBlock MoveLeash updateLeash hasBlock)
open Verif.Chains.Spec (Op Fresh Stored inserts)
open Verif.Loading (Serving)
open Verif.Loading.Fine (World Step Run Steady steady received received_from Sound)
open Verif.Peers (Registry Lib AddrPort Config NewRegistry AppendAddresses putPeer hasPeer newPeer acceptable)
open Verif.KV (Fate)

/-! ### a call on the store that is cut short -/

theorem write_fail {V : Type} (db : KV.DB V) (b : KV.Batch V) : KV.write .fail db b = (db, Verif.fail .writeFailed) := rfl

theorem putBlock_fail (l : Linkage) (b : ProtoBlock) (a : Chains.Addr) (f2 : Fate) :
    (Chains.Spec.step l (.putBlock b a .fail f2)).1 = l := by
  simp only [Chains.Spec.step, PutBlock]
  cases h1 : hasBlock l.db b.id with
  | error e => rfl
  | ok t =>
    cases t with
    | true => simp [updateLeash, KV.write]
    | false =>
      simp only
      cases h2 : hasBlock l.db b.parent with
      | error e => rfl
      | ok t =>
        cases t with
        | false => rfl
        | true =>
          simp only [Chains.putProtoBlock]
          cases h3 : Chains.protoBlockBatch l.db b with
          | error e => rfl
          | ok batch => simp [KV.write, fail]

theorem putMicro_fail (l : Linkage) (inv : Chains.MicroInv) (a : Chains.Addr) (f2 : Fate) :
    (Chains.Spec.step l (.putMicro inv a .fail f2)).1 = l := by
  simp only [Chains.Spec.step, PutMicroBlock]
  cases h1 : hasBlock l.db inv.totalBlockID with
  | error e => rfl
  | ok t =>
    cases t with
    | true => simp [updateLeash, KV.write]
    | false =>
      simp only
      cases h2 : hasBlock l.db inv.reference with
      | error e => rfl
      | ok t =>
        cases t with
        | false => rfl
        | true =>
          simp only [Chains.putMicroBlock]
          cases h3 : Chains.microBlockBatch l.db inv with
          | error e => rfl
          | ok batch => simp [KV.write, fail]

/-- a call that is cut short leaves what the same call would have left with other fates of its writes -/
theorem mid_opCode {o : Op} {l l' : Linkage} (h : Mid (opCode o) l l') (hr : ∀ g f, o ≠ .reopen g f) :
    ∃ o', Cut o o' ∧ l' = (Chains.Spec.step l o').1 := by
  cases o with
  | reopen g f => exact absurd rfl (hr g f)
  | moveLeash i a f =>
    rcases mid_op h with rfl | h
    · exact ⟨.moveLeash i a .fail, .move ..,  by simp [Chains.Spec.step, MoveLeash, updateLeash, KV.write]⟩
    · rcases mid_write h with rfl | h
      · exact ⟨.moveLeash i a .fail, .move ..,  by simp [Chains.Spec.step, MoveLeash, updateLeash, KV.write]⟩
      · have := mid_unlock h
        subst this
        exact ⟨.moveLeash i a f, .whole _, by simp [Chains.Spec.step, MoveLeash, updateLeash]⟩
  | putBlock b a f1 f2 =>
    have no : ∃ o', Cut (.putBlock b a f1 f2) o' ∧ l = (Chains.Spec.step l o').1 :=
      ⟨.putBlock b a .fail .fail, .block .., (putBlock_fail l b a .fail).symm⟩
    rcases mid_op h with rfl | h
    · exact no
    rcases mid_act_id h with rfl | h
    · exact no
    cases h1 : hasBlock l.db b.id with
    | error e => rw [h1] at h; have := mid_unlock h; subst this; exact no
    | ok t =>
      rw [h1] at h
      cases t with
      | true =>
        rcases mid_write h with rfl | h
        · exact no
        · have := mid_unlock h
          subst this
          exact ⟨.putBlock b a f1 f2, .whole _, by simp [Chains.Spec.step, PutBlock, h1, updateLeash]⟩
      | false =>
        rcases mid_act_id h with rfl | h
        · exact no
        cases h2 : hasBlock l.db b.parent with
        | error e => rw [h2] at h; have := mid_unlock h; subst this; exact no
        | ok t =>
          rw [h2] at h
          cases t with
          | false => have := mid_unlock h; subst this; exact no
          | true =>
            rcases mid_act_id h with rfl | h
            · exact no
            cases h3 : Chains.protoBlockBatch l.db b with
            | error e => rw [h3] at h; have := mid_unlock h; subst this; exact no
            | ok batch =>
              rw [h3] at h
              rcases mid_write h with rfl | h
              · exact no
              cases h4 : KV.write f1 l.db batch with
              | mk db' r =>
                rw [h4] at h
                cases r with
                | error e =>
                  have := mid_unlock h
                  subst this
                  exact ⟨.putBlock b a f1 f2, .whole _, by simp [Chains.Spec.step, PutBlock, h1, h2, h3, h4, Chains.putProtoBlock]⟩
                | ok u =>
                  rcases mid_write h with rfl | h
                  · exact ⟨.putBlock b a f1 .fail, .blockLeash ..,
                      by simp [Chains.Spec.step, PutBlock, h1, h2, h3, h4, Chains.putProtoBlock, updateLeash, write_fail]⟩
                  · have := mid_unlock h
                    subst this
                    exact ⟨.putBlock b a f1 f2, .whole _,
                      by simp [Chains.Spec.step, PutBlock, h1, h2, h3, h4, Chains.putProtoBlock, updateLeash]⟩
  | putMicro inv a f1 f2 =>
    have no : ∃ o', Cut (.putMicro inv a f1 f2) o' ∧ l = (Chains.Spec.step l o').1 :=
      ⟨.putMicro inv a .fail .fail, .micro .., (putMicro_fail l inv a .fail).symm⟩
    rcases mid_op h with rfl | h
    · exact no
    rcases mid_act_id h with rfl | h
    · exact no
    cases h1 : hasBlock l.db inv.totalBlockID with
    | error e => rw [h1] at h; have := mid_unlock h; subst this; exact no
    | ok t =>
      rw [h1] at h
      cases t with
      | true =>
        rcases mid_write h with rfl | h
        · exact no
        · have := mid_unlock h
          subst this
          exact ⟨.putMicro inv a f1 f2, .whole _, by simp [Chains.Spec.step, PutMicroBlock, h1, updateLeash]⟩
      | false =>
        rcases mid_act_id h with rfl | h
        · exact no
        cases h2 : hasBlock l.db inv.reference with
        | error e => rw [h2] at h; have := mid_unlock h; subst this; exact no
        | ok t =>
          rw [h2] at h
          cases t with
          | false => have := mid_unlock h; subst this; exact no
          | true =>
            rcases mid_act_id h with rfl | h
            · exact no
            cases h3 : Chains.microBlockBatch l.db inv with
            | error e => rw [h3] at h; have := mid_unlock h; subst this; exact no
            | ok batch =>
              rw [h3] at h
              rcases mid_write h with rfl | h
              · exact no
              cases h4 : KV.write f1 l.db batch with
              | mk db' r =>
                rw [h4] at h
                cases r with
                | error e =>
                  have := mid_unlock h
                  subst this
                  exact ⟨.putMicro inv a f1 f2, .whole _, by simp [Chains.Spec.step, PutMicroBlock, h1, h2, h3, h4, Chains.putMicroBlock]⟩
                | ok u =>
                  rcases mid_write h with rfl | h
                  · exact ⟨.putMicro inv a f1 .fail, .microLeash ..,
                      by simp [Chains.Spec.step, PutMicroBlock, h1, h2, h3, h4, Chains.putMicroBlock, updateLeash, write_fail]⟩
                  · have := mid_unlock h
                    subst this
                    exact ⟨.putMicro inv a f1 f2, .whole _,
                      by simp [Chains.Spec.step, PutMicroBlock, h1, h2, h3, h4, Chains.putMicroBlock, updateLeash]⟩

/-! ### a call on the registry that is cut short -/

theorem putPeer_fail (db : Peers.DB) (p : Peers.Peer) : ∃ e, putPeer .fail db p = (db, .error e) := by
  unfold putPeer
  split
  · split
    · split
      · exact ⟨_, rfl⟩
      · exact ⟨_, rfl⟩
    · exact ⟨_, rfl⟩
  · exact ⟨_, rfl⟩

/-- when the writes fail from now on, nothing changes -/
theorem append_stop (fs : Nat → Fate) (n : Nat) (hfs : ∀ i, n ≤ i → fs i = .fail) (r : Registry) (l : List (Option AddrPort)) :
    (Peers.appendLoop fs r l n).1 = r := by
  induction l with
  | nil => rfl
  | cons x l ih =>
    cases x with
    | none => exact ih
    | some ap =>
      obtain ⟨e, he⟩ := putPeer_fail r.db (newPeer ap)
      simp only [Peers.appendLoop, hfs n (Nat.le_refl n), he]
      split
      · split
        · rfl
        · rfl
        · exact ih
        · cases e <;> rfl
      · exact ih

theorem cut_stop (fs : Nat → Fate) (n : Nat) (r : Registry) (l : List (Option AddrPort)) : (Peers.appendLoop (cut fs n) r l n).1 = r :=
  append_stop _ n (fun i hi => by simp [cut, Nat.not_lt.mpr hi]) r l

theorem cut_below (fs : Nat → Fate) {n i : Nat} (hi : i < n) : cut fs n i = fs i := by simp [cut, hi]

theorem mid_append (fs : Nat → Fate) (l : List (Option AddrPort)) : ∀ (n : Nat) {r r' : Registry}, Mid (appendCode fs l n) r r' →
    ∃ fs', (fs' = fs ∨ ∃ m, fs' = cut fs m) ∧ (∀ i, i < n → fs' i = fs i) ∧ r' = (Peers.appendLoop fs' r l n).1 := by
  induction l with
  | nil => intro n r r' h; exact ⟨fs, Or.inl rfl, fun _ _ => rfl, by rw [mid_unlock h]; rfl⟩
  | cons x l ih =>
    intro n r r' h
    cases x with
    | none => exact ih n h
    | some ap =>
      have no : ∃ fs', (fs' = fs ∨ ∃ m, fs' = cut fs m) ∧ (∀ i, i < n → fs' i = fs i) ∧ r = (Peers.appendLoop fs' r (some ap :: l) n).1 :=
        ⟨cut fs n, Or.inr ⟨n, rfl⟩, fun i hi => cut_below fs hi, (cut_stop fs n r _).symm⟩
      rcases mid_act_id h with rfl | h
      · exact no
      by_cases hacc : acceptable r ap = true
      · rw [if_pos hacc] at h
        cases h1 : hasPeer r.db ap.addr with
        | error e => rw [h1] at h; cases e <;> (have := mid_unlock h; subst this; exact no)
        | ok t =>
          rw [h1] at h
          cases t with
          | true =>
            obtain ⟨fs', h0, h2, h3⟩ := ih n h
            exact ⟨fs', h0, h2, by rw [h3]; simp [Peers.appendLoop, hacc, h1]⟩
          | false =>
            cases h with
            | here => exact no
            | act _ _ h =>
              cases h4 : putPeer (fs n) r.db (newPeer ap) with
              | mk db' res =>
                simp only [h4] at h
                cases res with
                | error e =>
                  have hr' : r' = { r with db := db' } := by cases e <;> exact mid_unlock h
                  exact ⟨fs, Or.inl rfl, fun _ _ => rfl, by rw [hr']; cases e <;> simp [Peers.appendLoop, hacc, h1, h4]⟩
                | ok u =>
                  obtain ⟨fs', h0, h2, h3⟩ := ih (n + 1) h
                  refine ⟨fs', h0, fun i hi => h2 i (Nat.lt_succ_of_lt hi), ?_⟩
                  rw [h3]
                  simp [Peers.appendLoop, hacc, h1, h2 n (Nat.lt_succ_self n), h4]
      · rw [if_neg hacc] at h
        obtain ⟨fs', h0, h1, h2⟩ := ih n h
        exact ⟨fs', h0, h1, by rw [h2]; simp [Peers.appendLoop, hacc]⟩

/-- what is asked of the registry, whatever becomes of the writes of `AppendAddresses`; or nothing -/
theorem mid_registry {lib : Lib} {e : Peers.Event} {r r' : Registry} (h : Mid (registryCode lib e) r r') :
    r' = r ∨ ∃ e', CutEvent e e' ∧ r' = Peers.step lib r e' := by
  unfold registryCode at h
  split at h
  · rename_i fs l he
    rcases mid_op h with rfl | h
    · exact Or.inl rfl
    · obtain ⟨fs', h0, _, h2⟩ := mid_append fs l 0 h
      refine Or.inr ⟨⟨e.now, .append fs' l⟩, ?_, h2⟩
      obtain ⟨now, op⟩ := e
      cases he
      rcases h0 with rfl | ⟨m, rfl⟩
      · exact .whole _
      · exact .append now fs l m
  · rcases mid_op h with rfl | h
    · exact Or.inl rfl
    · cases h with
      | here => exact Or.inl rfl
      | act _ _ h => exact Or.inr ⟨e, .whole e, mid_unlock h⟩

/-! ### the calls on the registry -/

theorem run_traced {lib : Lib} {w w' : World} (h : Run lib w w') : ∃ es, Asked lib w es w' := by
  induction h with
  | nil => exact ⟨[], .nil⟩
  | @snoc v v' h t ih =>
    obtain ⟨es, T⟩ := ih
    cases t with
    | receive c i h => exact ⟨es, .quiet T (.receive v c i h) rfl⟩
    | finish o h => exact ⟨es, .quiet T (.finish v o h) rfl⟩
    | call c k h =>
      exact ⟨es, .quiet T (.call v c k h) (by
        show (c.effect v.sh).reg = v.sh.reg
        unfold Loading.Fine.Call.effect; cases c.op <;> rfl)⟩
    | other x =>
      cases x with
      | putBlock b a f1 f2 => exact ⟨es, .quiet T (.other v _) rfl⟩
      | putMicro inv a f1 f2 => exact ⟨es, .quiet T (.other v _) rfl⟩
      | registry e => exact ⟨es ++ [e], .registry T e⟩

theorem traced_run {lib : Lib} {w w' : World} {es : List Peers.Event} (h : Asked lib w es w') :
    Run lib w w' ∧ w'.sh.reg = Peers.exec lib w.sh.reg es := by
  induction h with
  | nil => exact ⟨.nil, rfl⟩
  | quiet h t hr ih => exact ⟨.snoc ih.1 t, by rw [hr]; exact ih.2⟩
  | registry h e ih =>
    refine ⟨.snoc ih.1 (.other _ (.registry e)), ?_⟩
    show Peers.step lib _ e = _
    rw [ih.2]
    simp [Peers.exec]

/-! ### what a run keeps -/

open Verif.Peers (view step_known) in
/-- the registry during a run -/
theorem run_reg {lib : Lib} {reg : Registry} {lk : Linkage} (R : Peers.Reachable lib reg) {w : World}
    (h : Run lib (World.start reg lk) w) :
    Peers.Reachable lib w.sh.reg ∧ ∀ b, view reg.db b ≠ none → view w.sh.reg.db b ≠ none := by
  induction h with
  | nil => exact ⟨R, fun _ h => h⟩
  | @snoc v v' h t ih =>
    cases t with
    | receive c i h => exact ih
    | finish o h => exact ih
    | call c k h =>
      have e : (c.effect v.sh).reg = v.sh.reg := by unfold Loading.Fine.Call.effect; cases c.op <;> rfl
      show Peers.Reachable lib (c.effect v.sh).reg ∧ ∀ b, view reg.db b ≠ none → view (c.effect v.sh).reg.db b ≠ none
      rw [e]; exact ih
    | other x =>
      cases x with
      | putBlock b a f1 f2 => exact ih
      | putMicro inv a f1 f2 => exact ih
      | registry e => exact ⟨ih.1.step e, fun b hb => step_known ih.1.inv.good (ih.2 b hb)⟩

open Verif.Peers (view step_known) in
theorem mid_known {lib : Lib} {e : Peers.Event} {r r' : Registry} (R : Peers.Reachable lib r) (h : Mid (registryCode lib e) r r') :
    Peers.Reachable lib r' ∧ ∀ b, view r.db b ≠ none → view r'.db b ≠ none := by
  rcases mid_registry h with rfl | ⟨e', _, rfl⟩
  · exact ⟨R, fun _ h => h⟩
  · exact ⟨R.step e', fun b hb => step_known R.inv.good hb⟩

theorem Cut.inserts {o o' : Op} (h : Cut o o') : inserts [o'] = inserts [o] := by cases h <;> rfl

theorem Cut.not_reopen {o o' : Op} (h : Cut o o') (hr : ∀ g f, o ≠ .reopen g f) : ∀ g f, o' ≠ .reopen g f := by
  cases h with
  | whole => exact hr
  | _ => intro g f e; cases e

theorem Cut.leash {o o' : Op} (h : Cut o o') {id : Chains.BlockID} {a : Chains.Addr} {f : Fate} (e : o' = .moveLeash id a f) :
    ∃ f', o = .moveLeash id a f' := by
  cases h with
  | whole => exact ⟨f, e⟩
  | move i a' f' => cases e; exact ⟨f', rfl⟩
  | _ => cases e

theorem Almost.inserts {c o : List Op} (h : Almost c o) : inserts o = inserts c := by
  cases h with
  | whole => rfl
  | last pre x x' e hc => rw [e, Chains.inserts_append, Chains.inserts_append, hc.inserts]

/-- the call that goes on when the process ends is allowed -/
theorem pending_call {lib : Lib} {g : ProtoBlock} {N : Nat} {src : Loading.Source} {w w' : World} (H : Steady lib g N src w)
    (t : Step lib w w') {mine : Bool} {o : Op} (hl : w'.log = w.log ++ [(mine, o)]) (hN : inserts (w.calls ++ [o]) ≤ N) :
    (∀ g f, o ≠ .reopen g f) ∧ ∀ id a f, o = .moveLeash id a f → Stored w.sh.link.db id := by
  cases t with
  | receive c i h => simp at hl
  | finish x h => simp at hl
  | call c k h =>
    have ho : c.op = some o := by
      cases hc : c.op with
      | none => simp [hc] at hl
      | some o' => simp [hc] at hl; rw [hl.2]
    rcases H.busy _ h with hx | hx
    · cases hx
    · have hcost : c.cost = inserts [o] := by simp [Loading.Fine.Call.cost, ho]
      rw [Chains.inserts_append] at hN
      obtain ⟨hal, _⟩ := hx w.sh (Loading.Fine.Later.refl _) (H.sound.mono (by rw [hcost]; omega))
      refine ⟨?_, (hal o ho).2⟩
      intro g f e
      subst e
      cases c <;> simp [Loading.Fine.Call.op] at ho
  | other x =>
    have ho : x.op = some o := by
      cases hc : x.op with
      | none => simp [hc] at hl
      | some o' => simp [hc] at hl; rw [hl.2]
    cases x with
    | putBlock b a f1 f2 => simp [Loading.Fine.Other.op] at ho; subst ho; exact ⟨fun _ _ e => (by cases e), fun _ _ _ e => (by cases e)⟩
    | putMicro b a f1 f2 => simp [Loading.Fine.Other.op] at ho; subst ho; exact ⟨fun _ _ e => (by cases e), fun _ _ _ e => (by cases e)⟩
    | registry e => simp [Loading.Fine.Other.op] at ho

/-- the blocks with their records -/
def KeepsBlocks (db db' : Chains.DB) : Prop := ∀ id r, getBlockByID db id = .ok r → getBlockByID db' id = .ok r

/-- the known peers -/
def KeepsPeers (db db' : Peers.DB) : Prop := ∀ b, Peers.view db b ≠ none → Peers.view db' b ≠ none

theorem KeepsPeers.trans {a b c : Peers.DB} (h : KeepsPeers a b) (k : KeepsPeers b c) : KeepsPeers a c := fun x hx => k x (h x hx)

theorem KeepsBlocks.trans {a b c : Chains.DB} (h : KeepsBlocks a b) (k : KeepsBlocks b c) : KeepsBlocks a c :=
  fun i r hx => k i r (h i r hx)

theorem killed {lib : Lib} {g : ProtoBlock} {N : Nat} {lk : Linkage} {reg : Registry} (S : Serving g N lk) (R : Peers.Reachable lib reg)
    {w : World} (r : Run lib (World.start reg lk) w) {calls : List Op} {lk' : Linkage} {db' : Peers.DB} (k : Killed lib w calls lk' db') :
    (inserts calls ≤ N → ∃ ops, Almost calls ops ∧ lk' = Chains.Spec.exec lk ops ∧ Serving g (N - inserts calls) lk' ∧
      KeepsBlocks lk.db lk'.db) ∧
    (∃ r', Peers.Reachable lib r' ∧ r'.db = db') ∧ KeepsPeers reg.db db' := by
  obtain ⟨R1, K1⟩ := run_reg R r
  have hsteady : inserts w.calls ≤ N → _ := steady (src := received w) S R r (received_from w)
  have hex := Loading.Fine.store_exec r
  cases k with
  | between e r' hr =>
    obtain ⟨R2, K2⟩ := mid_known R1 hr
    refine ⟨fun hN => ?_, ⟨r', R2, rfl⟩, fun b hb => K2 b (K1 b hb)⟩
    obtain ⟨H, hl⟩ := hsteady hN
    exact ⟨w.calls, .whole, hex, H.sound.store, fun id x hx => hl.record id x hx⟩
  | within w' t mine o hlog lk' hm e r' hr =>
    obtain ⟨R2, K2⟩ := mid_known R1 hr
    refine ⟨fun hN => ?_, ⟨r', R2, rfl⟩, fun b hb => K2 b (K1 b hb)⟩
    have hN' := hN
    rw [Chains.inserts_append] at hN'
    obtain ⟨H, hl⟩ := hsteady (by omega)
    obtain ⟨hnr, hst⟩ := pending_call H t hlog hN
    obtain ⟨o', hc, he⟩ := mid_opCode hm hnr
    have := Sound.op (lib := lib) (g := g) (s := w.sh) o' (N - inserts (w.calls ++ [o])) (H.sound.mono (by
      rw [hc.inserts, Chains.inserts_append]; omega)) (hc.not_reopen hnr) (fun id a f e => by
        obtain ⟨f', e'⟩ := hc.leash e
        exact hst id a f' e')
    refine ⟨w.calls ++ [o'], .last w.calls o o' rfl hc, ?_, ?_, ?_⟩
    · rw [he, hex, Chains.exec_append]; rfl
    · rw [he]; exact this.1.store
    · intro id x hx
      rw [he]
      exact this.2.record id x (hl.record id x hx)

/-! ### opening the store -/

theorem first_open {g : ProtoBlock} {l0 : Linkage} (hf : Fresh g l0) (f : Fate) :
    ((NewLinkage f [] g).1 = [] ∨ (NewLinkage f [] g).1 = l0.db) ∧ ∀ lk, (NewLinkage f [] g).2 = .ok lk → (NewLinkage f [] g).1 = l0.db ∧ lk = l0 := by
  obtain ⟨ga, sc, hga, hsc, hgen, R⟩ := Chains.fresh_rep hf
  have h0 : Chains.getCounter [] Chains.blocksCounter = .ok 0 := by simp [Chains.getCounter, KV.get]
  have hf' : NewLinkage .ok [] g = (l0.db, .ok l0) := hf
  cases f with
  | ok => rw [hf']; exact ⟨Or.inr rfl, fun lk h => ⟨rfl, by cases h; rfl⟩⟩
  | fail =>
    have e : NewLinkage .fail [] g = ([], fail .writeFailed) := by
      simp only [NewLinkage, Chains.initStorage, h0, if_true, Chains.genesisBatch_eq hga hsc, KV.write, fail]
    rw [e]
    exact ⟨Or.inl rfl, fun lk h => by cases h⟩
  | lostAck =>
    have e1 : (NewLinkage .lostAck [] g).1 = (NewLinkage .ok [] g).1 := by
      simp only [NewLinkage, Chains.initStorage, h0, if_true, Chains.genesisBatch_eq hga hsc, KV.write, fail]
    have e2 : ∃ x, (NewLinkage .lostAck [] g).2 = .error x := by
      simp only [NewLinkage, Chains.initStorage, h0, if_true, Chains.genesisBatch_eq hga hsc, KV.write, fail]
      exact ⟨_, rfl⟩
    obtain ⟨x, hx⟩ := e2
    rw [e1, hf', hx]
    exact ⟨Or.inr rfl, fun lk h => by cases h⟩

theorem again_open {g : ProtoBlock} {n : Nat} {lk : Linkage} (S : Serving g n lk) (f : Fate) : NewLinkage f lk.db g = (lk.db, .ok lk) := by
  rw [Props.C24_reopen S.reachable g f]
  have := S.genesis_eq
  cases lk
  simp only at this
  rw [this]

/-- what the disk holds: nothing yet, or the store `lk` -/
def Holds (l0 : Linkage) (d : Disk) (lk : Linkage) : Prop := (d.store = [] ∧ lk = l0) ∨ d.store = lk.db

theorem Holds.opens {g : ProtoBlock} {n : Nat} {l0 lk : Linkage} {d : Disk} (h : Holds l0 d lk) (hf : Fresh g l0) (S : Serving g n lk)
    (f : Fate) : Holds l0 ⟨(NewLinkage f d.store g).1, d.peers⟩ lk ∧
      ∀ lk', (NewLinkage f d.store g).2 = .ok lk' → lk' = lk := by
  rcases h with ⟨h1, rfl⟩ | h
  · rw [h1]
    obtain ⟨a, b⟩ := first_open hf f
    refine ⟨?_, fun lk' h => (b lk' h).2⟩
    rcases a with a | a
    · exact Or.inl ⟨a, rfl⟩
    · exact Or.inr a
  · rw [h, again_open S f]
    exact ⟨Or.inr rfl, fun lk' h => by cases h; rfl⟩

/-- the state of the disk after some runs -/
structure Intact (lib : Lib) (g : ProtoBlock) (l0 : Linkage) (N : Nat) (cs : List (List Op)) (d : Disk) (lk : Linkage) : Prop where
  store : Holds l0 d lk
  serving : Serving g (N - inserts cs.flatten) lk
  calls : ∃ os, Each cs os ∧ lk = Chains.Spec.exec l0 os.flatten
  peers : ∃ r, Peers.Reachable lib r ∧ r.db = d.peers

theorem Disk.registry_reachable {lib : Lib} {d : Disk} (h : ∃ r, Peers.Reachable lib r ∧ r.db = d.peers) (cfg : Config) (fs : Nat → Fate)
    (seeds : List (Option AddrPort)) : Peers.Reachable lib (NewRegistry cfg d.peers) ∧ Peers.Reachable lib (d.registry cfg fs seeds) ∧
      KeepsPeers d.peers (d.registry cfg fs seeds).db := by
  obtain ⟨r, R, e⟩ := h
  have R1 : Peers.Reachable lib (NewRegistry cfg d.peers) := by
    rw [← e]; exact R.step ⟨0, .reopen cfg⟩
  have R2 : Peers.Reachable lib (d.registry cfg fs seeds) := R1.step ⟨0, .append fs seeds⟩
  refine ⟨R1, R2, fun b hb => ?_⟩
  exact Peers.step_known (lib := lib) (e := ⟨0, .append fs seeds⟩) R1.inv.good hb

theorem Intact.life {lib : Lib} {g : ProtoBlock} {l0 : Linkage} (hf : Fresh g l0) {N : Nat} {cs : List (List Op)} {d : Disk} {lk : Linkage}
    (I : Intact lib g l0 N cs d lk) {c : List Op} {d' : Disk} (t : OneRun lib g d c d') (hN : inserts (cs ++ [c]).flatten ≤ N) :
    ∃ lk', Intact lib g l0 N (cs ++ [c]) d' lk' ∧ KeepsBlocks lk.db lk'.db ∧ KeepsPeers d.peers d'.peers := by
  have hfl : inserts (cs ++ [c]).flatten = inserts cs.flatten + inserts c := by
    rw [List.flatten_append, Chains.inserts_append]; simp
  rw [hfl] at hN
  obtain ⟨os, hE, hex⟩ := I.calls
  have step : ∀ (ops : List Op), Almost c ops → ∀ lk', lk' = Chains.Spec.exec lk ops →
      ∃ os, Each (cs ++ [c]) os ∧ lk' = Chains.Spec.exec l0 os.flatten := by
    intro ops ha lk' he
    refine ⟨os ++ [ops], .snoc hE ha, ?_⟩
    rw [he, hex, List.flatten_append, Chains.exec_append]
    simp
  cases t with
  | noStart cfg fs seeds f =>
    obtain ⟨_, R2, K⟩ := Disk.registry_reachable I.peers cfg fs seeds
    refine ⟨lk, ⟨?_, ?_, step [] .whole lk rfl, ⟨_, R2, rfl⟩⟩, fun _ _ h => h, K⟩
    · exact (I.store.opens hf I.serving f).1
    · rw [hfl]; exact I.serving
  | run cfg fs seeds f lk1 ho hs w r calls lk' db' k =>
    obtain ⟨_, R2, K⟩ := Disk.registry_reachable I.peers cfg fs seeds
    have := (I.store.opens hf I.serving f).2 lk1 ho
    subst this
    obtain ⟨h1, h2, h3⟩ := killed I.serving R2 r k
    obtain ⟨ops, ha, he, hS, hK⟩ := h1 (by omega)
    refine ⟨lk', ⟨Or.inr rfl, ?_, step ops ha lk' he, h2⟩, hK, K.trans h3⟩
    rw [hfl, ← Nat.sub_sub]; exact hS
  | machine cfg fs seeds f lk1 ho hs w v r r' calls calls' lk' lk'' db' db'' k k' =>
    obtain ⟨_, R2, K⟩ := Disk.registry_reachable I.peers cfg fs seeds
    have := (I.store.opens hf I.serving f).2 lk1 ho
    subst this
    obtain ⟨h1, _, _⟩ := killed I.serving R2 r k
    obtain ⟨_, h2, h3⟩ := killed I.serving R2 r' k'
    obtain ⟨ops, ha, he, hS, hK⟩ := h1 (by omega)
    refine ⟨lk', ⟨Or.inr rfl, ?_, step ops ha lk' he, h2⟩, hK, K.trans h3⟩
    rw [hfl, ← Nat.sub_sub]; exact hS

theorem inserts_snoc_le {cs : List (List Op)} {c : List Op} {N : Nat} (h : inserts (cs ++ [c]).flatten ≤ N) : inserts cs.flatten ≤ N := by
  rw [List.flatten_append, Chains.inserts_append] at h; omega

theorem Intact.lives {lib : Lib} {g : ProtoBlock} {l0 : Linkage} (hf : Fresh g l0) {N : Nat} {cs0 : List (List Op)} {d : Disk} {lk : Linkage}
    (I : Intact lib g l0 N cs0 d lk) {cs : List (List Op)} {d' : Disk} (t : Lives lib g d cs d') (hN : inserts (cs0 ++ cs).flatten ≤ N) :
    ∃ lk', Intact lib g l0 N (cs0 ++ cs) d' lk' ∧ KeepsBlocks lk.db lk'.db ∧ KeepsPeers d.peers d'.peers := by
  induction t with
  | nil => exact ⟨lk, by simpa using I, fun _ _ h => h, fun _ h => h⟩
  | snoc h t ih =>
    rw [← List.append_assoc] at hN ⊢
    obtain ⟨lk1, I1, a, b⟩ := ih (inserts_snoc_le hN)
    obtain ⟨lk2, I2, c, d⟩ := I1.life hf t hN
    exact ⟨lk2, I2, a.trans c, b.trans d⟩

theorem Intact.first {lib : Lib} {g : ProtoBlock} {l0 : Linkage} (hf : Fresh g l0) (N : Nat) (hN : N + 2 < 2 ^ 32) :
    Intact lib g l0 N [] ⟨[], []⟩ l0 where
  store := Or.inl ⟨rfl, rfl⟩
  serving := ⟨l0, [], hf, trivial, (fun _ _ h => by cases h), by simpa [inserts] using hN, rfl⟩
  calls := ⟨[], .nil, rfl⟩
  peers := ⟨NewRegistry ⟨0, .zero, []⟩ [], ⟨_, [], rfl⟩, rfl⟩

/-! ### runs in which only blocks are stored -/

open Verif.Loading.Fine (Other)

theorem run_ops {lib : Lib} {v0 v : World} (h : Run lib v0 v) (xs : List Other) (hx : ∀ x, x ∈ xs → x.op.isSome = true) :
    ∃ w, Run lib v0 w ∧ w.calls = v.calls ++ xs.filterMap Other.op ∧ w.sh.reg = v.sh.reg := by
  induction xs generalizing v with
  | nil => exact ⟨v, h, by simp, rfl⟩
  | cons x xs ih =>
    have hx0 := hx x (List.mem_cons_self ..)
    obtain ⟨w, h1, h2, h3⟩ := ih (.snoc h (.other v x)) (fun y hy => hx y (List.mem_cons_of_mem _ hy))
    refine ⟨w, h1, ?_, ?_⟩
    · rw [h2]
      cases x <;> simp [World.calls, Other.op] at hx0 ⊢
    · rw [h3]
      cases x <;> simp [Other.effect, Other.op] at hx0 ⊢

theorem life_ops {lib : Lib} {g : ProtoBlock} {lk : Linkage} {d : Disk} (ho : (NewLinkage .ok d.store g).2 = .ok lk)
    (hs : LogInitialStats lk.db = .ok ()) (xs : List Other) (hx : ∀ x, x ∈ xs → x.op.isSome = true) :
    OneRun lib g d (xs.filterMap Other.op) ⟨(Chains.Spec.exec lk (xs.filterMap Other.op)).db, d.peers⟩ := by
  obtain ⟨w, h1, h2, h3⟩ := run_ops (lib := lib) (.nil (w := World.start (d.registry ⟨0, .zero, []⟩ (fun _ => .ok) []) lk)) xs hx
  have h2 : w.calls = xs.filterMap Other.op := h2
  have h3 : w.sh.reg = d.registry ⟨0, .zero, []⟩ (fun _ => .ok) [] := h3
  have h4 := Loading.Fine.store_exec h1
  have k : Killed lib w w.calls w.sh.link w.sh.reg.db := .between ⟨0, .take⟩ _ (.here _ _)
  have := OneRun.run (d := d) ⟨0, .zero, []⟩ (fun _ => .ok) [] .ok lk ho hs w h1 _ _ _ k
  rw [h4, h2, h3] at this
  exact this

/-- the process ends between the two writes of `PutBlock` -/
theorem life_cut {lib : Lib} {g : ProtoBlock} {lk : Linkage} {d : Disk} (ho : (NewLinkage .ok d.store g).2 = .ok lk)
    (hs : LogInitialStats lk.db = .ok ()) (b : ProtoBlock) (a : Chains.Addr) (f2 : Fate) (h1 : hasBlock lk.db b.id = .ok false)
    (h2 : hasBlock lk.db b.parent = .ok true) (h3 : (Chains.putProtoBlock .ok lk.db b).2 = .ok ()) :
    OneRun lib g d [.putBlock b a .ok f2] ⟨(Chains.putProtoBlock .ok lk.db b).1, d.peers⟩ := by
  cases hb : Chains.protoBlockBatch lk.db b with
  | error e => simp [Chains.putProtoBlock, hb] at h3
  | ok batch =>
    have hm : Mid (opCode (.putBlock b a .ok f2)) lk { lk with db := (KV.write .ok lk.db batch).1 } := by
      refine .op _ (.act _ _ ?_)
      rw [h1]
      refine .act _ _ ?_
      show Mid (match hasBlock lk.db b.parent with | .error e => _ | .ok false => _ | .ok true => _) _ _
      rw [h2]
      refine .act _ _ ?_
      show Mid (match Chains.protoBlockBatch lk.db b with | .error e => _ | .ok batch => _) _ _
      rw [hb]
      exact .act _ _ (.here _ _)
    have k := Killed.within (lib := lib) (w := World.start (d.registry ⟨0, .zero, []⟩ (fun _ => .ok) []) lk) _
      (.other _ (.putBlock b a .ok f2)) false (.putBlock b a .ok f2) rfl _ hm ⟨0, .take⟩ _ (.here _ _)
    have := OneRun.run (d := d) ⟨0, .zero, []⟩ (fun _ => .ok) [] .ok lk ho hs _ .nil _ _ _ k
    have e : (Chains.putProtoBlock .ok lk.db b).1 = (KV.write .ok lk.db batch).1 := by simp [Chains.putProtoBlock, hb]
    rw [e]
    exact this

end Verif.Services
