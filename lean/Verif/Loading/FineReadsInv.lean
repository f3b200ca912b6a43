import Verif.Loading.FineReads
import Verif.Loading.FineRun
import Verif.Chains.ReadsReach
/-
The loader among the other goroutines, on a disk that fails to read.
-/

set_option autoImplicit false

namespace Verif.Loading.Fine

open Verif
open Verif.Chains (Addr BlockID ProtoBlock MicroInv Linkage Env)
open Verif.Chains.Rd (Faults readFailed)
open Verif.Chains.Spec (Stored)
open Verif.Peers (Peer Conn Registry Lib)
open Verif.KV (Fate)

variable {lib : Lib} {g : ProtoBlock} {n : Nat} {src : Source}

/-! ### the outcomes of the calls -/

theorem lca_stored {db : Chains.DB} {ns : List Chains.Node} {hs : List Nat} (R : Chains.Rep db ns hs) {a b c : BlockID}
    (h : Chains.lca db a b = .ok c) : Stored db c := by
  obtain ⟨ha, hb, _⟩ := R.lca_ok h
  obtain ⟨n1, hn1⟩ := R.stored_iff.mp ha
  obtain ⟨n2, hn2⟩ := R.stored_iff.mp hb
  obtain ⟨m, cid, hc, _, e⟩ := R.lca_nums hn1 hn2
  rw [e] at h
  split at h
  · cases h
  · cases h; exact R.stored_iff.mpr ⟨m, hc⟩

theorem lcb_odd {lk : Linkage} (S : Serving g n lk) (F : Faults) (env : Env) (a : Addr) :
    Chains.Rd.LCB F env lk a = goPanic ∨ (∃ e, Chains.Rd.LCB F env lk a = fail e) ∨
      ∃ id, Chains.Rd.LCB F env lk a = .ok id ∧ Stored lk.db id := by
  have sort : ∀ r : Go BlockID, (∀ id, r = .ok id → Stored lk.db id) →
      r = goPanic ∨ (∃ e, r = fail e) ∨ ∃ id, r = .ok id ∧ Stored lk.db id := by
    intro r h
    rcases r with (e | _) | id
    · exact Or.inr (Or.inl ⟨e, rfl⟩)
    · exact Or.inl rfl
    · exact Or.inr (Or.inr ⟨id, rfl, h id rfl⟩)
  refine sort _ (fun id h => ?_)
  obtain ⟨ns, hs, R, _⟩ := Chains.reachable_rep S.reachable
  have hleash : ∀ a id, Chains.getLeash lk.db a = .ok id → Stored lk.db id := by
    intro a id h
    obtain ⟨l0, ops, hf, hd, hr, hb, rfl⟩ := S
    exact (Props.C09_no_dangling hf ops (by omega) hd a id h).1
  unfold Chains.Rd.LCB at h
  rcases Chains.Rd.safe_getLeash F lk.db a with e | ⟨_, e⟩
  · rw [e] at h
    cases hg : Chains.getLeash lk.db a with
    | error x =>
      rw [hg] at h
      rcases x with x | _
      · cases x <;> cases h
        rw [S.genesis_eq]; exact S.genesis_stored
      · cases h
    | ok head =>
      rw [hg] at h
      simp only at h
      obtain ⟨ls, _, h⟩ := go_bind_eq_ok.mp h
      obtain ⟨best, _, h⟩ := go_bind_eq_ok.mp h
      split at h
      · cases h; exact hleash _ _ hg
      · rcases Chains.Rd.safe_lca F lk.db best.longest head with e' | ⟨_, e'⟩
        · rw [e'] at h; exact lca_stored R h
        · rw [e'] at h; cases h
  · rw [e] at h; cases h

theorem leashScore_odd (F : Faults) (lk : Linkage) (a : Addr) : Chains.Rd.LeashScore F lk a ≠ goPanic := by
  have key : ∀ id, (Chains.Rd.getBlockByID F lk.db id >>= fun bl => (pure bl.score : Go Nat)) ≠ goPanic := by
    intro id h
    rcases Chains.Rd.safe_getBlockByID F lk.db id with e | ⟨_, e⟩
    · rw [e] at h
      have := getBlockByID_no_panic lk.db id
      cases hb : Chains.getBlockByID lk.db id with
      | ok b => rw [hb] at h; cases h
      | error x =>
        rw [hb] at h this
        rcases x with x | _
        · cases h
        · exact this rfl
    · rw [e] at h; cases h
  exact key _

/-- every call on a failing disk has one of the outcomes of `Out` -/
theorem Call.outRd {s : Shared} (S : Sound lib g n s) (D : Disk) (c : Call) : Out lib c s (c.resRd D lib s) (c.effectRd D s) := by
  cases c with
  | hasBlock id =>
    exact (Chains.Rd.safe_hasBlock D.chains s.link.db id).out.imp (fun h => ⟨h, rfl⟩) (fun h => ⟨⟨_, h⟩, rfl⟩)
  | leashOf a => exact (Chains.Rd.safe_LeashOf D.chains s.link a).out.imp (fun h => ⟨h, rfl⟩) (fun h => ⟨⟨_, h⟩, rfl⟩)
  | leashScore a => exact Or.inr ⟨leashScore_odd D.chains s.link a, rfl⟩
  | lastIDs id m => exact (Chains.Rd.safe_LastIDs D.chains s.link.db id m).out.imp (fun h => ⟨h, rfl⟩) (fun h => ⟨⟨_, h⟩, rfl⟩)
  | lcb env a => exact Or.inr ⟨lcb_odd S.store D.chains env a, rfl⟩
  | moveLeash f id a => exact Or.inl ⟨rfl, rfl⟩
  | putBlock f1 f2 b a =>
    rcases Chains.Rd.safe_step D.chains s.link (.putBlock b a f1 f2) with h | ⟨_, h⟩
    · exact Or.inl ⟨congrArg (fun p : Linkage × Go Unit => p.2) h, by simp only [Call.effectRd, Call.effect, Call.op, h]⟩
    · exact Or.inr ⟨⟨_, congrArg (fun p : Linkage × Go Unit => p.2) h⟩, by simp only [Call.effectRd, Call.op, h]⟩
  | connections env =>
    have : Peers.Rd.Connections D.peers lib env s.reg = Peers.Connections lib env s.reg ∨
        ∃ e, Peers.Rd.Connections D.peers lib env s.reg = fail e := by
      have key : Peers.Rd.Connections D.peers lib env s.reg = Peers.Connections lib env s.reg ∨
          Peers.Rd.Connections D.peers lib env s.reg = fail readFailed := by
        unfold Peers.Rd.Connections Peers.Connections
        rcases Peers.Rd.connectionsLoop_safe D.peers s.reg.db (env.mapOrder s.reg.connections) with h | ⟨e, h, hor⟩
        · left; rw [h]
        · rcases hor with rfl | h'
          · right; rw [h]; rfl
          · left; rw [h, h']
      exact key.imp id (fun h => ⟨_, h⟩)
    exact this.imp (fun h => ⟨h, rfl⟩) (fun h => ⟨h, rfl⟩)
  | peerOf a => exact (Peers.Rd.peer_safe D.peers s.reg.db a).imp (fun h => ⟨h, rfl⟩) (fun h => ⟨⟨_, h.2⟩, rfl⟩)

theorem Other.soundRd {s : Shared} (D : Disk) (x : Other) (h : Sound lib g (n + x.cost) s) :
    Sound lib g n (x.effectRd D lib s) ∧ Later s (x.effectRd D lib s) := by
  have nothing : Sound lib g n s ∧ Later s s := ⟨h.mono (Nat.le_add_right _ _), Later.refl _⟩
  cases x with
  | putBlock b a f1 f2 =>
    rcases Chains.Rd.safe_step D.chains s.link (.putBlock b a f1 f2) with e | ⟨_, e⟩
    · have := Other.sound (Other.putBlock b a f1 f2) h
      simpa only [Other.effectRd, Other.effect, e] using this
    · simpa only [Other.effectRd, e] using nothing
  | putMicro inv a f1 f2 =>
    rcases Chains.Rd.safe_step D.chains s.link (.putMicro inv a f1 f2) with e | ⟨_, e⟩
    · have := Other.sound (Other.putMicro inv a f1 f2) h
      simpa only [Other.effectRd, Other.effect, e] using this
    · simpa only [Other.effectRd, e] using nothing
  | registry e =>
    obtain ⟨es, he⟩ := Peers.Rd.step_exec D.peers lib h.reg.inv e
    have key : ∀ (es : List Peers.Event) {s : Shared}, Sound lib g n s →
        Sound lib g n { s with reg := Peers.exec lib s.reg es } ∧ Later s { s with reg := Peers.exec lib s.reg es } := by
      intro es
      induction es with
      | nil => exact fun h => ⟨h, Later.refl _⟩
      | cons e es ih =>
        intro s h
        have h1 := Other.sound (Other.registry e) (n := n) (s := s) (h.mono (by
          show n + 0 ≤ n
          omega))
        obtain ⟨h2, l2⟩ := ih h1.1
        exact ⟨h2, h1.2.trans l2⟩
    have := key es (s := s) nothing.1
    rw [← he] at this
    exact this

/-! ### runs -/

theorem Steady.stepRd {N : Nat} {w w' : World} {tr : List Answer} (H : Steady lib g N src w) (t : RdStep lib w tr w')
    (hi : ∀ c i, (c, i) ∈ w'.ins → i.From src) (hN : Chains.Spec.inserts w'.calls ≤ N) :
    Steady lib g N src w' ∧ Later w.sh w'.sh := by
  cases t with
  | receive c i h =>
    exact ⟨H.receive c i h (hi c i (List.mem_append.mpr (Or.inr (List.mem_singleton.mpr rfl)))), Later.refl _⟩
  | finish o h => exact ⟨H.finish o h, Later.refl _⟩
  | call D c k h =>
    refine H.call c k h (Call.outRd H.sound D c) ?_
    have e : Chains.Spec.inserts (w.calls ++ c.op.toList) ≤ N := by rw [← calls_append w true c.op]; exact hN
    rwa [Chains.inserts_append] at e
  | other D x =>
    refine H.other x (fun _ => Other.soundRd D x) ?_
    have e : Chains.Spec.inserts (w.calls ++ x.op.toList) ≤ N := by rw [← calls_append w false x.op]; exact hN
    rwa [Chains.inserts_append] at e

theorem RdStep.ins {w w' : World} {tr : List Answer} (t : RdStep lib w tr w') : ∃ l, w'.ins = w.ins ++ l := by
  cases t with
  | receive c i h => exact ⟨_, rfl⟩
  | call D c k h => exact ⟨[], by simp⟩
  | finish o h => exact ⟨[], by simp⟩
  | other D x => exact ⟨[], by simp⟩

theorem RdStep.inserts {w w' : World} {tr : List Answer} (t : RdStep lib w tr w') :
    Chains.Spec.inserts w.calls ≤ Chains.Spec.inserts w'.calls := by
  cases t with
  | receive c i h => exact Nat.le_refl _
  | finish o h => exact Nat.le_refl _
  | call D c k h =>
    show _ ≤ Chains.Spec.inserts ((w.log ++ (c.op.map (fun o => (true, o))).toList).map (·.2))
    rw [calls_append, Chains.inserts_append]; omega
  | other D x =>
    show _ ≤ Chains.Spec.inserts ((w.log ++ (x.op.map (fun o => (false, o))).toList).map (·.2))
    rw [calls_append, Chains.inserts_append]; omega

theorem steadyRd {N : Nat} {reg : Registry} {lk : Linkage} (S : Serving g N lk) (R : Peers.Reachable lib reg) {w : World}
    {tr : List Answer} (h : RdRun lib (World.start reg lk) tr w) (hi : ∀ c i, (c, i) ∈ w.ins → i.From src)
    (hN : Chains.Spec.inserts w.calls ≤ N) : Steady lib g N src w ∧ Later ⟨lk, reg⟩ w.sh := by
  induction h with
  | nil => exact ⟨steady_start S R, Later.refl _⟩
  | snoc h t ih =>
    obtain ⟨l, hl⟩ := t.ins
    obtain ⟨H, hl⟩ := ih (fun c i hm => hi c i (by rw [hl]; exact List.mem_append.mpr (Or.inl hm))) (Nat.le_trans t.inserts hN)
    obtain ⟨H', hl'⟩ := H.stepRd t hi hN
    exact ⟨H', hl.trans hl'⟩

/-- the store is what some of the recorded calls made of it -/
theorem store_execRd {reg : Registry} {lk : Linkage} {w : World} {tr : List Answer} (h : RdRun lib (World.start reg lk) tr w) :
    ∃ done : List Chains.Spec.Op, done.Sublist w.calls ∧ w.sh.link = Chains.Spec.exec lk done := by
  induction h with
  | nil => exact ⟨[], List.Sublist.refl _, rfl⟩
  | @snoc v v' tr tr' h t ih =>
    obtain ⟨done, hd, ih⟩ := ih
    have one : ∀ (D : Disk) (o : Chains.Spec.Op) {cs : List Chains.Spec.Op} {l : Linkage}, cs = v.calls ++ [o] →
        l = (Chains.Rd.step D.chains v.sh.link o).1 → ∃ done, done.Sublist cs ∧ l = Chains.Spec.exec lk done := by
      rintro D o _ _ rfl rfl
      rcases Chains.Rd.safe_step D.chains v.sh.link o with e | ⟨_, e⟩
      · refine ⟨done ++ [o], hd.append (List.Sublist.refl _), ?_⟩
        rw [e, Chains.exec_append, ← ih]
        rfl
      · exact ⟨done, hd.trans (List.sublist_append_left _ _), by rw [e]; exact ih⟩
    cases t with
    | receive c i h => exact ⟨done, hd, ih⟩
    | finish o h => exact ⟨done, hd, ih⟩
    | call D c k h =>
      have hc : World.calls ⟨v.own, some (k (c.resRd D lib v.sh)), c.effectRd D v.sh, v.ins,
        v.log ++ (c.op.map (fun o => (true, o))).toList⟩ = v.calls ++ c.op.toList := calls_append v true c.op
      cases ho : c.op with
      | none =>
        have e : c.effectRd D v.sh = v.sh := by unfold Call.effectRd; rw [ho]
        refine ⟨done, ?_, by rw [show (c.effectRd D v.sh).link = v.sh.link from by rw [e]]; exact ih⟩
        rw [← ho, hc, ho]; simpa using hd
      | some o =>
        refine one D o (by rw [← ho, hc, ho]; rfl) ?_
        show (c.effectRd D v.sh).link = _
        unfold Call.effectRd; rw [ho]
    | other D x =>
      have hc : World.calls { v with sh := x.effectRd D lib v.sh, log := v.log ++ (x.op.map (fun o => (false, o))).toList }
        = v.calls ++ x.op.toList := calls_append v false x.op
      cases x with
      | putBlock b a f1 f2 => exact one D _ hc rfl
      | putMicro inv a f1 f2 => exact one D _ hc rfl
      | registry e => exact ⟨done, by rw [hc]; simpa [Other.op] using hd, ih⟩

end Verif.Loading.Fine
