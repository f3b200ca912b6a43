import Verif.Loading.Among
import Verif.Loading.FineRun
import Verif.Loading.FineReads
import Verif.Loading.HonestSteps
/-
Programs that make calls, and what they lead to whatever the other goroutines do in between, as long as that is fair.
-/

set_option autoImplicit false

namespace Verif.Loading.Fine

open Verif
open Verif.Chains (Addr BlockID ProtoBlock MicroInv Linkage LeashOf PutBlock MoveLeash HasBlock LastIDs LeashScore)
open Verif.Chains.Spec (Stored SameTree ScoreOf)
open Verif.Peers (Peer Conn Registry Lib)
open Verif.KV (Fate)

variable {lib : Lib} {g : ProtoBlock} {n : Nat} {peer : Addr} {s s0 : Nat} {ch : List ProtoBlock} {m m' : Nat} {α β : Type}

/-- the store and the registry during a synchronisation -/
structure Good (lib : Lib) (g : ProtoBlock) (peer : Addr) (s s0 : Nat) (ch : List ProtoBlock) (n : Nat) (x : Shared) : Prop where
  sound : Sound lib g n x
  faithful : Faithful s0 ch x.link.db
  announced : Announced x.reg peer s

theorem Good.mono {m : Nat} {x : Shared} (h : Good lib g peer s s0 ch m x) (hn : n ≤ m) : Good lib g peer s s0 ch n x :=
  ⟨h.sound.mono hn, h.faithful, h.announced⟩

/-- what others do while the loader handles an event -/
structure Between (peer : Addr) (ch : List ProtoBlock) (x y : Shared) : Prop where
  later : Later x y
  onward : Onward peer ch x y

theorem At.mono {x : Shared} {i j : Nat} (h : At peer ch x j) (hij : i ≤ j) : At peer ch x i := by
  obtain ⟨k, b, h1, h2⟩ := h
  exact ⟨k, b, by omega, h2⟩

theorem At.onward {x y : Shared} {i : Nat} (h : At peer ch x i) (hxy : Onward peer ch x y) : At peer ch y i := by
  obtain ⟨k, b, h1, h2, h3⟩ := h
  exact (hxy k b h2 h3).mono h1

theorem Between.refl (x : Shared) : Between peer ch x x := ⟨Later.refl x, fun i b h1 h2 => ⟨i, b, Nat.le_refl _, h1, h2⟩⟩

theorem Between.trans {x y z : Shared} (h : Between peer ch x y) (k : Between peer ch y z) : Between peer ch x z :=
  ⟨h.later.trans k.later, fun i b h1 h2 => (h.onward i b h1 h2).onward k.onward⟩

/-- From the state `x` on the program ends with a result for which `Q` holds, whatever others do between the calls; its own calls succeed,
leave the store good and need room for at most `m` blocks. -/
def Leads (lib : Lib) (g : ProtoBlock) (peer : Addr) (s s0 : Nat) (ch : List ProtoBlock) (m : Nat) (Q : α → Shared → Prop) : Proc α → Shared → Prop
  | .ret a, x => ∀ y, Between peer ch x y → Good lib g peer s s0 ch 0 y → Q a y
  | .call c k, x => ∀ y, Between peer ch x y → Good lib g peer s s0 ch 0 y → c.cost ≤ m ∧ (Good lib g peer s s0 ch c.cost y →
      (∀ n, Good lib g peer s s0 ch (n + c.cost) y → Good lib g peer s s0 ch n (c.effect y)) ∧ Later y (c.effect y) ∧
      ¬ (⟨c, c.res lib y⟩ : Answer).Failed ∧ Leads lib g peer s s0 ch (m - c.cost) Q (k (c.res lib y)) (c.effect y))

variable {Q : α → Shared → Prop} {Q' : β → Shared → Prop}

theorem Leads.later {p : Proc α} {x y : Shared} (h : Leads lib g peer s s0 ch m Q p x) (hl : Between peer ch x y) :
    Leads lib g peer s s0 ch m Q p y := by
  cases p with
  | ret a => exact fun z hz => h z (hl.trans hz)
  | call c k => exact fun z hz => h z (hl.trans hz)

theorem Leads.room {p : Proc α} {x : Shared} (h : Leads lib g peer s s0 ch m Q p x) (hm : m ≤ m') : Leads lib g peer s s0 ch m' Q p x := by
  induction p generalizing x m m' with
  | ret a => exact h
  | call c k ih =>
    intro y hl hs
    obtain ⟨h0, h⟩ := h y hl hs
    refine ⟨Nat.le_trans h0 hm, fun hs => ?_⟩
    obtain ⟨h1, h2, hf, h3⟩ := h hs
    exact ⟨h1, h2, hf, ih _ h3 (by omega)⟩

theorem Leads.bind {p : Proc α} {f : α → Proc β} {x : Shared} (h : Leads lib g peer s s0 ch m Q p x)
    (hf : ∀ a y, Later x y → Good lib g peer s s0 ch 0 y → Q a y → Leads lib g peer s s0 ch m' Q' (f a) y) :
    Leads lib g peer s s0 ch (m + m') Q' (p.bind f) x := by
  induction p generalizing x m with
  | ret a =>
    have key : ∀ y, Between peer ch x y → Good lib g peer s s0 ch 0 y → Leads lib g peer s s0 ch m' Q' (f a) y :=
      fun y hl hs => hf a y hl.later hs (h y hl hs)
    show Leads lib g peer s s0 ch (m + m') Q' (f a) x
    cases hp : f a with
    | ret b =>
      intro y hl hs
      have := key y hl hs
      rw [hp] at this
      exact this y (Between.refl y) hs
    | call c k =>
      intro y hl hs
      have := key y hl hs
      rw [hp] at this
      obtain ⟨h0, h1⟩ := this y (Between.refl y) hs
      refine ⟨by omega, fun hs => ?_⟩
      obtain ⟨h2, h3, hnf, h4⟩ := h1 hs
      exact ⟨h2, h3, hnf, h4.room (by omega)⟩
  | call c k ih =>
    intro y hl hs
    obtain ⟨h0, h⟩ := h y hl hs
    refine ⟨by omega, fun hs => ?_⟩
    obtain ⟨h1, h2, hnf, h3⟩ := h hs
    refine ⟨h1, h2, hnf, ?_⟩
    rw [show m + m' - c.cost = m - c.cost + m' by omega]
    refine ih _ h3 ?_
    intro a z hz hgz hq
    exact hf a z ((hl.later.trans h2).trans hz) hgz hq

/-- the second part needs no room -/
theorem Leads.seq {p : Proc α} {f : α → Proc β} {x : Shared} (h : Leads lib g peer s s0 ch m Q p x)
    (hf : ∀ a y, Later x y → Good lib g peer s s0 ch 0 y → Q a y → Leads lib g peer s s0 ch 0 Q' (f a) y) :
    Leads lib g peer s s0 ch m Q' (p.bind f) x := h.bind (m' := 0) hf

theorem Leads.mono {p : Proc α} {x : Shared} {Q2 : α → Shared → Prop} (h : Leads lib g peer s s0 ch m Q p x)
    (hq : ∀ a y, Good lib g peer s s0 ch 0 y → Q a y → Q2 a y) : Leads lib g peer s s0 ch m Q2 p x := by
  induction p generalizing x m with
  | ret a => exact fun y hl hs => hq a y hs (h y hl hs)
  | call c k ih =>
    intro y hl hs
    obtain ⟨h0, h⟩ := h y hl hs
    refine ⟨h0, fun hs => ?_⟩
    obtain ⟨h1, h2, hf, h3⟩ := h hs
    exact ⟨h1, h2, hf, ih _ h3⟩

/-- a call that only reads -/
theorem Leads.read {c : Call} {k : c.Res → Proc α} {x : Shared} (hc : c.op = none)
    (h : ∀ y, Between peer ch x y → Good lib g peer s s0 ch 0 y → ∃ v, c.res lib y = v ∧ ¬ (⟨c, v⟩ : Answer).Failed ∧ Leads lib g peer s s0 ch m Q (k v) y) :
    Leads lib g peer s s0 ch m Q (.call c k) x := by
  intro y hl hs
  obtain ⟨v, hv, hnf, h⟩ := h y hl hs
  have he : c.effect y = y := by unfold Call.effect; rw [hc]
  have hc0 : c.cost = 0 := by unfold Call.cost; rw [hc]; rfl
  rw [he, hv, hc0]
  exact ⟨Nat.zero_le _, fun _ => ⟨fun m hm => hm.mono (by omega), Later.refl y, hnf, h⟩⟩

/-! ### the calls that write -/

/-- the loader moves the position of the peer to a stored block of the history -/
theorem Leads.move {f : Fate} (hf : f = .ok) {b : ProtoBlock} {i : Nat} (hb : ch[i]? = some b) {k : Go Unit → Proc α} {x : Shared}
    (hst : Stored x.link.db b.id)
    (h : ∀ y, Later x y → Good lib g peer s s0 ch 0 y → At peer ch y i → Leads lib g peer s s0 ch m Q (k (.ok ())) y) :
    Leads lib g peer s s0 ch m Q (.call (.moveLeash f b.id peer) k) x := by
  subst hf
  intro y hl _
  refine ⟨Nat.zero_le _, fun hg => ?_⟩
  have hsty := hl.later.stored _ hst
  have hcost : Call.cost (.moveLeash .ok b.id peer) = 0 := rfl
  obtain ⟨w, hor⟩ := move_cases hg.sound.store .ok b.id peer
  obtain ⟨hm, _, hle⟩ := hor.resolve_right (fun h => h.1 rfl)
  have keep : ∀ m, Good lib g peer s s0 ch (m + Call.cost (.moveLeash .ok b.id peer)) y →
      Good lib g peer s s0 ch m (Call.effect (.moveLeash .ok b.id peer) y) := by
    intro m hgm
    exact ⟨(Sound.op (.moveLeash b.id peer .ok) m hgm.sound (fun _ _ e => by cases e) (fun _ _ _ e => by cases e; exact hsty)).1,
      hgm.faithful.same w.tree, hgm.announced⟩
  have hlat : Later y (Call.effect (.moveLeash .ok b.id peer) y) :=
    (Sound.op (.moveLeash b.id peer .ok) 0 hg.sound (fun _ _ e => by cases e) (fun _ _ _ e => by cases e; exact hsty)).2
  have hr : Call.res lib y (.moveLeash .ok b.id peer) = .ok () := hm
  rw [hr]
  refine ⟨keep, hlat, (fun ⟨_, h⟩ => by cases h), ?_⟩
  exact h _ (hl.later.trans hlat) (keep 0 hg) ⟨i, b, Nat.le_refl _, hb, hle⟩

/-- the loader stores a block of the history for the peer -/
theorem Leads.put (H : History ch) {f1 f2 : Fate} (h1 : f1 = .ok) (h2 : f2 = .ok) {i : Nat} {a b : ProtoBlock} (ha : ch[i]? = some a)
    (hb : ch[i + 1]? = some b) {k : Go Unit → Proc α} {x : Shared} (hst : Stored x.link.db a.id)
    (h : ∀ y, Later x y → Good lib g peer s s0 ch 0 y → Stored y.link.db b.id → At peer ch y (i + 1) →
      Leads lib g peer s s0 ch m Q (k (.ok ())) y) :
    Leads lib g peer s s0 ch (m + 1) Q (.call (.putBlock f1 f2 b peer) k) x := by
  subst h1 h2
  intro y hl _
  refine ⟨Nat.succ_le_succ (Nat.zero_le _), fun hg => ?_⟩
  have hcost : Call.cost (.putBlock .ok .ok b peer) = 1 := rfl
  have S : Serving g (0 + 1) y.link := hg.sound.store
  obtain ⟨hgen, _, hbt⟩ := H.sound i b hb
  have hpar : Stored y.link.db b.parent := by rw [H.linked i a b ha hb]; exact hl.later.stored _ hst
  have hok := put_ok S b peer hgen hbt (Or.inr hpar)
  obtain ⟨hstored, hleash⟩ := Props.C02_accepted_stored S.reachable b peer .ok .ok hok
  have keep : ∀ m, Good lib g peer s s0 ch (m + Call.cost (.putBlock .ok .ok b peer)) y →
      Good lib g peer s s0 ch m (Call.effect (.putBlock .ok .ok b peer) y) := by
    intro m hgm
    have Sm : Serving g (m + 1) y.link := hgm.sound.store
    exact ⟨(Sound.op (.putBlock b peer .ok .ok) m hgm.sound (fun _ _ e => by cases e) (fun _ _ _ e => by cases e)).1,
      hgm.faithful.put H Sm b peer .ok .ok (Genuine.of_mem H (List.mem_of_getElem? hb)), hgm.announced⟩
  have hlat : Later y (Call.effect (.putBlock .ok .ok b peer) y) :=
    (Sound.op (.putBlock b peer .ok .ok) 0 hg.sound (fun _ _ e => by cases e) (fun _ _ _ e => by cases e)).2
  have hr : Call.res lib y (.putBlock .ok .ok b peer) = .ok () := hok
  rw [hr]
  refine ⟨keep, hlat, (fun ⟨_, h⟩ => by cases h), ?_⟩
  exact h _ (hl.later.trans hlat) (keep 0 hg) hstored ⟨i + 1, b, Nat.le_refl _, hb, hleash⟩

end Verif.Loading.Fine
