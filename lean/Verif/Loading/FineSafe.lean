import Verif.Loading.FineAlone
import Verif.Loading.Origin
import Verif.Loading.HonestLemmas
/-
What a handler of `Loading/Fine.lean` needs from the store and the registry between its calls, and
what it guarantees, whatever the other goroutines do in between.
-/

set_option autoImplicit false

namespace Verif.Loading.Fine

open Verif
open Verif.Chains (Addr BlockID ProtoBlock MicroInv Linkage Env PutBlock MoveLeash HasBlock LeashOf LeashScore LastIDs LCB
  BlockRec getBlockByID)
open Verif.Chains.Spec (Stored SameTree ScoreOf HeightOf IsWalk IsParent)
open Verif.Peers (Peer Conn Registry Lib)
open Verif.KV (Fate)

variable {lib : Lib} {g : ProtoBlock} {n : Nat} {α β : Type}

/-! ### what lasts -/

/-- what is true of the store and the registry at one moment stays true later -/
structure Later (s s' : Shared) : Prop where
  stored : ∀ id, Stored s.link.db id → Stored s'.link.db id
  record : ∀ id r, getBlockByID s.link.db id = .ok r → getBlockByID s'.link.db id = .ok r
  scored : ∀ a, Scored s.reg a → Scored s'.reg a

theorem Later.refl (s : Shared) : Later s s := ⟨fun _ h => h, fun _ _ h => h, fun _ h => h⟩

theorem Later.trans {a b c : Shared} (h : Later a b) (k : Later b c) : Later a c :=
  ⟨fun id x => k.stored id (h.stored id x), fun id r x => k.record id r (h.record id r x), fun a x => k.scored a (h.scored a x)⟩

theorem Later.walk {s s' : Shared} (h : Later s s') : ∀ {ids : List BlockID}, IsWalk s.link.db ids → IsWalk s'.link.db ids
  | [], _ => trivial
  | [a], w => h.stored a w
  | a :: b :: rest, w => by
    obtain ⟨⟨r, hr, hp⟩, w⟩ := w
    exact ⟨⟨r, h.record a r hr, hp⟩, h.walk w⟩

/-- The store is one that the program serves from, with room for `n` blocks, and the registry is one of the program. -/
structure Sound (lib : Lib) (g : ProtoBlock) (n : Nat) (s : Shared) : Prop where
  store : Serving g n s.link
  reg : Peers.Reachable lib s.reg

theorem Sound.mono {m : Nat} {s : Shared} (h : Sound lib g m s) (hn : n ≤ m) : Sound lib g n s := ⟨h.store.mono hn, h.reg⟩

/-- one more call on the store -/
theorem Sound.op {s : Shared} (o : Chains.Spec.Op) (m : Nat) (h : Sound lib g (m + Chains.Spec.inserts [o]) s)
    (hr : ∀ g' f, o ≠ .reopen g' f) (hd : ∀ id a f, o = .moveLeash id a f → Stored s.link.db id) :
    Sound lib g m { s with link := (Chains.Spec.step s.link o).1 } ∧ Later s { s with link := (Chains.Spec.step s.link o).1 } := by
  have S := h.store
  refine ⟨⟨S.step o m (Nat.le_refl _) (fun g' f e => absurd e (hr g' f)) hd, h.reg⟩, ?_⟩
  have key : ∀ id, Stored s.link.db id → Stored (Chains.Spec.step s.link o).1.db id ∧
      getBlockByID (Chains.Spec.step s.link o).1.db id = getBlockByID s.link.db id := by
    intro id hid
    obtain ⟨l0, ops, hf, _, _, hb, he⟩ := S
    rw [he] at hid
    have := Props.C01_blocks_permanent hf ops [o] (by rw [Chains.inserts_append]; omega) id hid
    rw [Chains.exec_append] at this
    rw [he]
    exact ⟨this.1, this.2.2⟩
  refine ⟨fun id hid => (key id hid).1, fun id r hrec => ?_, fun _ h => h⟩
  show getBlockByID (Chains.Spec.step s.link o).1.db id = _
  rw [(key id (stored_record S hrec)).2]; exact hrec

/-- what a call costs -/
def Call.cost (c : Call) : Nat := Chains.Spec.inserts c.op.toList

/-- what a call of another goroutine costs -/
def Other.cost (x : Other) : Nat := Chains.Spec.inserts x.op.toList

theorem Other.sound {s : Shared} (x : Other) (h : Sound lib g (n + x.cost) s) :
    Sound lib g n (x.effect lib s) ∧ Later s (x.effect lib s) := by
  cases x with
  | putBlock b a f1 f2 => exact Sound.op (.putBlock b a f1 f2) n h (fun _ _ e => by cases e) (fun _ _ _ e => by cases e)
  | putMicro inv a f1 f2 => exact Sound.op (.putMicro inv a f1 f2) n h (fun _ _ e => by cases e) (fun _ _ _ e => by cases e)
  | registry e =>
    exact ⟨⟨h.store, h.reg.step e⟩, fun _ h => h, fun _ _ h => h, fun a ha => scored_step h.reg.inv ha⟩

/-! ### what the calls may be -/

/-- A call that writes gets its arguments from the source; the leash is moved to a stored block. -/
def Allowed (src : Source) (c : Call) (s : Shared) : Prop :=
  ∀ o, c.op = some o → src.Call o ∧ ∀ id a f, o = .moveLeash id a f → Stored s.link.db id

theorem Call.sound {src : Source} {s : Shared} (c : Call) (h : Sound lib g (n + c.cost) s) (ha : Allowed src c s) :
    Sound lib g n (c.effect s) ∧ Later s (c.effect s) := by
  unfold Call.effect
  unfold Call.cost at h
  cases ho : c.op with
  | none => rw [ho] at h; exact ⟨h, Later.refl s⟩
  | some o =>
    rw [ho] at h
    obtain ⟨h1, h2⟩ := ha o ho
    refine Sound.op o n h (fun g' f e => ?_) h2
    rw [e] at h1; exact h1

/-- Answers that a disk that fails to read may lead to instead of the right one: an error, a wrong score (see `C98_score_wrong`), a stored
block that is not the right one (see `C99_wrong`), or the panic of C14 on other leashes. -/
def Odd (s : Shared) : (c : Call) → c.Res → Prop
  | .hasBlock _, r => ∃ e, r = fail e
  | .leashOf _, r => ∃ e, r = fail e
  | .leashScore _, r => r ≠ goPanic
  | .lastIDs _ _, r => ∃ e, r = fail e
  | .lcb _ _, r => r = goPanic ∨ (∃ e, r = fail e) ∨ ∃ id, r = .ok id ∧ Stored s.link.db id
  | .moveLeash _ _ _, r => ∃ e, r = fail e
  | .putBlock _ _ _ _, r => ∃ e, r = fail e
  | .connections _, r => ∃ e, r = fail e
  | .peerOf _, r => ∃ e, r = fail e

/-- the outcome of a call: the right answer and the effect of the call, or an odd answer and no effect -/
def Out (lib : Lib) (c : Call) (s : Shared) (r : c.Res) (s' : Shared) : Prop :=
  (r = c.res lib s ∧ s' = c.effect s) ∨ (Odd s c r ∧ s' = s)

/-- the calls that may crash the program: see `C14_panics` and `C27_panics` -/
def Cause : (c : Call) → c.Res → Prop
  | .lcb _ _, r => r = goPanic
  | .putBlock _ _ b _, _ => 2 ^ 63 ≤ b.baseTarget.toNat
  | _, _ => False

/-- From the state `s` on the program makes allowed calls only and ends with a result for which `Q` holds, whatever the other
goroutines do between the calls and whichever reads fail; unless one of the calls crashes, then it ends with a result for which `E`
holds. -/
def Safe (lib : Lib) (g : ProtoBlock) (src : Source) (E : α → Prop) (Q : α → Shared → Prop) : Proc α → Shared → Prop
  | .ret a, s => ∀ s', Later s s' → Sound lib g 0 s' → Q a s'
  | .call c k, s => ∀ s', Later s s' → Sound lib g c.cost s' → Allowed src c s' ∧ ∀ r s'', Out lib c s' r s'' →
      ((Cause c r ∧ ∃ a, k r = .ret a ∧ E a) ∨ Safe lib g src E Q (k r) s'')

variable {src : Source} {E : α → Prop} {Q : α → Shared → Prop} {E' : β → Prop} {Q' : β → Shared → Prop}

theorem Out.later {c : Call} {s s' : Shared} {r : c.Res} (h : Out lib c s r s') (hs : Sound lib g c.cost s) (ha : Allowed src c s) :
    Later s s' := by
  rcases h with ⟨_, rfl⟩ | ⟨_, rfl⟩
  · exact (Call.sound (n := 0) c (by rw [Nat.zero_add]; exact hs) ha).2
  · exact Later.refl _

theorem Safe.later {p : Proc α} {s s' : Shared} (h : Safe lib g src E Q p s) (hl : Later s s') : Safe lib g src E Q p s' := by
  cases p with
  | ret a => exact fun s2 h2 => h s2 (hl.trans h2)
  | call c k => exact fun s2 h2 => h s2 (hl.trans h2)

theorem Safe.bind {p : Proc α} {f : α → Proc β} {s : Shared} (h : Safe lib g src E Q p s)
    (hf : ∀ a s', Later s s' → Sound lib g 0 s' → Q a s' → Safe lib g src E' Q' (f a) s')
    (he : ∀ a, E a → ∃ b, f a = .ret b ∧ E' b) : Safe lib g src E' Q' (p.bind f) s := by
  induction p generalizing s with
  | ret a =>
    -- the continuation may look at the state at any later moment
    have key : ∀ s', Later s s' → Sound lib g 0 s' → Safe lib g src E' Q' (f a) s' := fun s' hl hs => hf a s' hl hs (h s' hl hs)
    show Safe lib g src E' Q' (f a) s
    cases hp : f a with
    | ret b =>
      intro s' hl hs
      have := key s' hl hs
      rw [hp] at this
      exact this s' (Later.refl s') hs
    | call c k =>
      intro s' hl hs
      have := key s' hl (hs.mono (Nat.zero_le _))
      rw [hp] at this
      exact this s' (Later.refl s') hs
  | call c k ih =>
    intro s' hl hs
    obtain ⟨ha, hor⟩ := h s' hl hs
    refine ⟨ha, fun r s1 ho => ?_⟩
    rcases hor r s1 ho with ⟨hc, a, hk, hea⟩ | hsafe
    · obtain ⟨b, hb, hE⟩ := he a hea
      exact Or.inl ⟨hc, b, by show (k r).bind f = _; rw [hk]; exact hb, hE⟩
    · refine Or.inr (ih _ hsafe ?_)
      intro a s2 h2 hs2 hq
      exact hf a s2 ((hl.trans (ho.later hs ha)).trans h2) hs2 hq

theorem Safe.mono {p : Proc α} {s : Shared} {Q2 : α → Shared → Prop} (h : Safe lib g src E Q p s)
    (hq : ∀ a s', Sound lib g 0 s' → Q a s' → Q2 a s') : Safe lib g src E Q2 p s := by
  induction p generalizing s with
  | ret a => exact fun s' hl hs => hq a s' hs (h s' hl hs)
  | call c k ih =>
    intro s' hl hs
    obtain ⟨ha, hor⟩ := h s' hl hs
    refine ⟨ha, fun r s1 ho => ?_⟩
    rcases hor r s1 ho with hc | hsafe
    · exact Or.inl hc
    · exact Or.inr (ih _ hsafe)

/-- a call that only reads: with the right answer, and with an odd one -/
theorem Safe.read {c : Call} {k : c.Res → Proc α} {s : Shared} (hc : c.op = none)
    (h : ∀ s', Later s s' → Sound lib g 0 s' → Safe lib g src E Q (k (c.res lib s')) s')
    (ho : ∀ s' r, Later s s' → Sound lib g 0 s' → Odd s' c r → Safe lib g src E Q (k r) s') : Safe lib g src E Q (.call c k) s := by
  intro s' hl hs
  have he : c.effect s' = s' := by unfold Call.effect; rw [hc]
  have hs0 := hs.mono (Nat.zero_le _)
  refine ⟨(fun o ho => by rw [hc] at ho; cases ho), ?_⟩
  rintro r s1 (⟨rfl, rfl⟩ | ⟨hodd, rfl⟩)
  · rw [he]; exact Or.inr (h s' hl hs0)
  · exact Or.inr (ho _ r hl hs0 hodd)

end Verif.Loading.Fine
