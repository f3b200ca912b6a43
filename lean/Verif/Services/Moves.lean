import Verif.Loading.FineOnly
import Verif.Services.SideLemmas
import Verif.Props.Faulty
import Verif.Services.Origin
/-
Who moves the position of a peer in the program of `Services/Faulty.lean`: lemmas for property C111.
-/

set_option autoImplicit false

namespace Verif.Services.Fine

open Verif
open Verif.Chains (Addr BlockID ProtoBlock MicroInv Linkage LeashOf)
open Verif.Peers (Lib Registry Config AddrPort)
open Verif.Loading (Ctx Serving)
open Verif.Loading.Fine (World Shared Disk Other Input Answer Call Own Proc minds_run)
open Verif.KV (Fate)

variable {lib : Lib} {g : ProtoBlock} {N : Nat} {D : Disk} {cfg : Config} {r : Registry} {fs : Nat → Fate}
  {seeds : List (Option AddrPort)} {lk : Linkage} {listener : Bool} {es : List Ev} {tr : List Answer} {x x' : Sys}

/-- the peer has named the block to the loader: in a list of ids, or by sending it -/
def Named (es : List Ev) (a : Addr) (id : BlockID) : Prop :=
  (∃ l, Pkg.ids a l ∈ says es ∧ id ∈ l) ∨ ∃ b, Pkg.block a b ∈ says es ∧ b.id = id

/-- the peer of the synchronisation that runs -/
def Sys.Loads (x : Sys) (a : Addr) : Prop := x.world.own.active = true ∧ a.plain = x.world.own.peerID.plain

/-- a call on the store, also one that fails to read -/
theorem leash_stepRd {n : Nat} {l : Linkage} (S : Serving g (n + 1) l) (F : Chains.Rd.Faults) (o : Chains.Spec.Op) {a0 : Addr} {id : BlockID}
    (ht : Chains.Spec.target o = some (a0, id)) (peer : Addr) :
    LeashOf (Chains.Rd.step F l o).1 peer = LeashOf l peer ∨ (peer.plain = a0.plain ∧ LeashOf (Chains.Rd.step F l o).1 peer = .ok id) := by
  rcases Chains.Rd.safe_step F l o with e | ⟨_, e⟩
  · rw [e]; exact Loading.Fine.leash_step S o ht peer
  · rw [e]; exact Or.inl rfl

theorem called_leash {n : Nat} {y : Shared} (S : Serving g (n + 1) y.link) (D : Disk) (o : Other) (a : Addr) :
    LeashOf (o.effectRd D lib y).link a = LeashOf y.link a ∨
    ∃ a0 id, names o = some (a0, id) ∧ a.plain = a0.plain ∧ LeashOf (o.effectRd D lib y).link a = .ok id := by
  cases o with
  | registry e => exact Or.inl rfl
  | putBlock b a0 f1 f2 =>
    rcases leash_stepRd S D.chains (.putBlock b a0 f1 f2) rfl a with h | ⟨h1, h2⟩
    · exact Or.inl h
    · exact Or.inr ⟨a0, b.id, rfl, h1, h2⟩
  | putMicro inv a0 f1 f2 =>
    rcases leash_stepRd S D.chains (.putMicro inv a0 f1 f2) rfl a with h | ⟨h1, h2⟩
    · exact Or.inl h
    · exact Or.inr ⟨a0, inv.totalBlockID, rfl, h1, h2⟩

theorem about_names {e : Ev} {o : Other} (h : handlerCall e = some o) {a : Addr} {id : BlockID} (hn : names o = some (a, id)) : e.about = some (a, id) := by
  cases e with
  | message D c p m =>
    cases m with
    | block b =>
      cases b with
      | none => cases h
      | some b => simp only [handlerCall, messageCall, Option.map_eq_some_iff] at h; obtain ⟨a', hr, rfl⟩ := h; cases hn; simp [Ev.about, hr]
    | pbBlock b =>
      cases b with
      | none => cases h
      | some b => simp only [handlerCall, messageCall, Option.map_eq_some_iff] at h; obtain ⟨a', hr, rfl⟩ := h; cases hn; simp [Ev.about, hr]
    | microBlockInv inv =>
      cases inv with
      | none => cases h
      | some inv => simp only [handlerCall, messageCall, Option.map_eq_some_iff] at h; obtain ⟨a', hr, rfl⟩ := h; cases hn; simp [Ev.about, hr]
    | peers ps => cases h; cases hn
    | score sc => simp only [handlerCall, messageCall, Option.map_eq_some_iff] at h; obtain ⟨a', hr, rfl⟩ := h; cases hn
    | _ => cases h
  | connected D c p => simp only [handlerCall, Option.map_eq_some_iff] at h; obtain ⟨a', hr, rfl⟩ := h; cases hn
  | broken D c p => simp only [handlerCall, Option.map_eq_some_iff] at h; obtain ⟨a', hr, rfl⟩ := h; cases hn
  | _ => cases h

/-- how an event moves the position of a peer -/
theorem moves (S : Serving g N lk) (R : Peers.Reachable lib r) (h : Path lib (Sys.start D cfg r.db fs seeds lk listener) es tr x)
    {e : Ev} (hs : x.step lib e = some (.ok x')) (hN : Chains.Spec.inserts x'.world.calls < N) (a : Addr) :
    LeashOf x'.world.sh.link a = LeashOf x.world.sh.link a ∨
    (∃ a0 id, e.about = some (a0, id) ∧ a.plain = a0.plain ∧ LeashOf x'.world.sh.link a = .ok id) ∨
    (∃ D, e = .go D) ∧ x.world.own.active = true ∧ a.plain = x.world.own.peerID.plain ∧
      ∃ id, LeashOf x'.world.sh.link a = .ok id ∧ Named es x.world.own.peerID id := by
  have hmon := (step_ins hs).2
  obtain ⟨n, hn⟩ : ∃ n, N - Chains.Spec.inserts x.world.calls = n + 1 := ⟨N - Chains.Spec.inserts x.world.calls - 1, by omega⟩
  have hserv : Serving g (n + 1) x.world.sh.link := hn ▸ (C105_store S R h (by omega)).2.1
  have hmind := minds_run h.run
  have hpath := h.snoc e hs
  obtain ⟨_, hcase⟩ := step_case hs
  cases hcase with
  | @handled _ q y hd hr hx =>
    obtain ⟨e1, e2⟩ := hr.effect hx
    show LeashOf y.sh.link a = _ ∨ (∃ a0 id, _ ∧ _ ∧ LeashOf y.sh.link a = .ok id) ∨ _
    cases hy : y.call with
    | none =>
      rw [hy] at e2
      rw [show y.sh = x.world.sh from e2]; exact Or.inl rfl
    | some o =>
      rw [hy] at e1 e2
      rw [show y.sh = o.effectRd e.disk lib x.world.sh from e2]
      rcases called_leash hserv e.disk o a with h | ⟨a0, id, h1, h2, h3⟩
      · exact Or.inl h
      · exact Or.inr (Or.inl ⟨a0, id, about_names e1.symm h1, h2, h3⟩)
  | call D' c k ht hk =>
    cases ho : c.op with
    | none =>
      left
      show LeashOf (c.effectRd D' x.world.sh).link a = _
      unfold Loading.Fine.Call.effectRd
      rw [ho]
    | some o =>
      have heff : (c.effectRd D' x.world.sh).link = (Chains.Rd.step D'.chains x.world.sh.link o).1 := by
        unfold Loading.Fine.Call.effectRd
        rw [ho]
      have hin : o ∈ (World.calls ⟨x.world.own, some (k (c.resRd D' lib x.world.sh)), c.effectRd D' x.world.sh, x.world.ins,
          x.world.log ++ (c.op.map (fun o => (true, o))).toList⟩) := by
        rw [show World.calls ⟨x.world.own, some (k (c.resRd D' lib x.world.sh)), c.effectRd D' x.world.sh, x.world.ins,
          x.world.log ++ (c.op.map (fun o => (true, o))).toList⟩ = _ from Loading.Fine.calls_append x.world true c.op, ho]
        simp
      obtain ⟨o1, _, o3, _⟩ := C105_origin S R hpath (Nat.le_of_lt hN)
      have hsay : says (es ++ [.go D']) = says es := by rw [says_append]; exact List.append_nil _
      rw [hsay] at o1 o3
      have key : ∀ a0 id, Chains.Spec.target o = some (a0, id) → (Named es a0 id) →
          LeashOf (c.effectRd D' x.world.sh).link a = LeashOf x.world.sh.link a ∨
          (∃ a0 id, (Ev.go D').about = some (a0, id) ∧ a.plain = a0.plain ∧ LeashOf (c.effectRd D' x.world.sh).link a = .ok id) ∨
          (∃ D, Ev.go D' = .go D) ∧ x.world.own.active = true ∧ a.plain = x.world.own.peerID.plain ∧
            ∃ id, LeashOf (c.effectRd D' x.world.sh).link a = .ok id ∧ Named es x.world.own.peerID id := by
        intro a0 id hta hna
        rw [heff]
        rcases leash_stepRd hserv D'.chains o hta a with h | ⟨h1, h2⟩
        · exact Or.inl h
        · refine Or.inr (Or.inr ⟨⟨D', rfl⟩, ?_⟩)
          cases hact : x.world.own.active with
          | true =>
            have := (hmind _ ht _ (fun _ => rfl)).1 o _ ho hta
            subst this
            exact ⟨rfl, h1, id, h2, hna⟩
          | false =>
            have e1 := (hmind _ ht .zero (fun h => by rw [hact] at h; cases h)).1 o _ ho hta
            have e2 := (hmind _ ht (.v4 ⟨[0, 0, 0, 0], rfl⟩) (fun h => by rw [hact] at h; cases h)).1 o _ ho hta
            rw [e1] at e2; cases e2
      cases c with
      | moveLeash f id a0 => cases ho; exact key a0 id rfl (Or.inl (o3 id a0 f hin))
      | putBlock f1 f2 b a0 => cases ho; exact key a0 b.id rfl (Or.inr ⟨b, o1 b a0 f1 f2 hin, rfl⟩)
      | _ => cases ho
  | respawn D' now failed hu ha =>
    left
    show LeashOf (x.respawn D' now failed).world.sh.link a = _
    unfold Sys.respawn
    split
    · rfl
    · dsimp only
      split <;> rfl
  | _ => exact Or.inl rfl

theorem named_message {a : Addr} {id : BlockID} (h : Named es a id) :
    ∃ D c p m, Ev.message D c p m ∈ es ∧ p.remote = some a ∧ id ∈ m.blockIDs := by
  have key : ∀ q, q ∈ says es → (∃ l, q = Pkg.ids a l ∧ id ∈ l) ∨ (∃ b, q = Pkg.block a b ∧ b.id = id) →
      ∃ D c p m, Ev.message D c p m ∈ es ∧ p.remote = some a ∧ id ∈ m.blockIDs := by
    intro q hq hc
    obtain ⟨e, he, hs⟩ := List.mem_filterMap.mp hq
    cases e with
    | message D c p m =>
      refine ⟨D, c, p, m, he, ?_⟩
      cases m with
      | block b =>
        cases b with
        | none => cases hs
        | some b =>
          simp only [Ev.says, Option.map_eq_some_iff] at hs
          obtain ⟨a', hr, rfl⟩ := hs
          rcases hc with ⟨l, h1, _⟩ | ⟨b', h1, h2⟩
          · cases h1
          · cases h1; exact ⟨hr, by simp [Message.blockIDs, h2]⟩
      | pbBlock b =>
        cases b with
        | none => cases hs
        | some b =>
          simp only [Ev.says, Option.map_eq_some_iff] at hs
          obtain ⟨a', hr, rfl⟩ := hs
          rcases hc with ⟨l, h1, _⟩ | ⟨b', h1, h2⟩
          · cases h1
          · cases h1; exact ⟨hr, by simp [Message.blockIDs, h2]⟩
      | signatures sigs =>
        simp only [Ev.says, Option.map_eq_some_iff] at hs
        obtain ⟨a', hr, rfl⟩ := hs
        rcases hc with ⟨l, h1, h2⟩ | ⟨b', h1, _⟩
        · cases h1; exact ⟨hr, h2⟩
        · cases h1
      | blockIds ids =>
        simp only [Ev.says] at hs
        split at hs
        · cases hs
        · simp only [Option.map_eq_some_iff] at hs
          obtain ⟨a', hr, rfl⟩ := hs
          rcases hc with ⟨l, h1, h2⟩ | ⟨b', h1, _⟩
          · cases h1; exact ⟨hr, h2⟩
          · cases h1
      | _ => cases hs
    | _ => cases hs
  rcases h with ⟨l, h1, h2⟩ | ⟨b, h1, h2⟩
  · exact key _ h1 (Or.inl ⟨l, rfl, h2⟩)
  · exact key _ h1 (Or.inr ⟨b, rfl, h2⟩)

theorem about_message {e : Ev} {a : Addr} {id : BlockID} (h : e.about = some (a, id)) :
    ∃ D c p m, e = .message D c p m ∧ p.remote = some a ∧ id ∈ m.blockIDs := by
  cases e with
  | message D c p m =>
    refine ⟨D, c, p, m, rfl, ?_⟩
    cases m with
    | block b =>
      cases b with
      | none => cases h
      | some b => simp only [Ev.about, Option.map_eq_some_iff] at h; obtain ⟨a', hr, he⟩ := h; cases he; exact ⟨hr, by simp [Message.blockIDs]⟩
    | pbBlock b =>
      cases b with
      | none => cases h
      | some b => simp only [Ev.about, Option.map_eq_some_iff] at h; obtain ⟨a', hr, he⟩ := h; cases he; exact ⟨hr, by simp [Message.blockIDs]⟩
    | microBlockInv inv =>
      cases inv with
      | none => cases h
      | some inv => simp only [Ev.about, Option.map_eq_some_iff] at h; obtain ⟨a', hr, he⟩ := h; cases he; exact ⟨hr, by simp [Message.blockIDs]⟩
    | _ => cases h
  | _ => cases h

end Verif.Services.Fine
