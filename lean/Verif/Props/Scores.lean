import Verif.Props.Registry
/-
Property C60: the announced score of a peer.
-/

set_option autoImplicit false

namespace Verif.Props

open Verif
open Verif.Chains (Addr BytesN)
open Verif.Peers
open Verif.KV (Fate)

variable {lib : Lib}

/-- what the calls so far said last about the score of `a`, when it was on record -/
inductive Latest (lib : Lib) (a : Addr) : Registry → Option Nat → Prop where
  | start (c0 : Config) : Latest lib a (NewRegistry c0 []) none
  | told {r : Registry} {o : Option Nat} (h : Latest lib a r o) (e : Event) (f : Fate) (s : Nat) (hop : e.op = .updateScore f a s)
      (hf : f ≠ .fail) (p : Peer) (hp : PeerOf r a = .ok p) : Latest lib a (step lib r e) (some s)
  | lost {r : Registry} {o : Option Nat} (h : Latest lib a r o) (e : Event) (f : Fate) (s : Nat) (hop : e.op = .updateScore f a s)
      (hf : f = .fail ∨ ∀ p, PeerOf r a ≠ .ok p) : Latest lib a (step lib r e) o
  | other {r : Registry} {o : Option Nat} (h : Latest lib a r o) (e : Event) (hop : ∀ f s, e.op ≠ .updateScore f a s) :
      Latest lib a (step lib r e) o

/-- No other call changes the score of a peer: not a handshake, not a lost connection, not a refusal, not a restart of the
program. -/
theorem C60_kept {r : Registry} (R : Reachable lib r) {b : BytesN 4} {p : Peer} (hp : PeerOf r (.v4 b) = .ok p) (e : Event)
    (hop : ∀ f s, e.op ≠ .updateScore f (.v4 b) s) :
    ∃ p', PeerOf (step lib r e) (.v4 b) = .ok p' ∧ p'.score = p.score := by
  have I := R.inv
  have I' := (R.step e).inv
  obtain ⟨v, hv, rfl⟩ := I.peerOf.mp hp
  have hon : onFile r (.v4 b) = v.toPeer (.v4 b) := by rw [onFile_v4 I.good, hv]
  rcases step_view (lib := lib) (e := e) I.good b with h | ⟨v', h, w⟩
  · exact ⟨_, I'.peerOf.mpr ⟨v, h.trans hv, rfl⟩, rfl⟩
  · refine ⟨_, I'.peerOf.mpr ⟨v', h, rfl⟩, ?_⟩
    show v'.score = v.score
    have old' : ∀ v0, view r.db b = some v0 → v0 = v := by intro v0 h0; rw [hv] at h0; cases h0; rfl
    cases w with
    | connected f np hh op acc name applied eq =>
      subst eq; simp only [acceptedPeer, Peer.toValue, hon, Value.toPeer]
    | shut f np hh op rej v0 old name eq => cases old' v0 old; subst eq; rfl
    | left f op v0 old eq => cases old' v0 old; subst eq; rfl
    | marked f op name eq => subst eq; simp only [Peer.toValue, hon, Value.toPeer]
    | scored f s' op v0 old eq => exact absurd op (hop f s')
    | first f op old ver best eq => rw [hv] at old; cases old
    | again f op v0 old state ver next eq => cases old' v0 old; subst eq; rfl
    | added fs l op old port acc mem eq => rw [hv] at old; cases old

/-- A peer comes on record without a score. -/
theorem C60_fresh {r : Registry} (R : Reachable lib r) {b : BytesN 4} (hn : ∀ p, PeerOf r (.v4 b) ≠ .ok p) (e : Event) {p' : Peer}
    (hp : PeerOf (step lib r e) (.v4 b) = .ok p') : p'.score = none := by
  have I := R.inv
  have I' := (R.step e).inv
  have hv : view r.db b = none := by
    cases hv : view r.db b with
    | none => rfl
    | some v => exact absurd (I.peerOf.mpr ⟨v, hv, rfl⟩) (hn _)
  have hon : onFile r (.v4 b) = Peer.zero := by rw [onFile_v4 I.good, hv]
  obtain ⟨v', hv', rfl⟩ := I'.peerOf.mp hp
  show v'.score = none
  rcases step_view (lib := lib) (e := e) I.good b with h | ⟨v'', h, w⟩
  · rw [h, hv] at hv'; cases hv'
  · rw [h] at hv'; cases hv'
    cases w with
    | connected f np hh op acc name applied eq =>
      subst eq; simp only [acceptedPeer, Peer.toValue, hon]; rfl
    | shut f np hh op rej v0 old name eq => rw [hv] at old; cases old
    | left f op v0 old eq => rw [hv] at old; cases old
    | marked f op name eq => subst eq; simp only [Peer.toValue, hon]; rfl
    | scored f s' op v0 old eq => rw [hv] at old; cases old
    | first f op old ver best eq => subst eq; rfl
    | again f op v0 old state ver next eq => rw [hv] at old; cases old
    | added fs l op old port acc mem eq => subst eq; rfl

/-- In every history the score on record is the one that was announced last. -/
theorem C60_latest {b : BytesN 4} {r : Registry} {o : Option Nat} (h : Latest lib (.v4 b) r o) :
    Reachable lib r ∧ (∀ p, PeerOf r (.v4 b) = .ok p → p.score = o) ∧ ((∀ p, PeerOf r (.v4 b) ≠ .ok p) → o = none) := by
  induction h with
  | start c0 => exact ⟨⟨c0, [], rfl⟩, fun p hp => (nomatch (show (fail .notFound : Go Peer) = .ok p from hp)), fun _ => rfl⟩
  | @told r o h e f s hop hf p hp ih =>
    obtain ⟨R, _, _⟩ := ih
    obtain ⟨v, hv, rfl⟩ := R.inv.peerOf.mp hp
    have hw : (putPeer f r.db { v.toPeer (.v4 b) with score := some s }).1 = KV.put r.db b.1 (.record { v with score := some s }) :=
      congrArg Prod.fst (putPeer_valid (db := r.db) (p := { v.toPeer (.v4 b) with score := some s }) (b := b) rfl
        (R.inv.names b v hv)) |> fun h => by
          cases f with
          | ok => exact h
          | fail => exact absurd rfl hf
          | lostAck =>
            have hn : validUTF8 v.name = true := R.inv.names b v hv
            simp [putPeer, is4, hn, keyBytes, KV.write, KV.applyBatch, KV.applyOp, Value.toPeer, Peer.toValue]
    have hst : (step lib r e).db = KV.put r.db b.1 (.record { v with score := some s }) := by
      have hp : peer r.db (.v4 b) = .ok (v.toPeer (.v4 b)) := hp
      simp only [step, hop, UpdatePeerScore, hp]
      exact hw
    have hvw : view (step lib r e).db b = some { v with score := some s } := by rw [hst, view_put, if_pos rfl]
    have R' := R.step e
    refine ⟨R', fun p hp => ?_, fun hn => ?_⟩
    · obtain ⟨v', hv', rfl⟩ := R'.inv.peerOf.mp hp
      rw [hvw] at hv'; cases hv'; rfl
    · exact absurd (R'.inv.peerOf.mpr ⟨_, hvw, rfl⟩) (hn _)
  | @lost r o h e f s hop hf ih =>
    obtain ⟨R, h1, h2⟩ := ih
    have : step lib r e = r := by
      simp only [step, hop]
      exact (C37_refused R f (.v4 b) s (hf.elim (fun h => Or.inr (Or.inr h)) Or.inl)).1
    rw [this]
    exact ⟨R, h1, h2⟩
  | @other r o h e hop ih =>
    obtain ⟨R, h1, h2⟩ := ih
    refine ⟨R.step e, fun p' hp' => ?_, fun hn => ?_⟩
    · by_cases hk : ∃ p, PeerOf r (.v4 b) = .ok p
      · obtain ⟨p, hp⟩ := hk
        obtain ⟨p'', h3, h4⟩ := C60_kept R hp e hop
        rw [hp'] at h3; cases h3
        rw [h4]; exact h1 p hp
      · have hn : ∀ p, PeerOf r (.v4 b) ≠ .ok p := fun p hp => hk ⟨p, hp⟩
        rw [h2 hn]
        exact C60_fresh R hn e hp'
    · by_cases hk : ∃ p, PeerOf r (.v4 b) = .ok p
      · obtain ⟨p, hp⟩ := hk
        obtain ⟨p'', h3, _⟩ := C60_kept R hp e hop
        exact absurd h3 (hn p'')
      · exact h2 (fun p hp => hk ⟨p, hp⟩)

/-- the score survives a lost connection, a restart of the program and a new handshake -/
example :
    let r := Ex.run [Ex.at_ 1 (.suggest .ok (Ex.ip 1 1 1 1)), Ex.at_ 2 (.register .ok (Ex.ip 1 1 1 1) (Ex.conn 65) (Ex.hs 65)),
      Ex.at_ 3 (.updateScore .ok (Ex.ip 1 1 1 1) 5), Ex.at_ 4 (.unregister .ok (Ex.ip 1 1 1 1)), Ex.at_ 5 (.reopen Ex.cfg),
      Ex.at_ 6 (.suggest .ok (Ex.ip 1 1 1 1)), Ex.at_ 2 (.register .ok (Ex.ip 1 1 1 1) (Ex.conn 65) (Ex.hs 65))]
    (PeerOf r (Ex.ip 1 1 1 1)).map (·.score) = .ok (some 5) := by decide +kernel

end Verif.Props
