import Verif.Services.MessageLemmas
/-
Effects of registrations on the records, and lists of announced addresses.
-/

set_option autoImplicit false

namespace Verif.Services

open Verif
open Verif.Chains (Addr BytesN)
open Verif.Peers (Conn Registry Lib AddrPort PeerOf is4 First)
open Verif.KV (Fate)

variable {lib : Lib}

/-- dropping what does not parse does not change which mention of an address is the first -/
theorem first_parsed {l : List (Option AddrPort)} {ap : AddrPort} :
    First ((l.filterMap id).map some) ap ↔ First l ap := by
  induction l with
  | nil => rfl
  | cons x l ih =>
    cases x with
    | none => rw [Peers.First.cons_none, ← ih]; rfl
    | some x =>
      rw [Peers.First.cons_some, ← ih]
      exact Peers.First.cons_some

/-- a write of one record leaves the records of other addresses alone -/
theorem putPeer_other {r : Registry} (G : Peers.Good r.db) (f : Fate) (p : Peers.Peer) {a : Addr} (h4 : is4 a = true)
    (hne : p.addr ≠ a) : PeerOf { r with db := (Peers.putPeer f r.db p).1 } a = PeerOf r a := by
  obtain ⟨b, rfl⟩ := Peers.is4_iff.mp h4
  unfold PeerOf
  rcases Peers.putPeer_db f r.db p with h | ⟨b1, hb1, _, _, h⟩
  · simp only [h]
  · simp only [h]
    rw [(G.put b1 _).peer_v4, G.peer_v4, Peers.view_put, if_neg]
    intro e
    exact hne (by rw [hb1, e])

/-- the address of the stored peer, if any -/
theorem onFile_addr {r : Registry} (G : Peers.Good r.db) {b : BytesN 4} :
    (Peers.onFile r (.v4 b)).addr = .v4 b ∨ (Peers.onFile r (.v4 b)).addr = .zero := by
  rw [Peers.onFile_v4 G]
  cases Peers.view r.db b with
  | none => exact Or.inr rfl
  | some v => exact Or.inl rfl

/-- a block that can be read is stored -/
theorem stored_of_record {db : Chains.DB} {id : Chains.BlockID} {r : Chains.BlockRec} (h : Chains.getBlockByID db id = .ok r) :
    Chains.Spec.Stored db id := by
  obtain ⟨n, hn, _⟩ := go_bind_eq_ok.mp h
  simp [Chains.Spec.Stored, Chains.HasBlock, Chains.hasBlock, hn]

/-- a registration that is refused closes the connection, except from our own address and with a declared address that does
not parse -/
theorem refused_closes {r : Registry} {f : Fate} {now : Int} {a : Addr} {np : Conn} {h : Peers.Handshake}
    (G : Peers.Good r.db) (rej : ¬ Peers.Accepted lib r a np h) (hown : a ≠ r.declared) (hdec : h.declared ≠ .unparsable)
    (hnp : (Peers.RegisterPeer lib f now r a np h).2.2 ≠ goPanic) : (Peers.RegisterPeer lib f now r a np h).2.1 = true := by
  by_cases h4 : is4 a = true
  · have hp : Peers.RegisterPeer lib f now r a np h =
        Peers.registerFound lib f now { r with pending := Peers.delPending r.pending a } a np h (Peers.onFile r a) := by
      obtain ⟨b, rfl⟩ := Peers.is4_iff.mp h4
      simp only [Peers.RegisterPeer, h4, hown, if_true, if_false, Peers.onFile, PeerOf]
      rw [G.peer_v4]
      cases Peers.view r.db b <;> rfl
    rw [hp] at hnp ⊢
    unfold Peers.registerFound at hnp ⊢
    by_cases hc : lib.cmpMinor np.handshake.version (Peers.onFile r a).version ≥ 2
    · simp [hc]
    · simp only [hc, if_false] at hnp ⊢
      cases hl : np.handshake.appName.getLast? with
      | none => rw [hl] at hnp; exact absurd rfl hnp
      | some x =>
        by_cases hx : x = r.scheme
        · simp only [ne_eq, hx, not_true, if_false]
          have hbad : ¬ Peers.DeclaredOk h := fun hd => rej ⟨h4, hown, by rw [← Peers.onFile_version]; omega, by rw [hl, hx], hd⟩
          unfold Peers.checkPort
          cases hde : h.declared with
          | empty => exact absurd (Or.inl hde) hbad
          | unparsable => exact absurd hde hdec
          | addrPort ap =>
            by_cases hlb : Peers.isLoopback ap.addr = true
            · simp [hlb, fail]
            · by_cases hi : is4 ap.addr = true
              · exact absurd (Or.inr ⟨ap, hde, by simpa using hlb, hi⟩) hbad
              · simp [hlb, hi, fail]
        · simp [hx]
  · simp [Peers.RegisterPeer, h4]

end Verif.Services
