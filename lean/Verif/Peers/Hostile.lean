import Verif.Peers.Dial
/-
How peers become hostile.
-/

set_option autoImplicit false

namespace Verif.Peers

open Verif
open Verif.Chains (Addr BytesN Env)
open Verif.KV (Fate)

theorem validUTF8_append (x : Bytes) {y : Bytes} (hx : validUTF8 x = true) (hy : validUTF8 y = true) :
    validUTF8 (x ++ y) = true := by
  fun_induction validUTF8 x with
  | case1 => exact hy
  | case2 b rest hb ih => rw [List.cons_append, validUTF8.eq_def]; simp only [hb, if_true]; exact ih hx
  | case3 => cases hx
  | case4 b hb c1 rest1 h1 ih =>
    rw [Bool.and_eq_true] at hx
    simp only [List.cons_append]
    rw [validUTF8.eq_def]
    simp only [hb, if_false, h1, if_true, hx.1, ih hx.2, Bool.and_self]
  | case5 => cases hx
  | case6 b hb c1 h1 c2 rest2 h2 ih =>
    rw [Bool.and_eq_true] at hx
    simp only [List.cons_append]
    rw [validUTF8.eq_def]
    simp only [hb, if_false, h1, h2, if_true, hx.1, ih hx.2, Bool.and_self, if_false, Bool.false_eq_true]
  | case7 => cases hx
  | case8 b hb c1 h1 c2 h2 c3 rest3 h3 ih =>
    rw [Bool.and_eq_true] at hx
    simp only [List.cons_append]
    rw [validUTF8.eq_def]
    simp only [hb, if_false, h1, h2, h3, if_true, hx.1, ih hx.2, Bool.and_self, if_false, Bool.false_eq_true]
  | case9 => cases hx

/-- a write that goes through -/
theorem putPeer_through {db : DB} {p : Peer} {b : BytesN 4} (ha : p.addr = .v4 b) (hn : validUTF8 p.name = true) :
    putPeer .ok db p = (KV.put db b.1 (.record p.toValue), .ok ()) := by
  simp [putPeer, hn, ha, is4, keyBytes, KV.write, KV.applyBatch, KV.applyOp]

/-- a registration of a known peer with a version far away or of another network -/
theorem register_hostile {lib : Lib} {f : Fate} {now : Int} {r : Registry} {a : Addr} {np : Conn} {h : Handshake} {p : Peer}
    (h4 : is4 a = true) (hd : a ≠ r.declared) (hp : PeerOf r a = .ok p) (hn : np.handshake.appName ≠ [])
    (hh : 2 ≤ lib.cmpMinor np.handshake.version p.version ∨ np.handshake.appName.getLast? ≠ some r.scheme) :
    RegisterPeer lib f now r a np h =
      ({ r with pending := delPending r.pending a, db := (putPeer f r.db (hostilePeer p np)).1 }, true,
        (putPeer f r.db (hostilePeer p np)).2) := by
  have hp : peer r.db a = .ok p := hp
  unfold RegisterPeer
  simp only [h4, if_true, hd, if_false, hp, registerFound]
  by_cases hc : lib.cmpMinor np.handshake.version p.version ≥ 2
  · rw [if_pos hc]
  · rw [if_neg hc]
    cases hl : np.handshake.appName.getLast? with
    | none => exact absurd (List.getLast?_eq_none_iff.mp hl) hn
    | some b =>
      have hb : b ≠ r.scheme := by
        rintro rfl
        rcases hh with hh | hh
        · exact hc hh
        · exact hh hl
      simp only [hb, ne_eq, not_false_eq_true, if_true]

end Verif.Peers
