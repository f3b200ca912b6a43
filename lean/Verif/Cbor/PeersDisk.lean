import Verif.Cbor.Disk
import Verif.Cbor.PeersLemmas
/-
How many bytes the records of the database of peers have.
-/

set_option autoImplicit false

namespace Verif.Cbor.Peers

open Verif Verif.Cbor
open Verif.Chains (BytesN Addr)
open Verif.KV (Fate)
open Verif.Peers (Value State Version Registry Event Lib Good view Write Inv)
open Verif.Services.Json (digits digitsIn)

theorem digitsIn_length {dig : Nat → UInt8} : ∀ (f n k : Nat) (acc : Bytes), n < 10 ^ k → (digitsIn 10 dig f n acc).length ≤ acc.length + k
  | 0, n, k, acc, _ => by simp [digitsIn]
  | f + 1, n, 0, acc, h => by
    have : n = 0 := by simpa using h
    subst this
    simp [digitsIn]
  | f + 1, n, k + 1, acc, h => by
    rw [digitsIn]
    split
    · omega
    · have hp : (10 : Nat) ^ (k + 1) = 10 * 10 ^ k := Nat.pow_succ'
      have := digitsIn_length (dig := dig) f (n / 10) k (dig (n % 10) :: acc) (by omega)
      simp only [List.length_cons] at this
      omega

theorem digits_length_ten {n : Nat} (h : n < 4294967296) : (digits n).length ≤ 10 := by
  unfold digits
  split
  · simp
  · have := digitsIn_length (dig := fun d => UInt8.ofNat (48 + d)) n n 10 [] (by omega)
    simpa using this

theorem versionText_length_le (v : Version) : (versionText v).length ≤ 32 := by
  have h1 := digits_length_ten v.major.toNat_lt
  have h2 := digits_length_ten v.minor.toNat_lt
  have h3 := digits_length_ten v.patch.toNat_lt
  simp only [versionText, List.length_append, List.length_cons]
  omega

theorem head_length_three {m n : Nat} (h : n < 65536) : (head m n).length ≤ 3 := by
  unfold head
  repeat' split
  all_goals simp [be_length]

/-- the name has at most `N` bytes, the score at most `S` -/
structure Bounded (N S : Nat) (v : Value) : Prop where
  name : v.name.length ≤ N
  score : ∀ n, v.score = some n → (natBytes n).length ≤ S

theorem encValue_length {N S : Nat} {v : Value} (h : Bounded N S v) : (encValue v).length ≤ 83 + N + S := by
  have hp := v.port.toNat_lt
  have a1 : (encUint v.port.toNat).length ≤ 3 := head_length_three (by omega)
  have a2 : (encUint v.nonce.toNat).length ≤ 9 := head_length _ _
  have a3 : (encText v.name).length ≤ 9 + N := by
    have := head_length 3 v.name.length
    have := h.name
    simp only [encText, List.length_append]; omega
  have a4 : (encText (versionText v.version)).length ≤ 34 := by
    have h1 := versionText_length_le v.version
    have := head_length_two (m := 3) (n := (versionText v.version).length) (by omega)
    simp only [encText, List.length_append]; omega
  have a5 : (encUint (stateNum v.state)).length = 1 := head_length_one (by cases v.state <;> decide)
  have a6 : (encTime v.nextAttempt).length ≤ 9 := by
    unfold encTime
    split
    · simp [null]
    · unfold encInt
      cases v.nextAttempt with
      | ofNat n => exact head_length _ _
      | negSucc n => exact head_length _ _
  have a7 : (encBigPtr v.score).length ≤ 10 + S := by
    cases hs : v.score with
    | none => simp only [encBigPtr, null, List.length_cons, List.length_nil]; omega
    | some n => exact encBig_length (h.score n hs)
  unfold encValue
  rw [encStruct_length (by simp) (by simp)]
  simp only [List.map_cons, List.map_nil, List.sum_cons, List.sum_nil]
  omega

/-- what the call brings from outside has at most `N` bytes of names (a refused peer is filed under its name and the name of its
application) and at most `S` bytes of score -/
def Modest (N S : Nat) (e : Event) : Prop :=
  match e.op with
  | .register _ _ np h => h.nodeName.length ≤ N ∧ np.handshake.nodeName.length + np.handshake.appName.length + 2 ≤ N
  | .updateScore _ _ s => (natBytes s).length ≤ S
  | _ => True

theorem zero_bounded (N S : Nat) : Bounded N S Verif.Peers.Peer.zero.toValue :=
  ⟨Nat.zero_le N, fun n h => by cases h⟩

theorem onFile_bounded {N S : Nat} {r : Registry} (G : Good r.db) (hf : ∀ b v, view r.db b = some v → Bounded N S v) (b : BytesN 4) :
    Bounded N S (Verif.Peers.onFile r (.v4 b)).toValue := by
  rw [Verif.Peers.onFile_v4 G]
  cases h : view r.db b with
  | none => exact zero_bounded N S
  | some v => exact hf b v h

theorem Write.bounded {N S : Nat} {lib : Lib} {r : Registry} {e : Event} {b : BytesN 4} {v : Value} (w : Write lib r e b v) (G : Good r.db)
    (ho : Modest N S e) (hf : ∀ b v, view r.db b = some v → Bounded N S v) : Bounded N S v := by
  unfold Modest at ho
  cases w with
  | connected f np h op acc name applied eq =>
    rw [op] at ho
    have h0 := onFile_bounded G hf b
    subst eq
    exact ⟨ho.1, h0.score⟩
  | shut f np h op rej v0 old name eq =>
    rw [op] at ho
    have h0 := hf b v0 old
    subst eq
    refine ⟨?_, h0.score⟩
    show (np.handshake.nodeName ++ [40] ++ np.handshake.appName ++ [41]).length ≤ N
    obtain ⟨_, h1⟩ := ho
    simp only [List.length_append, List.length_cons, List.length_nil]
    omega
  | left f op v0 old eq =>
    have h0 := hf b v0 old
    subst eq
    exact ⟨h0.name, h0.score⟩
  | marked f op name eq =>
    have h0 := onFile_bounded G hf b
    subst eq
    exact ⟨h0.name, h0.score⟩
  | scored f s op v0 old eq =>
    rw [op] at ho
    have h0 := hf b v0 old
    subst eq
    exact ⟨h0.name, fun n hn => by cases hn; exact ho⟩
  | first f op old ver best eq =>
    subst eq
    exact ⟨(zero_bounded N S).name, fun n h => by cases h⟩
  | again f op v0 old st ver next eq =>
    have h0 := hf b v0 old
    subst eq
    exact ⟨h0.name, h0.score⟩
  | added fs l op old port acc mem eq =>
    subst eq
    exact ⟨(zero_bounded N S).name, fun n h => by cases h⟩

theorem exec_bounded {N S : Nat} {lib : Lib} : ∀ (es : List Event) {r : Registry}, Inv r → (∀ b v, view r.db b = some v → Bounded N S v) →
    (∀ e, e ∈ es → Modest N S e) → ∀ b v, view (Verif.Peers.exec lib r es).db b = some v → Bounded N S v
  | [], _, _, hf, _ => hf
  | e :: es, r, I, hf, ho => by
    refine exec_bounded es (r := Verif.Peers.step lib r e) I.step ?_ (fun x hx => ho x (List.mem_cons_of_mem _ hx))
    intro b v hv
    rcases Verif.Peers.step_view (lib := lib) (e := e) I.good b with h | ⟨v', h, w⟩
    · exact hf b v (h ▸ hv)
    · rw [h] at hv; cases hv
      exact Write.bounded w I.good (ho e (by simp)) hf

end Verif.Cbor.Peers
