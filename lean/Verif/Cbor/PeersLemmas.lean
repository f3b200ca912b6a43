import Verif.Cbor.Peers
import Verif.Cbor.Lemmas
import Verif.Services.JsonLemmas
import Verif.Services.NetipLemmas
import Verif.Peers.History
/-
What is read from the bytes of the peers database is what the model of the database says.
-/

set_option autoImplicit false

namespace Verif.Cbor.Peers

open Verif Verif.Cbor
open Verif.Chains (Addr BytesN)
open Verif.Peers (Version State Value Val Peer keyBytes keyFrom zeroTime validUTF8)
open Verif.Services.Json (digits isDig decVal decVal_digits digits_isDig digits_head)

theorem readDec_digits {n : Nat} (h : n < 2 ^ 32) {r : Bytes} (hr : ∀ b, r.head? = some b → isDig b = false) :
    readDec (digits n ++ r) = some (n, r) := by
  have hd := digits_isDig n
  have e1 : (digits n ++ r).takeWhile isDig = digits n := by
    rw [List.takeWhile_append_of_pos hd]
    cases r with
    | nil => simp
    | cons b r => simp [hr b rfl]
  have e2 : (digits n ++ r).dropWhile isDig = r := by
    rw [List.dropWhile_append_of_pos hd]
    cases r with
    | nil => simp
    | cons b r => simp [hr b rfl]
  simp only [readDec, e1, e2, decVal_digits, if_neg (digits_head n).1, if_pos h]

theorem readVersion_text (v : Version) : readVersion (versionText v) = some v := by
  have h1 : isDig 46 = false := by decide
  have hd : ∀ (s : Bytes) (b : UInt8), (46 :: s : Bytes).head? = some b → isDig b = false := by
    intro s b hb; cases hb; exact h1
  have e1 := readDec_digits v.major.toNat_lt (hd (digits v.minor.toNat ++ 46 :: digits v.patch.toNat))
  have e2 := readDec_digits v.minor.toNat_lt (hd (digits v.patch.toNat))
  have e3 := readDec_digits (r := []) v.patch.toNat_lt (by simp)
  rw [List.append_nil] at e3
  simp only [readVersion, versionText, e1, readDotDec, e2, e3]
  simp

theorem versionText_valid (v : Version) : validUTF8 (versionText v) = true := by
  have hd : ∀ x : UInt8, isDig x = true → x < 0x80 := by
    intro x hx
    simp only [isDig, Bool.and_eq_true, decide_eq_true_eq] at hx
    have := hx.2
    rw [UInt8.le_iff_toNat_le] at this
    rw [UInt8.lt_iff_toNat_lt]
    exact Nat.lt_of_le_of_lt this (by decide)
  apply Verif.Services.Netip.ascii_valid
  intro x hx
  simp only [versionText, List.mem_append, List.mem_cons] at hx
  rcases hx with h | rfl | h | rfl | h
  · exact hd x (digits_isDig _ x h)
  · decide
  · exact hd x (digits_isDig _ x h)
  · decide
  · exact hd x (digits_isDig _ x h)

theorem digits_length (n : Nat) : (digits n).length ≤ n + 1 := by
  have key : ∀ (f n : Nat) (acc : Bytes), (Verif.Services.Json.digitsIn 10 (fun d => UInt8.ofNat (48 + d)) f n acc).length ≤ acc.length + f := by
    intro f
    induction f with
    | zero => intro n acc; simp [Verif.Services.Json.digitsIn]
    | succ f ih =>
      intro n acc
      unfold Verif.Services.Json.digitsIn
      split
      · omega
      · have := ih (n / 10) (UInt8.ofNat (48 + n % 10) :: acc)
        simp only [List.length_cons] at this
        omega
  unfold digits
  split
  · simp
  · have := key n n []
    simp only [List.length_nil] at this
    omega

theorem versionText_length (v : Version) : (versionText v).length < 2 ^ 64 := by
  have h1 := digits_length v.major.toNat
  have h2 := digits_length v.minor.toNat
  have h3 := digits_length v.patch.toNat
  have := v.major.toNat_lt
  have := v.minor.toNat_lt
  have := v.patch.toNat_lt
  simp only [versionText, List.length_append, List.length_cons]
  omega

/-- what a record needs to be read back -/
structure Fits (v : Value) : Prop where
  name : v.name.length < 2 ^ 64
  time : -9223372036854775808 ≤ v.nextAttempt ∧ v.nextAttempt < 9223372036854775808
  score : ∀ n, v.score = some n → (natBytes n).length < 2 ^ 64

def timeItem (t : Int) : Item := if t = zeroTime then .simple 22 else intItem t

theorem reads_time {t : Int} (h : -9223372036854775808 ≤ t ∧ t < 9223372036854775808) : Reads (encTime t) (timeItem t) := by
  unfold encTime timeItem
  split
  · exact reads_null
  · exact reads_int h.1 h.2

theorem asTime_item {t : Int} (h : -9223372036854775808 ≤ t ∧ t < 9223372036854775808) : asTime (timeItem t) = some t := by
  unfold timeItem
  split
  · next e => rw [e]; rfl
  · cases t with
    | ofNat n =>
      have : (n : Int) < 9223372036854775808 := h.2
      simp only [intItem, asTime]
      rw [if_pos (by omega)]; rfl
    | negSucc n =>
      simp only [intItem, asTime]
      rw [if_pos (by omega)]
      congr 1
      omega

theorem asState_item (s : State) : asState (.uint (stateNum s)) = some s := by
  cases s <;> rfl

/-- the fields of a record, as they are read -/
theorem readStruct_value {v : Value} (h : Fits v) :
    readStruct (encValue v) = some [(.uint 0, .uint v.port.toNat), (.uint 1, .uint v.nonce.toNat), (.uint 2, .text v.name),
      (.uint 3, .text (versionText v.version)), (.uint 4, .uint (stateNum v.state)), (.uint 5, timeItem v.nextAttempt),
      (.uint 6, bigPtrItem v.score)] := by
  have hp := v.port.toNat_lt
  have hn := v.nonce.toNat_lt
  have hs : stateNum v.state < 2 ^ 64 := by cases v.state <;> decide
  have e := readStruct_fields [(0, encUint v.port.toNat, .uint v.port.toNat), (1, encUint v.nonce.toNat, .uint v.nonce.toNat),
    (2, encText v.name, .text v.name), (3, encText (versionText v.version), .text (versionText v.version)),
    (4, encUint (stateNum v.state), .uint (stateNum v.state)), (5, encTime v.nextAttempt, timeItem v.nextAttempt),
    (6, encBigPtr v.score, bigPtrItem v.score)] (by simp [maxElements]) (by
      intro p hp
      simp only [List.mem_cons, List.not_mem_nil, or_false] at hp
      rcases hp with rfl | rfl | rfl | rfl | rfl | rfl | rfl
      · exact ⟨by omega, reads_uint (by omega)⟩
      · exact ⟨by omega, reads_uint (by omega)⟩
      · exact ⟨by omega, reads_text h.name⟩
      · exact ⟨by omega, reads_text (versionText_length _)⟩
      · exact ⟨by omega, reads_uint hs⟩
      · exact ⟨by omega, reads_time h.time⟩
      · exact ⟨by omega, reads_bigPtr h.score⟩)
  simp only [List.map_cons, List.map_nil] at e
  exact e

theorem decValue_enc {v : Value} (h : Fits v) : decValue (encValue v) = if validUTF8 v.name then .record v else .badCbor := by
  have hp := v.port.toNat_lt
  have hn := v.nonce.toNat_lt
  simp only [decValue, readStruct_value h, lookup]
  simp only [Nat.reduceEqDiff, ↓reduceIte, asUint_uint (show v.port.toNat ≤ 65535 by omega),
    asUint_uint (show v.nonce.toNat ≤ 2 ^ 64 - 1 by omega), asState_item, asTime_item h.time, asBig_item]
  have hv : asText (.text (versionText v.version)) = some (versionText v.version) := by simp [asText, versionText_valid]
  rw [hv]
  by_cases hu : validUTF8 v.name = true
  · have hu' : asText (.text v.name) = some v.name := by simp [asText, hu]
    simp only [hu', readVersion_text, if_pos hu]
    simp
  · have hu' : asText (.text v.name) = none := by simp [asText, hu]
    simp only [hu', if_neg hu]

/-! ### the database -/

theorem get_enc (db : Verif.Peers.DB) (k : Bytes) : KV.get (encDB db) k = (KV.get db k).map encVal := get_mapVals encVal db k

theorem write_enc (f : KV.Fate) (db : Verif.Peers.DB) (b : KV.Batch Val) :
    KV.write f (encDB db) (encBatch b) = (encDB (KV.write f db b).1, (KV.write f db b).2) := write_mapVals encVal f db b

/-- every record can be read back -/
def AllFit (db : Verif.Peers.DB) : Prop := ∀ k v, (k, Val.record v) ∈ db → Fits v ∧ validUTF8 v.name = true

theorem peers_enc : ∀ {db : Verif.Peers.DB}, (∀ k v, (k, v) ∈ db → ∃ x, v = .record x) → AllFit db →
    peers (encDB db) = Verif.Peers.peers db
  | [], _, _ => rfl
  | (k, v) :: db, hs, hf => by
    obtain ⟨x, rfl⟩ := hs k v (by simp)
    obtain ⟨f1, f2⟩ := hf k x (by simp)
    have e := peers_enc (db := db) (fun k v h => hs k v (List.mem_cons_of_mem _ h)) (fun k v h => hf k v (List.mem_cons_of_mem _ h))
    show peers ((k, encValue x) :: encDB db) = _
    rw [peers, Verif.Peers.peers, decValue_enc f1, if_pos f2, e]

theorem peer_enc {db : Verif.Peers.DB} (hs : ∀ k v, (k, v) ∈ db → ∃ x, v = .record x) (hf : AllFit db) (a : Addr) :
    peer (encDB db) a = Verif.Peers.peer db a := by
  unfold peer Verif.Peers.peer
  cases keyBytes a with
  | error e => rfl
  | ok k =>
    simp only [go_bind_ok, get_enc]
    cases hg : KV.get db k with
    | none => rfl
    | some v =>
      obtain ⟨x, rfl⟩ := hs k v (KV.mem_of_get hg)
      obtain ⟨f1, f2⟩ := hf k x (KV.mem_of_get hg)
      simp only [Option.map_some, encVal, decValue_enc f1, if_pos f2]

theorem hasPeer_enc (db : Verif.Peers.DB) (a : Addr) : hasPeer (encDB db) a = Verif.Peers.hasPeer db a := by
  unfold hasPeer Verif.Peers.hasPeer
  cases keyBytes a with
  | error e => rfl
  | ok k => simp only [go_bind_ok, get_enc, Option.isSome_map]

/-! ### what the calls store fits -/

/-- The strings and numbers given to the call and the time of the call are such as Go can hold: strings
shorter than 2⁶² bytes, scores of fewer than 2⁶² bytes, times between the years 1677 and 2262. -/
def Ordinary (e : Verif.Peers.Event) : Prop :=
  -9223372036854775808 ≤ e.now ∧ e.now < 9223372036854775808 ∧
  match e.op with
  | .register _ _ np h => h.nodeName.length < 2 ^ 62 ∧ np.handshake.nodeName.length < 2 ^ 62 ∧ np.handshake.appName.length < 2 ^ 62
  | .updateScore _ _ s => (natBytes s).length < 2 ^ 62
  | _ => True

open Verif.Peers (Registry Event Lib Good view Write Inv)

theorem round_fits {t : Int} (h1 : -9223372036854775808 ≤ t) (h2 : t ≤ 9223372036854775808 + 600000000000) :
    -9223372036854775808 ≤ Verif.Peers.roundSec t ∧ Verif.Peers.roundSec t < 9223372036854775808 := by
  unfold Verif.Peers.roundSec Verif.Peers.second
  omega

theorem zero_fits : Fits Verif.Peers.Peer.zero.toValue :=
  ⟨by decide, by decide, fun n h => by cases h⟩

theorem onFile_fits {r : Registry} (G : Good r.db) (hf : ∀ b v, view r.db b = some v → Fits v) (b : BytesN 4) :
    Fits (Verif.Peers.onFile r (.v4 b)).toValue := by
  rw [Verif.Peers.onFile_v4 G]
  cases h : view r.db b with
  | none => exact zero_fits
  | some v => exact hf b v h

theorem Write.fits {lib : Lib} {r : Registry} {e : Event} {b : BytesN 4} {v : Value} (w : Write lib r e b v) (G : Good r.db)
    (ho : Ordinary e) (hf : ∀ b v, view r.db b = some v → Fits v) : Fits v := by
  obtain ⟨t1, t2, ho⟩ := ho
  have hd : Verif.Peers.delay = 600000000000 := rfl
  have hr := round_fits t1 (by omega)
  have hrd := round_fits (t := e.now + Verif.Peers.delay) (by omega) (by omega)
  cases w with
  | connected f np h op acc name applied eq =>
    rw [op] at ho
    have h0 := onFile_fits G hf b
    subst eq
    exact ⟨Nat.lt_trans ho.1 (by decide), hr, h0.score⟩
  | shut f np h op rej v0 old name eq =>
    rw [op] at ho
    have h0 := hf b v0 old
    subst eq
    refine ⟨?_, h0.time, h0.score⟩
    show (np.handshake.nodeName ++ [40] ++ np.handshake.appName ++ [41]).length < 2 ^ 64
    obtain ⟨_, h1, h2⟩ := ho
    simp only [List.length_append, List.length_cons, List.length_nil]
    omega
  | left f op v0 old eq =>
    have h0 := hf b v0 old
    subst eq
    exact ⟨h0.name, hrd, h0.score⟩
  | marked f op name eq =>
    have h0 := onFile_fits G hf b
    subst eq
    exact ⟨h0.name, h0.time, h0.score⟩
  | scored f s op v0 old eq =>
    rw [op] at ho
    have h0 := hf b v0 old
    subst eq
    exact ⟨h0.name, h0.time, fun n hn => by cases hn; exact Nat.lt_trans ho (by decide)⟩
  | first f op old ver best eq =>
    subst eq
    exact ⟨zero_fits.name, hrd, fun n h => by cases h⟩
  | again f op v0 old st ver next eq =>
    have h0 := hf b v0 old
    subst eq
    exact ⟨h0.name, hrd, h0.score⟩
  | added fs l op old port acc mem eq =>
    subst eq
    exact ⟨zero_fits.name, zero_fits.time, fun n h => by cases h⟩

theorem exec_fits {lib : Lib} : ∀ (es : List Event) {r : Registry}, Inv r → (∀ b v, view r.db b = some v → Fits v) →
    (∀ e, e ∈ es → Ordinary e) → ∀ b v, view (Verif.Peers.exec lib r es).db b = some v → Fits v
  | [], _, _, hf, _ => hf
  | e :: es, r, I, hf, ho => by
    refine exec_fits es (r := Verif.Peers.step lib r e) I.step ?_ (fun x hx => ho x (List.mem_cons_of_mem _ hx))
    intro b v hv
    rcases Verif.Peers.step_view (lib := lib) (e := e) I.good b with h | ⟨v', h, w⟩
    · exact hf b v (h ▸ hv)
    · rw [h] at hv; cases hv
      exact Write.fits w I.good (ho e (by simp)) hf

/-- everything stored after a history can be read back -/
theorem history_fits {lib : Lib} (c : Verif.Peers.Config) (es : List Event) (ho : ∀ e, e ∈ es → Ordinary e) :
    Inv (Verif.Peers.exec lib (Verif.Peers.NewRegistry c []) es) ∧ AllFit (Verif.Peers.exec lib (Verif.Peers.NewRegistry c []) es).db := by
  have I := (Inv.start c).exec (lib := lib) es
  have hf := exec_fits (lib := lib) es (Inv.start c) (fun b v h => by simp [Verif.Peers.NewRegistry, view, KV.get] at h) ho
  refine ⟨I, fun k v hm => ?_⟩
  have hk := (I.good.shape _ _ hm).1
  have hv : view (Verif.Peers.exec lib (Verif.Peers.NewRegistry c []) es).db ⟨k, hk⟩ = some v := by
    simp [view, KV.get_of_mem I.good.sorted hm]
  exact ⟨hf _ _ hv, I.names _ _ hv⟩

end Verif.Cbor.Peers
