import Verif.Services.NamesLemmas
import Verif.Chains.Examples
/-
Property C129: the log names states and batches of blocks truly.
-/

set_option autoImplicit false

namespace Verif.Props

open Verif
open Verif.Chains (BlockID ProtoBlock)
open Verif.Loading (Item put newQueue ready)
open Verif.Services
open Verif.Services.Json (digits number isDig digits_isDig decVal decVal_digits)
open Verif.Services.Netip
open Verif.Services.Names

/-- the names that the log should give -/
def loadingNames : List String := ["Idle", "WaitingForIDs", "WaitingForBlocks", "Done"]
def eventNames : List String := ["Start", "Restart", "IDs", "Block", "Tick", "Timeout", "QueueReady"]
def peerNames : List String := ["Unknown", "Connected", "Hostile"]

/-- what a text should be: the name, or the number in parentheses after the type for numbers without a name -/
def nameOr (type : String) (names : List String) (i : Int) : List Char :=
  if i < 0 then type.toList ++ '(' :: (chars (number i) ++ [')'])
  else match names[i.toNat]? with
    | some n => n.toList
    | none => type.toList ++ '(' :: (chars (number i) ++ [')'])

/-- The text of every state and event, also of numbers that stand for none, is its name or its number, and no text is made by a slice out
of bounds. -/
theorem C129_names (i : Int) (b : UInt8) :
    loadingState i = .ok (nameOr "state" loadingNames i) ∧ loadingEvent i = .ok (nameOr "event" eventNames i) ∧
    peerState b = .ok (nameOr "State" peerNames b.toNat) := by
  have key : ∀ (type : String) (name : List Char) (idx : List Nat) (names : List String), idx.length = names.length + 1 →
      (∀ k, k < names.length → stringer type.toList name idx (k : Int) = .ok ((names[k]?).getD "").toList) →
      ∀ i, stringer type.toList name idx i = .ok (nameOr type names i) := by
    intro type name idx names hl hk i
    unfold nameOr
    by_cases h0 : i < 0
    · rw [if_pos h0, stringer_else (Or.inl h0)]
    · rw [if_neg h0]
      by_cases h1 : i.toNat < names.length
      · have e : i = (i.toNat : Int) := by omega
        have := hk i.toNat h1
        rw [← e] at this
        rw [this]
        have hg : names[i.toNat]? = some (names[i.toNat]) := by simp [h1]
        rw [hg]
        rfl
      · have hg : names[i.toNat]? = none := by simp; omega
        rw [hg, stringer_else (Or.inr (by omega))]
  refine ⟨key _ _ _ loadingNames rfl (fun k hk => ?_) i, key _ _ _ eventNames rfl (fun k hk => ?_) i, key _ _ _ peerNames rfl (fun k hk => ?_) _⟩
  · match k, hk with
    | 0, _ => decide
    | 1, _ => decide
    | 2, _ => decide
    | 3, _ => decide
    | k + 4, hk => exact absurd hk (by simp [loadingNames])
  · match k, hk with
    | 0, _ => decide
    | 1, _ => decide
    | 2, _ => decide
    | 3, _ => decide
    | 4, _ => decide
    | 5, _ => decide
    | 6, _ => decide
    | k + 7, hk => exact absurd hk (by simp [eventNames])
  · match k, hk with
    | 0, _ => decide
    | 1, _ => decide
    | 2, _ => decide
    | k + 3, hk => exact absurd hk (by simp [peerNames])

example : nameOr "state" loadingNames 2 = "WaitingForBlocks".toList ∧ nameOr "state" loadingNames 4 = "state(4)".toList ∧
    nameOr "event" eventNames (-12) = "event(-12)".toList ∧ nameOr "State" peerNames 255 = "State(255)".toList := by decide

/-- The states that the program has are called by their names. -/
theorem C129_states :
    (loadingState (ofLoading .idle) = .ok "Idle".toList ∧ loadingState (ofLoading .waitingForIDs) = .ok "WaitingForIDs".toList ∧
      loadingState (ofLoading .waitingForBlocks) = .ok "WaitingForBlocks".toList ∧ loadingState (ofLoading .done) = .ok "Done".toList) ∧
    peerState (ofPeer .unknown) = .ok "Unknown".toList ∧ peerState (ofPeer .connected) = .ok "Connected".toList ∧
    peerState (ofPeer .hostile) = .ok "Hostile".toList := by
  refine ⟨⟨?_, ?_, ?_, ?_⟩, ?_, ?_, ?_⟩ <;> decide

/-- A text stands for one number only, so that a state that no longer has a name, read from an older database, is not taken for another. -/
theorem C129_apart (i j : Int) (b c : UInt8) :
    (loadingState i = loadingState j → i = j) ∧ (loadingEvent i = loadingEvent j → i = j) ∧ (peerState b = peerState c → b = c) := by
  have key : ∀ (type : String) (names : List String), names.Nodup → (∀ n, n ∈ names → '(' ∉ n.toList) →
      ∀ i j, nameOr type names i = nameOr type names j → i = j := by
    intro type names hn hp
    have cases3 : ∀ i : Int, (nameOr type names i = type.toList ++ '(' :: (chars (number i) ++ [')'])) ∨
        ∃ n, 0 ≤ i ∧ names[i.toNat]? = some n ∧ nameOr type names i = n.toList := by
      intro i
      unfold nameOr
      by_cases h0 : i < 0
      · rw [if_pos h0]; exact Or.inl rfl
      · rw [if_neg h0]
        cases hg : names[i.toNat]? with
        | none => exact Or.inl rfl
        | some n => exact Or.inr ⟨n, by omega, rfl, rfl⟩
    have mixed : ∀ {n : String} {i : Int}, n ∈ names → n.toList = type.toList ++ '(' :: (chars (number i) ++ [')']) → False := by
      intro n i hm e
      exact hp n hm (by rw [e]; simp)
    intro i j h
    rcases cases3 i with hi | ⟨n, i0, hi1, hi2⟩
    · rcases cases3 j with hj | ⟨m, j0, hj1, hj2⟩
      · rw [hi, hj] at h; exact paren_inj h
      · rw [hi, hj2] at h
        exact (mixed (List.mem_of_getElem? hj1) h.symm).elim
    · rcases cases3 j with hj | ⟨m, j0, hj1, hj2⟩
      · rw [hi2, hj] at h
        exact (mixed (List.mem_of_getElem? hi1) h).elim
      · rw [hi2, hj2] at h
        have hnm : n = m := String.toList_inj.mp h
        subst hnm
        have := (List.getElem?_inj (by
          rcases Nat.lt_or_ge i.toNat names.length with h | h
          · exact h
          · rw [List.getElem?_eq_none h] at hi1; cases hi1) hn).mp (hi1.trans hj1.symm)
        omega
  refine ⟨fun h => ?_, fun h => ?_, fun h => ?_⟩
  · rw [(C129_names i b).1, (C129_names j b).1] at h
    exact key _ _ (by decide) (by decide) _ _ (Except.ok.inj h)
  · rw [(C129_names i b).2.1, (C129_names j b).2.1] at h
    exact key _ _ (by decide) (by decide) _ _ (Except.ok.inj h)
  · rw [(C129_names i b).2.2, (C129_names i c).2.2] at h
    have := key _ _ (by decide) (by decide) _ _ (Except.ok.inj h)
    exact UInt8.toNat_inj.mp (by omega)

/-- The text about a batch says how many of the requested blocks have arrived, and `READY` exactly if all have, which is when they are
applied; for ids that were requested once each and whatever blocks have arrived, in any order and repeatedly. -/
theorem C129_batch (short : BlockID → List Char) (ids : List BlockID) (h : ids.Nodup) {a z : BlockID} (ha : ids.head? = some a)
    (hz : ids.getLast? = some z) (bs : List ProtoBlock) :
    ∃ k, k = (ids.filter (fun id => bs.any (fun b => decide (b.id = id)))).length ∧
      (ready (bs.foldl put (newQueue ids)) = true ↔ k = ids.length) ∧
      rangeString short (bs.foldl put (newQueue ids)) = .ok ("[".toList ++ short a ++ "..".toList ++ short z ++ "](".toList ++
        (if k = ids.length then "READY/".toList else chars (digits k) ++ "/".toList) ++ chars (digits ids.length) ++ ")".toList) := by
  have hreq : (bs.foldl put (newQueue ids)).map (fun it => it.requested) = ids := by
    rw [Loading.fold_newQueue ids h]
    simp [List.map_map, Function.comp_def]
  have hlen : (bs.foldl put (newQueue ids)).length = ids.length := by
    conv => rhs; rw [← hreq]
    rw [List.length_map]
  have hcount := holds_count ids h bs
  have hfull := full_iff (bs.foldl put (newQueue ids))
  generalize bs.foldl put (newQueue ids) = q at *
  subst hreq
  rw [List.head?_map] at ha
  rw [List.getLast?_map] at hz
  cases hqa : q.head? with
  | none => rw [hqa] at ha; cases ha
  | some x =>
    cases hqz : q.getLast? with
    | none => rw [hqz] at hz; cases hz
    | some y =>
      rw [hqa] at ha
      rw [hqz] at hz
      cases ha
      cases hz
      refine ⟨_, rfl, ?_, ?_⟩
      · rw [← hcount, ← hlen]; exact hfull.symm
      · rw [rangeString_eq short hqa hqz, ← hcount, ← hlen]
        congr 1
        split <;> simp

open Chains.Ex in
/-- Two of three blocks have arrived, one of them twice, and one that was not asked for; then the third. -/
example (short : BlockID → List Char) (h1 : short (bid 1) = "a".toList) (h3 : short (bid 3) = "c".toList) :
    rangeString short ([blk 3 2, blk 9 8, blk 1 0, blk 3 2].foldl put (newQueue [bid 1, bid 2, bid 3])) = .ok "[a..c](2/3)".toList ∧
    rangeString short ([blk 3 2, blk 9 8, blk 1 0, blk 2 1].foldl put (newQueue [bid 1, bid 2, bid 3])) = .ok "[a..c](READY/3)".toList := by
  obtain ⟨k, hk, _, e⟩ := C129_batch short [bid 1, bid 2, bid 3] (by decide +kernel) (z := bid 3) rfl rfl [blk 3 2, blk 9 8, blk 1 0, blk 3 2]
  obtain ⟨k', hk', _, e'⟩ := C129_batch short [bid 1, bid 2, bid 3] (by decide +kernel) (z := bid 3) rfl rfl [blk 3 2, blk 9 8, blk 1 0, blk 2 1]
  have hk : k = 2 := by rw [hk]; decide +kernel
  have hk' : k' = 3 := by rw [hk']; decide +kernel
  subst hk hk'
  rw [e, e', h1, h3]
  exact ⟨by decide +kernel, by decide +kernel⟩

/-- The text of a queue never fails, also if an id was requested twice; without ids it is a text of its own. -/
theorem C129_total (short : BlockID → List Char) (q : List Item) :
    (q = [] → rangeString short q = .ok "[](EMPTY)".toList) ∧ ∃ t, rangeString short q = .ok t := by
  refine ⟨fun h => by subst h; rfl, ?_⟩
  cases hqa : q.head? with
  | none =>
    have : q = [] := by simpa using hqa
    subst this
    exact ⟨_, rfl⟩
  | some x =>
    cases hqz : q.getLast? with
    | none =>
      have : q = [] := by simpa using hqz
      subst this
      cases hqa
    | some y => exact ⟨_, rangeString_eq short hqa hqz⟩

end Verif.Props
