import Verif.Loading.Owed
import Verif.Loading.FineReadsEx
/-
Concrete runs with what passes between the loader and the others.
-/

set_option autoImplicit false

namespace Verif.Loading.Fine

open Verif
open Verif.Chains (BlockID)
open Verif.Peers (Lib Peer)

/-- what a move adds to what has passed -/
def Ex.note (w : World) : Ex.RdMove → List Entry
  | .receive _ i => [.heard i]
  | .go _ =>
    match w.todo with
    | some (.ret (.ok o)) => (o.out.drop w.own.out.length).map .said
    | _ => []
  | .other _ _ => []

theorem Ex.note_talk {lib : Lib} {w0 w w' : World} {m : Ex.RdMove} {tr tr' : List Answer} {T : List Entry} (h : Talk lib w0 tr T w)
    (e : Ex.rdMove lib w m = some (tr', w')) : Talk lib w0 (tr ++ tr') (T ++ Ex.note w m) w' := by
  cases m with
  | receive c i =>
    unfold Ex.rdMove at e
    cases ht : w.todo with
    | none => rw [ht] at e; cases e; simpa [Ex.note] using h.receive c i ht
    | some p => rw [ht] at e; cases e
  | go D =>
    unfold Ex.rdMove at e
    unfold Ex.note
    cases ht : w.todo with
    | none => rw [ht] at e; cases e
    | some p =>
      rw [ht] at e
      cases p with
      | call c k => cases e; simpa using h.call D c k ht
      | ret r =>
        cases r with
        | ok o => cases e; simpa using h.finish o ht
        | error e' => cases e
  | other D x => cases e; simpa [Ex.note] using h.other D x

def Ex.talks (lib : Lib) : List Answer × List Entry × World → List Ex.RdMove → Option (List Answer × List Entry × World)
  | s, [] => some s
  | s, m :: ms => (Ex.rdMove lib s.2.2 m).bind (fun r => Ex.talks lib (s.1 ++ r.1, s.2.1 ++ Ex.note s.2.2 m, r.2) ms)

theorem Ex.talks_talk {lib : Lib} {w0 : World} : ∀ {ms : List Ex.RdMove} {s s' : List Answer × List Entry × World}, Talk lib w0 s.1 s.2.1 s.2.2 →
    Ex.talks lib s ms = some s' → Talk lib w0 s'.1 s'.2.1 s'.2.2
  | [], _, _, h, e => by cases e; exact h
  | m :: ms, s, s', h, e => by
    unfold Ex.talks at e
    cases hm : Ex.rdMove lib s.2.2 m with
    | none => rw [hm] at e; cases e
    | some r =>
      rw [hm] at e
      exact Ex.talks_talk (s := (s.1 ++ r.1, s.2.1 ++ Ex.note s.2.2 m, r.2)) (Ex.note_talk h (show Ex.rdMove lib s.2.2 m = some (r.1, r.2) from hm)) e

/-- the answers, what has passed, and the world after some moves -/
def Ex.talk (ms : List Ex.RdMove) : List Answer × List Entry × World := (Ex.talks Peers.Ex.lib ([], [], Ex.begin) ms).getD ([], [], Ex.begin)

theorem Ex.talk_talk (ms : List Ex.RdMove) : Talk Peers.Ex.lib Ex.begin (Ex.talk ms).1 (Ex.talk ms).2.1 (Ex.talk ms).2.2 := by
  unfold Ex.talk
  cases h : Ex.talks Peers.Ex.lib ([], [], Ex.begin) ms with
  | none => exact .start
  | some s => exact Ex.talks_talk .start h

/-- it asks for ids -/
def Ex.asks (m : Sent) : Bool :=
  match m.msg with
  | .getBlock _ => false
  | _ => true

/-- the request for ids `m` is not answered in the list -/
def Ex.openIDs (p : Peer) (T : List Entry) : Bool :=
  T.all (fun x => match x with | .heard (.ids a l) => decide (a ≠ p.addr) || l.isEmpty | _ => true)

/-- the request for the block is not answered in the list -/
def Ex.openBlock (p : Peer) (T : List Entry) (id : BlockID) : Bool :=
  T.all (fun x => match x with | .heard (.block a (some b)) => decide (a ≠ p.addr) || decide (b.id ≠ id) | _ => true)

/-- the peer owes something -/
def Ex.owes (p : Peer) : List Entry → Bool
  | [] => false
  | .heard _ :: T => Ex.owes p T
  | .said m :: T => (match m.msg with | .getBlock id => Ex.openBlock p T id | _ => Ex.openIDs p T) || Ex.owes p T

theorem Ex.owes_later {p : Peer} {T : List Entry} (h : Ex.owes p T = true) : ∀ T0 : List Entry, Ex.owes p (T0 ++ T) = true
  | [] => h
  | .heard _ :: T0 => Ex.owes_later h T0
  | .said m :: T0 => by
    show (_ || Ex.owes p (T0 ++ T)) = true
    rw [Ex.owes_later h T0, Bool.or_true]

theorem Ex.owes_ids {p : Peer} {T : List Entry} {t : Int} (h : OwesIDs p T t) : Ex.owes p T = true := by
  obtain ⟨T1, m, req, T2, rfl, _, _, ha, hn⟩ := h
  refine Ex.owes_later ?_ T1
  have : Ex.openIDs p T2 = true := by
    unfold Ex.openIDs
    refine List.all_eq_true.mpr (fun x hx => ?_)
    cases x with
    | said _ => rfl
    | heard i =>
      cases i with
      | ids a l =>
        by_cases e : a = p.addr
        · subst e
          simp [hn l hx]
        · simp [e]
      | _ => rfl
  show (_ || Ex.owes p T2) = true
  cases hm : m.msg with
  | getBlock id => rw [hm] at ha; cases ha
  | getSignatures l => simp [this]
  | getBlockIds l => simp [this]

theorem Ex.owes_block {p : Peer} {T : List Entry} {t : Int} {id : BlockID} (h : OwesBlock p T t id) : Ex.owes p T = true := by
  obtain ⟨T1, m, T2, rfl, _, _, ha, hn⟩ := h
  refine Ex.owes_later ?_ T1
  have : Ex.openBlock p T2 id = true := by
    unfold Ex.openBlock
    refine List.all_eq_true.mpr (fun x hx => ?_)
    cases x with
    | said _ => rfl
    | heard i =>
      cases i with
      | block a b =>
        cases b with
        | none => rfl
        | some b =>
          by_cases e : a = p.addr
          · subst e
            simp [hn b hx]
          · simp [e]
      | _ => rfl
  show (_ || Ex.owes p T2) = true
  rw [ha]
  simp [this]

theorem Ex.owes_nothing (ms : List Ex.RdMove) (h : Ex.owes (Ex.talk ms).2.2.own.obj.peer (Ex.talk ms).2.1 = false) :
    (∀ t, ¬ OwesIDs (Ex.talk ms).2.2.own.obj.peer (Ex.talk ms).2.1 t) ∧
    (∀ t id, ¬ OwesBlock (Ex.talk ms).2.2.own.obj.peer (Ex.talk ms).2.1 t id) := by
  constructor
  · intro t h'
    rw [Ex.owes_ids h'] at h; cases h
  · intro t id h'
    rw [Ex.owes_block h'] at h; cases h

/-- the call returned an error -/
def Ex.failed : Answer → Bool
  | ⟨.hasBlock _, r⟩ => match (r : Go Bool) with | .error (.err _) => true | _ => false
  | ⟨.leashOf _, r⟩ => match (r : Go BlockID) with | .error (.err _) => true | _ => false
  | ⟨.leashScore _, r⟩ => match (r : Go Nat) with | .error (.err _) => true | _ => false
  | ⟨.lastIDs _ _, r⟩ => match (r : Go (List BlockID)) with | .error (.err _) => true | _ => false
  | ⟨.lcb _ _, r⟩ => match (r : Go BlockID) with | .error (.err _) => true | _ => false
  | ⟨.moveLeash _ _ _, r⟩ => match (r : Go Unit) with | .error (.err _) => true | _ => false
  | ⟨.putBlock _ _ _ _, r⟩ => match (r : Go Unit) with | .error (.err _) => true | _ => false
  | ⟨.connections _, r⟩ => match (r : Go (List Peer)) with | .error (.err _) => true | _ => false
  | ⟨.peerOf _, r⟩ => match (r : Go Peer) with | .error (.err _) => true | _ => false

theorem Ex.failed_true {x : Answer} (h : x.Failed) : Ex.failed x = true := by
  obtain ⟨c, r⟩ := x
  cases c <;> (obtain ⟨e, he⟩ := h; subst he; rfl)

theorem Ex.none_failed (ms : List Ex.RdMove) (h : (Ex.talk ms).1.any Ex.failed = false) : ∀ x, x ∈ (Ex.talk ms).1 → ¬ x.Failed := by
  intro x hx hf
  have := List.any_eq_true.mpr ⟨x, hx, Ex.failed_true hf⟩
  rw [h] at this; cases this

/-- the lists of ids that were received -/
def Ex.lists : List Entry → List (List BlockID)
  | [] => []
  | .heard (.ids _ l) :: T => l :: Ex.lists T
  | _ :: T => Ex.lists T

theorem Ex.no_repeats (a : Chains.Addr) : ∀ (T : List Entry), (∀ l, l ∈ Ex.lists T → l.Nodup) → NoRepeats a T
  | [], _ => fun _ h => (List.not_mem_nil h).elim
  | x :: T, h => by
    intro l hm
    rcases List.mem_cons.mp hm with rfl | hm
    · exact h l (by simp [Ex.lists])
    · refine Ex.no_repeats a T (fun l hl => h l ?_) l hm
      cases x with
      | said _ => exact hl
      | heard i =>
        cases i with
        | ids _ _ => exact List.mem_cons_of_mem _ hl
        | _ => exact hl

open Chains.Ex in
/-- The peer lists block 1 twice, and sends it twice. -/
def Ex.listedTwice : List Ex.RdMove :=
  .receive (Loading.Ex.ctx 100) .timer :: Ex.rdGoes 5 ++
  .receive (Loading.Ex.ctx 101) (.ids Loading.Ex.peer [bid 0, bid 1, bid 1]) :: Ex.rdGoes 4 ++
  .receive (Loading.Ex.ctx 102) (.block Loading.Ex.peer (some (blk 1 0))) :: Ex.rdGoes 1 ++
  .receive (Loading.Ex.ctx 103) (.block Loading.Ex.peer (some (blk 1 0))) :: Ex.rdGoes 1

open Chains.Ex in
/-- The peer lists block 1, and the store cannot be read then. -/
def Ex.unreadList : List Ex.RdMove :=
  .receive (Loading.Ex.ctx 100) .timer :: Ex.rdGoes 5 ++
  .receive (Loading.Ex.ctx 101) (.ids Loading.Ex.peer [bid 0, bid 1]) :: .go Ex.noBlocks :: Ex.rdGoes 1

open Chains.Ex in
/-- The peer lists block 2 and sends it, without its parent: it cannot be stored. -/
def Ex.orphan : List Ex.RdMove :=
  .receive (Loading.Ex.ctx 100) .timer :: Ex.rdGoes 5 ++
  .receive (Loading.Ex.ctx 101) (.ids Loading.Ex.peer [bid 0, bid 2]) :: Ex.rdGoes 4 ++
  .receive (Loading.Ex.ctx 102) (.block Loading.Ex.peer (some (blk 2 1))) :: Ex.rdGoes 2

end Verif.Loading.Fine
