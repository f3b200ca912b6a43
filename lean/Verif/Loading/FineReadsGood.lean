import Verif.Loading.FineReadsInv
/-
On a disk that reads well the calls of `Loading/FineReads.lean` are those of `Loading/Fine.lean`.
-/

set_option autoImplicit false

namespace Verif.Peers.Rd

open Verif
open Verif.Chains (Addr Env)
open Verif.Chains.Rd (Faults)
open Verif.KV (Fate)

theorem peer_good (db : DB) (a : Addr) : peer .none db a = Peers.peer db a := by
  rcases peer_safe .none db a with h | ⟨⟨k, _, h⟩, _⟩
  · exact h
  · cases h

theorem peers_good (db : DB) : peers .none db = Peers.peers db := by
  unfold peers
  congr 1
  exact List.filter_eq_self.mpr (fun _ _ => rfl)

theorem hasPeer_good (db : DB) (a : Addr) : hasPeer .none db a = Peers.hasPeer db a := by
  unfold hasPeer Peers.hasPeer
  cases keyBytes a <;> rfl

theorem connectionsLoop_good (db : DB) : ∀ l : List (Addr × Conn), connectionsLoop .none db l = Peers.connectionsLoop db l
  | [] => rfl
  | (a, c) :: l => by rw [connectionsLoop, Peers.connectionsLoop, peer_good, connectionsLoop_good db l]

theorem appendLoop_good (fs : Nat → Fate) : ∀ (l : List (Option AddrPort)) (r : Registry) (n : Nat),
    appendLoop fs r (l.map (fun x => (Faults.none, x))) n = Peers.appendLoop fs r l n
  | [], _, _ => rfl
  | none :: l, r, n => appendLoop_good fs l r n
  | some ap :: l, r, n => by
    rw [List.map_cons, appendLoop, Peers.appendLoop, hasPeer_good]
    split
    · rcases Peers.hasPeer r.db ap.addr with (e | _) | (_ | _)
      · rfl
      · rfl
      · rcases putPeer (fs n) r.db (newPeer ap) with ⟨db', (e | _) | u⟩
        · rfl
        · rfl
        · exact appendLoop_good fs l _ _
      · exact appendLoop_good fs l r n
    · exact appendLoop_good fs l r n

theorem step_good (lib : Lib) (r : Registry) (e : Event) : step .none lib r e = Peers.step lib r e := by
  obtain ⟨now, op⟩ := e
  cases op with
  | register f a np h =>
    show (RegisterPeer _ _ _ _ _ _ _ _).1 = (Peers.RegisterPeer _ _ _ _ _ _ _).1
    unfold RegisterPeer Peers.RegisterPeer
    simp only [peer_good]
    split
    · split
      · rfl
      · rcases Peers.peer r.db a with ((_ | _) | _) | p <;> rfl
    · rfl
  | unregister f a =>
    show (UnregisterPeer _ _ _ _ _).1 = (Peers.UnregisterPeer _ _ _ _).1
    unfold UnregisterPeer Peers.UnregisterPeer
    rw [peer_good]
    rcases Peers.peer r.db a with e | p <;> rfl
  | markHostile f arg =>
    show (MarkAsHostile _ _ _ _).1 = (Peers.MarkAsHostile _ _ _).1
    unfold MarkAsHostile Peers.MarkAsHostile
    cases arg with
    | none => rfl
    | some a =>
      simp only [peer_good]
      rcases Peers.peer r.db a with ((_ | _) | _) | p <;> rfl
  | updateScore f a s =>
    show (UpdatePeerScore _ _ _ _ _).1 = (Peers.UpdatePeerScore _ _ _ _).1
    unfold UpdatePeerScore Peers.UpdatePeerScore
    rw [peer_good]
    rcases Peers.peer r.db a with e | p <;> rfl
  | append fs l =>
    show (AppendAddresses _ _ _ _).1 = (Peers.AppendAddresses _ _ _).1
    exact congrArg Prod.fst (appendLoop_good fs l r 0)
  | take =>
    show (TakeAvailableAddresses _ _ _).1 = (Peers.TakeAvailableAddresses _ _).1
    unfold TakeAvailableAddresses Peers.TakeAvailableAddresses
    rw [peers_good]
    rcases Peers.peers r.db with e | p <;> rfl
  | suggest f a =>
    show (SuggestVersion _ _ _ _ _).1 = (Peers.SuggestVersion _ _ _ _).1
    unfold SuggestVersion Peers.SuggestVersion
    rw [peer_good]
    cases Peers.peer r.db a with
    | error e =>
      cases e with
      | panic => rfl
      | err e => cases e <;> first | rfl | (simp only; generalize bestVersion r.versions = y; cases y <;> rfl)
    | ok p =>
      cases hs : p.state <;> simp only [hs]
      generalize nextVersion r.versions p.version = y
      cases y <;> rfl
  | reopen c => rfl

end Verif.Peers.Rd

namespace Verif.Loading.Fine

open Verif
open Verif.Chains.Rd (Faults)
open Verif.Peers (Lib Registry)
open Verif.Chains (Linkage)

variable {lib : Lib}

theorem unseen_none (db : Chains.DB) : Chains.Rd.unseen .none db = db := by
  unfold Chains.Rd.unseen
  refine List.filter_eq_self.mpr (fun p _ => ?_)
  simp [Chains.Rd.keep, Faults.none]

theorem leashScore_good (l : Linkage) (a : Chains.Addr) : Chains.Rd.LeashScore .none l a = Chains.LeashScore l a := by
  unfold Chains.Rd.LeashScore Chains.LeashScore
  rw [(Chains.Rd.safe_getLeash .none l.db a).exact]
  rcases Chains.getLeash l.db a with ((_ | _) | _) | id <;> simp only [(Chains.Rd.safe_getBlockByID .none l.db _).exact]

theorem Call.res_good (c : Call) (s : Shared) : c.resRd Disk.good lib s = c.res lib s := by
  cases c with
  | hasBlock id => exact (Chains.Rd.safe_hasBlock .none s.link.db id).exact
  | leashOf a => exact (Chains.Rd.safe_LeashOf .none s.link a).exact
  | leashScore a => exact leashScore_good s.link a
  | lastIDs id m => exact (Chains.Rd.safe_LastIDs .none s.link.db id m).exact
  | lcb env a =>
    have h := (Chains.Rd.safe_LCB .none env s.link a rfl).exact
    rw [unseen_none] at h
    exact h
  | moveLeash f id a => rfl
  | putBlock f1 f2 b a =>
    rcases Chains.Rd.safe_step .none s.link (.putBlock b a f1 f2) with h | ⟨⟨k, hk⟩, _⟩
    · exact congrArg (fun p : Linkage × Go Unit => p.2) h
    · cases hk
  | connections env =>
    show Peers.Rd.Connections .none lib env s.reg = Peers.Connections lib env s.reg
    unfold Peers.Rd.Connections Peers.Connections
    rw [Peers.Rd.connectionsLoop_good]
  | peerOf a => exact Peers.Rd.peer_good _ _

theorem step_good (l : Linkage) (o : Chains.Spec.Op) : Chains.Rd.step .none l o = Chains.Spec.step l o := by
  rcases Chains.Rd.safe_step .none l o with h | ⟨⟨k, hk⟩, _⟩
  · exact h
  · cases hk

theorem Call.effect_good (c : Call) (s : Shared) : c.effectRd Disk.good s = c.effect s := by
  unfold Call.effectRd Call.effect
  cases c.op with
  | none => rfl
  | some o => simp only [Disk.good, step_good]

theorem Other.effect_good (x : Other) (s : Shared) : x.effectRd Disk.good lib s = x.effect lib s := by
  cases x with
  | registry e => simp only [Other.effectRd, Other.effect, Disk.good, Peers.Rd.step_good]
  | putBlock b a f1 f2 => simp only [Other.effectRd, Disk.good, step_good]; rfl
  | putMicro inv a f1 f2 => simp only [Other.effectRd, Disk.good, step_good]; rfl

theorem Step.good {w w' : World} (t : Step lib w w') : ∃ tr, RdStep lib w tr w' := by
  cases t with
  | receive c i h => exact ⟨_, .receive w c i h⟩
  | finish o h => exact ⟨_, .finish w o h⟩
  | call c k h =>
    have := RdStep.call (lib := lib) w Disk.good c k h
    rw [Call.res_good, Call.effect_good] at this
    exact ⟨_, this⟩
  | other x =>
    have := RdStep.other (lib := lib) w Disk.good x
    rw [Other.effect_good] at this
    exact ⟨_, this⟩

theorem Run.good {w w' : World} (h : Run lib w w') : ∃ tr, RdRun lib w tr w' := by
  induction h with
  | nil => exact ⟨[], .nil⟩
  | snoc h t ih =>
    obtain ⟨tr, ih⟩ := ih
    obtain ⟨tr', t⟩ := t.good
    exact ⟨_, .snoc ih t⟩

end Verif.Loading.Fine
