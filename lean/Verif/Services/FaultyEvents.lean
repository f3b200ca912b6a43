import Verif.Services.FaultyInv
import Verif.Services.ConfigLemmas
import Verif.Loading.FineReadsGood
import Verif.Services.MessageLemmas
import Verif.Peers.Queries
/-
Single events of the program of `Services/Faulty.lean`, on a failing disk and on a good one.
-/

set_option autoImplicit false

namespace Verif.Peers.Rd

open Verif
open Verif.Chains (Addr)
open Verif.Chains.Rd (Faults readFailed)
open Verif.KV (Fate)

theorem register_good (lib : Lib) (f : Fate) (now : Int) (r : Registry) (a : Addr) (np : Conn) (h : Handshake) :
    RegisterPeer .none lib f now r a np h = Peers.RegisterPeer lib f now r a np h := by
  unfold RegisterPeer Peers.RegisterPeer
  simp only
  rw [peer_good]
  generalize Peers.peer r.db a = x
  by_cases h4 : is4 a = true
  · by_cases hd : a = r.declared
    · simp only [hd, if_true]
    · simp only [h4, hd, if_true, if_false]
      rcases x with (e | u) | p
      · cases e <;> rfl
      · rfl
      · rfl
  · simp only [h4, Bool.false_eq_true, if_false]

theorem updateScore_good (f : Fate) (r : Registry) (a : Addr) (s : Nat) :
    UpdatePeerScore .none f r a s = Peers.UpdatePeerScore f r a s := by
  unfold UpdatePeerScore Peers.UpdatePeerScore
  rw [peer_good]
  cases Peers.peer r.db a <;> rfl

theorem unregister_good (f : Fate) (now : Int) (r : Registry) (a : Addr) :
    UnregisterPeer .none f now r a = Peers.UnregisterPeer f now r a := by
  unfold UnregisterPeer Peers.UnregisterPeer
  rw [peer_good]
  cases Peers.peer r.db a <;> rfl

theorem suggest_good (f : Fate) (now : Int) (r : Registry) (a : Addr) :
    SuggestVersion .none f now r a = Peers.SuggestVersion f now r a := by
  unfold SuggestVersion Peers.SuggestVersion
  rw [peer_good]
  generalize Peers.peer r.db a = x
  cases x with
  | ok p => cases hs : p.state <;> (simp only [hs]; try (generalize nextVersion r.versions p.version = y; cases y <;> rfl))
  | error e => cases e with
    | panic => rfl
    | err e => cases e <;> first | rfl | (simp only; generalize bestVersion r.versions = y; cases y <;> rfl)

theorem append_good (fs : Nat → Fate) (r : Registry) (l : List (Option AddrPort)) :
    AppendAddresses .none fs r l = Peers.AppendAddresses fs r l := appendLoop_good fs l r 0

theorem take_good (now : Int) (r : Registry) : TakeAvailableAddresses .none now r = Peers.TakeAvailableAddresses now r := by
  unfold TakeAvailableAddresses Peers.TakeAvailableAddresses
  rw [peers_good]
  rcases Peers.peers r.db with e | p <;> rfl

theorem friendly_good (lib : Lib) (env : Chains.Env) (r : Registry) : FriendlyPeers .none lib env r = Peers.FriendlyPeers lib env r := by
  unfold FriendlyPeers Peers.FriendlyPeers
  rw [peers_good]

theorem append_take (F : Faults) (fs : Nat → Fate) (r : Registry) (l : List (Option AddrPort)) :
    ∃ k, k ≤ l.length ∧ AppendAddresses F fs r l = Peers.AppendAddresses fs r (l.take k) := by
  obtain ⟨k, hk, h⟩ := appendLoop_take fs (l.map (fun x => (F, x))) r 0
  exact ⟨k, by simpa using hk, by simpa [AppendAddresses, Peers.AppendAddresses, Function.comp_def] using h⟩

end Verif.Peers.Rd

namespace Verif.Services.Fine

open Verif
open Verif.Chains (Addr BytesN BlockID ProtoBlock MicroInv Linkage)
open Verif.Chains.Rd (readFailed)
open Verif.Peers (Conn Registry Lib AddrPort Config is4)
open Verif.Loading (Ctx)
open Verif.Loading.Fine (World Shared Disk Other Input Answer Call RdStep RdRun Own Proc)
open Verif.KV (Fate)

variable {lib : Lib}

/-! ### the handlers -/

theorem putBlock_safe (F : Chains.Rd.Faults) (f1 f2 : Fate) (db : Chains.DB) (b : ProtoBlock) (a : Addr) :
    Chains.Rd.PutBlock F f1 f2 db b a = Chains.PutBlock f1 f2 db b a ∨ Chains.Rd.PutBlock F f1 f2 db b a = (db, fail readFailed) := by
  rcases Chains.Rd.safe_PutBlock F f1 f2 db b a with h | ⟨_, h⟩
  · exact Or.inl h
  · exact Or.inr h

theorem putBlock_good (f1 f2 : Fate) (db : Chains.DB) (b : ProtoBlock) (a : Addr) :
    Chains.Rd.PutBlock .none f1 f2 db b a = Chains.PutBlock f1 f2 db b a := by
  rcases Chains.Rd.safe_PutBlock .none f1 f2 db b a with h | ⟨⟨k, hk⟩, _⟩
  · exact h
  · cases hk

theorem putMicro_good (f1 f2 : Fate) (db : Chains.DB) (b : MicroInv) (a : Addr) :
    Chains.Rd.PutMicroBlock .none f1 f2 db b a = Chains.PutMicroBlock f1 f2 db b a := by
  rcases Chains.Rd.safe_PutMicroBlock .none f1 f2 db b a with h | ⟨⟨k, hk⟩, _⟩
  · exact h
  · cases hk

theorem score_safe (D : Disk) (c : Ctx) (s : Shared) (p : Sender) (sc : Bytes) :
    handleScore D c s p sc = handleScore .good c s p sc ∨
    ∃ a, p.remote = some a ∧ handleScore D c s p sc = .ok { sh := s, call := some (.registry ⟨c.now, .updateScore (c.fates 0) a (setBytes sc)⟩) } := by
  unfold handleScore
  cases p.remote with
  | none => exact Or.inl rfl
  | some a =>
    simp only
    rw [show Disk.good.peers = .none from rfl, Peers.Rd.updateScore_good]
    rcases Peers.Rd.updateScore_safe D.peers (c.fates 0) s.reg a (setBytes sc) with h | h
    · left; rw [h]
    · right; rw [h]; exact ⟨a, rfl, rfl⟩

theorem block_safe (D : Disk) (c : Ctx) (s : Shared) (p : Sender) (b : Option ProtoBlock) :
    handleBlock D c s p b = handleBlock .good c s p b ∨
    ∃ a b', p.remote = some a ∧ b = some b' ∧ handleBlock D c s p b = .ok { sh := s, call := some (.putBlock b' a (c.fates 0) (c.fates 1)) } := by
  unfold handleBlock
  cases b with
  | none => exact Or.inl rfl
  | some b =>
    cases p.remote with
    | none => exact Or.inl rfl
    | some a =>
      simp only
      rw [show Disk.good.chains = .none from rfl, putBlock_good]
      rcases putBlock_safe D.chains (c.fates 0) (c.fates 1) s.link.db b a with h | h
      · left; rw [h]
      · right; rw [h]; exact ⟨a, b, rfl, rfl, rfl⟩

theorem micro_safe (D : Disk) (c : Ctx) (s : Shared) (p : Sender) (inv : Option MicroInv) :
    handleMicroBlockInv D c s p inv = handleMicroBlockInv .good c s p inv ∨
    ∃ a i, p.remote = some a ∧ inv = some i ∧
      handleMicroBlockInv D c s p inv = .ok { sh := s, call := some (.putMicro i a (c.fates 0) (c.fates 1)) } := by
  unfold handleMicroBlockInv
  cases p.remote with
  | none => exact Or.inl rfl
  | some a =>
    cases inv with
    | none => exact Or.inl rfl
    | some inv =>
      simp only
      rw [show Disk.good.chains = .none from rfl, putMicro_good]
      rcases Chains.Rd.safe_PutMicroBlock D.chains (c.fates 0) (c.fates 1) s.link.db inv a with h | ⟨_, h⟩
      · left; rw [h]
      · right; rw [h]; exact ⟨a, inv, rfl, rfl, rfl⟩

theorem peers_safe (D : Disk) (c : Ctx) (s : Shared) (ps : List (Option AddrPort)) :
    ∃ k, k ≤ (ps.filterMap id).length ∧
      ∀ x, handlePeers .good c s (((ps.filterMap id).take k).map some) = .ok x →
        handlePeers D c s ps = .ok { x with call := some (.registry ⟨c.now, .append c.fates ((ps.filterMap id).map some)⟩) } := by
  obtain ⟨k, hk, h⟩ := Peers.Rd.append_take D.peers c.fates s.reg ((ps.filterMap id).map some)
  refine ⟨k, by simpa using hk, fun x hx => ?_⟩
  have e : ((((ps.filterMap id).take k).map some).filterMap id).map some = (List.map some (ps.filterMap id)).take k := by
    rw [List.filterMap_map, Function.id_comp, List.filterMap_some, List.map_take]
  unfold handlePeers at hx ⊢
  rw [e] at hx
  simp only at hx ⊢
  rw [show Disk.good.peers = .none from rfl, Peers.Rd.append_good] at hx
  rw [h]
  obtain ⟨rfl, hn⟩ := noPanic_eq hx
  rw [noPanic_ok hn]

theorem getPeers_safe {s : Shared} (R : Peers.Reachable lib s.reg) (D : Disk) (c : Ctx) (p : Sender) :
    ∃ xs xs', handleGetPeers .good lib c s p = .ok { sh := s, out := [.peersTo p.conn xs] } ∧
      handleGetPeers D lib c s p = .ok { sh := s, out := [.peersTo p.conn xs'] } ∧
      ∀ b port, (b, port) ∈ xs' ↔ (b, port) ∈ xs ∧ D.peers.missed b.1 = false := by
  obtain ⟨ps, h1, _, h3, _⟩ := Peers.peers_good R.inv.good
  have hf := Peers.Rd.peers_filter D.peers h1
  have h4 : ∀ q, q ∈ ps → is4 q.addr = true := by
    intro q hq
    obtain ⟨b, v, _, rfl⟩ := (h3 q).mp hq
    rfl
  have hp : Peers.FriendlyPeers lib c.env s.reg = .ok (c.env.sort (Peers.byName lib) (ps.filter (fun p => decide (p.state = .connected)))) := by
    unfold Peers.FriendlyPeers; rw [h1]; rfl
  have hp' : Peers.Rd.FriendlyPeers D.peers lib c.env s.reg = .ok (c.env.sort (Peers.byName lib)
      ((ps.filter (fun p => !Peers.Rd.lost D.peers p.addr)).filter (fun p => decide (p.state = .connected)))) := by
    unfold Peers.Rd.FriendlyPeers; rw [hf]; rfl
  have m : ∀ q, q ∈ c.env.sort (Peers.byName lib) (ps.filter (fun p => decide (p.state = .connected))) ↔ q ∈ ps ∧ q.state = .connected := by
    intro q; rw [(c.env.sort_perm _ _).mem_iff]; simp
  have m' : ∀ q, q ∈ c.env.sort (Peers.byName lib) ((ps.filter (fun p => !Peers.Rd.lost D.peers p.addr)).filter (fun p => decide (p.state = .connected))) ↔
      (q ∈ ps ∧ Peers.Rd.lost D.peers q.addr = false) ∧ q.state = .connected := by
    intro q; rw [(c.env.sort_perm _ _).mem_iff, List.mem_filter, List.mem_filter, decide_eq_true_eq, Bool.not_eq_true']
  generalize c.env.sort (Peers.byName lib) (ps.filter (fun p => decide (p.state = .connected))) = l at hp m
  generalize c.env.sort (Peers.byName lib) ((ps.filter (fun p => !Peers.Rd.lost D.peers p.addr)).filter (fun p => decide (p.state = .connected))) = l' at hp' m'
  obtain ⟨xs, i1, i2⟩ := Peers.tcpAddrs_ok l (fun q hq => h4 q ((m q).mp hq).1)
  obtain ⟨xs', j1, j2⟩ := Peers.tcpAddrs_ok l' (fun q hq => h4 q ((m' q).mp hq).1.1)
  have mem : ∀ {l : List Peers.Peer} {xs : List (BytesN 4 × UInt16)}, (∀ q, q ∈ l → is4 q.addr = true) →
      xs.map some = l.map (fun p => (Peers.tcpAddr p).toOption) → ∀ b port, (b, port) ∈ xs ↔ ∃ q, q ∈ l ∧ q.addr = .v4 b ∧ q.port = port := by
    intro l xs h4 h b port
    have : (b, port) ∈ xs ↔ some (b, port) ∈ xs.map some := by simp
    rw [this, h, List.mem_map]
    constructor
    · rintro ⟨q, hq, he⟩
      obtain ⟨b', hb⟩ := Peers.is4_iff.mp (h4 q hq)
      refine ⟨q, hq, ?_⟩
      simp only [Peers.tcpAddr, hb, Except.toOption] at he
      cases he
      exact ⟨hb, rfl⟩
    · rintro ⟨q, hq, hb, rfl⟩
      exact ⟨q, hq, by simp only [Peers.tcpAddr, hb]; rfl⟩
  refine ⟨xs, xs', ?_, ?_, fun b port => ?_⟩
  · unfold handleGetPeers
    rw [show Disk.good.peers = .none from rfl, Peers.Rd.friendly_good, hp]
    simp only [i1]; rfl
  · unfold handleGetPeers
    rw [hp']
    simp only [j1]; rfl
  · rw [mem (fun q hq => h4 q ((m q).mp hq).1) i2, mem (fun q hq => h4 q ((m' q).mp hq).1.1) j2]
    constructor
    · rintro ⟨q, hq, hb, hport⟩
      obtain ⟨⟨q1, q2⟩, q3⟩ := (m' q).mp hq
      exact ⟨⟨q, (m q).mpr ⟨q1, q3⟩, hb, hport⟩, by rw [hb] at q2; exact q2⟩
    · rintro ⟨⟨q, hq, hb, hport⟩, hmiss⟩
      obtain ⟨q1, q3⟩ := (m q).mp hq
      exact ⟨q, (m' q).mpr ⟨⟨q1, by rw [hb]; exact hmiss⟩, q3⟩, hb, hport⟩

theorem connected_safe (D : Disk) (c : Ctx) (s : Shared) (p : Sender) :
    handleConnected D lib c s p = handleConnected .good lib c s p ∨
    ∃ a, p.remote = some a ∧ handleConnected D lib c s p = .ok
      { sh := { s with reg := { s.reg with pending := Peers.delPending s.reg.pending a } },
        call := some (.registry ⟨c.now, .register (c.fates 0) a p.conn p.conn.handshake⟩), out := [.close p.conn] } := by
  unfold handleConnected
  cases p.remote with
  | none => exact Or.inl rfl
  | some a =>
    simp only
    rw [show Disk.good.peers = .none from rfl, Peers.Rd.register_good]
    rcases Peers.Rd.register_safe D.peers lib (c.fates 0) c.now s.reg a p.conn p.conn.handshake with h | h
    · left; rw [h]
    · right; rw [h]; exact ⟨a, rfl, rfl⟩

theorem broken_safe (D : Disk) (c : Ctx) (s : Shared) (p : Sender) :
    handleInternalError D c s p = handleInternalError .good c s p ∨
    ∃ a, p.remote = some a ∧ handleInternalError D c s p = .ok
      { sh := s, call := some (.registry ⟨c.now, .unregister (c.fates 0) a⟩), out := [.close p.conn] } := by
  unfold handleInternalError
  cases p.remote with
  | none => exact Or.inl rfl
  | some a =>
    simp only
    rw [show Disk.good.peers = .none from rfl, Peers.Rd.unregister_good]
    rcases Peers.Rd.unregister_safe D.peers (c.fates 0) c.now s.reg a with h | h
    · left; rw [h]
    · right; rw [h]; exact ⟨a, rfl, rfl⟩

/-! ### panics -/

theorem survives {g : ProtoBlock} {s : Shared} (S : Chains.Spec.Reachable g s.link) (R : Peers.Reachable lib s.reg) (D : Disk) (c : Ctx) (p : Sender)
    (hz : p.remote ≠ some .zero) :
    (∀ m, (∀ b, m = .block (some b) ∨ m = .pbBlock (some b) → b.baseTarget.toNat < 2 ^ 63) → ∃ x, receive D lib c s p m = .ok x) ∧
    (p.conn.handshake.appName ≠ [] → ∃ x, handleConnected D lib c s p = .ok x) ∧ ∃ x, handleInternalError D c s p = .ok x := by
  have block : ∀ (b : Option ProtoBlock), (∀ b', b = some b' → b'.baseTarget.toNat < 2 ^ 63) → ∃ x, handleBlock D c s p b = .ok x := by
    intro b hb
    unfold handleBlock
    cases b with
    | none => exact ⟨_, rfl⟩
    | some b =>
      cases p.remote with
      | none => exact ⟨_, rfl⟩
      | some a =>
        have hn : (Chains.Rd.PutBlock D.chains (c.fates 0) (c.fates 1) s.link.db b a).2 ≠ goPanic := by
          rcases putBlock_safe D.chains (c.fates 0) (c.fates 1) s.link.db b a with h | h
          · rw [h]; exact putBlock_not_panic S (hb b rfl) (c.fates 0) (c.fates 1) a
          · rw [h]; simp [fail, goPanic]
        simp only
        split
        · rename_i h; exact absurd h hn
        all_goals exact ⟨_, rfl⟩
  refine ⟨fun m hb => ?_, fun hn => ?_, ?_⟩
  · rw [receive_eq]
    cases m with
    | getPeers => obtain ⟨_, xs', _, h, _⟩ := getPeers_safe R D c p; exact ⟨_, h⟩
    | peers ps =>
      refine ⟨_, noPanic_ok ?_⟩
      obtain ⟨k, _, h⟩ := Peers.Rd.append_take D.peers c.fates s.reg ((ps.filterMap id).map some)
      rw [h]
      exact append_not_panic R.inv.good _
    | signatures sigs =>
      simp only [handleMessage, handleSignatures]
      split <;> exact ⟨_, rfl⟩
    | blockIds ids =>
      simp only [handleMessage, handleBlockIDs]
      split
      · exact ⟨_, rfl⟩
      · split <;> exact ⟨_, rfl⟩
    | block b => exact block b (fun b' e => hb b' (Or.inl (by rw [e])))
    | pbBlock b => exact block b (fun b' e => hb b' (Or.inr (by rw [e])))
    | score sc =>
      simp only [handleMessage, handleScore]
      split
      · exact ⟨_, rfl⟩
      · rename_i a ha
        refine ⟨_, noPanic_ok ?_⟩
        rcases Peers.Rd.updateScore_safe D.peers (c.fates 0) s.reg a (setBytes sc) with h | h
        · rw [h]; exact updateScore_not_panic (fun e => hz (by rw [ha, e]))
        · rw [h]; simp [fail, goPanic]
    | microBlockInv inv =>
      simp only [handleMessage, handleMicroBlockInv]
      split
      · exact ⟨_, rfl⟩
      · exact ⟨_, rfl⟩
      · rename_i a inv _
        refine ⟨_, noPanic_ok ?_⟩
        rcases Chains.Rd.safe_PutMicroBlock D.chains (c.fates 0) (c.fates 1) s.link.db inv a with h | ⟨_, h⟩
        · rw [h]; exact putMicro_not_panic S _ _ _ _
        · rw [h]; simp [fail, goPanic]
    | _ => exact ⟨_, rfl⟩
  · unfold handleConnected
    split
    · exact ⟨_, rfl⟩
    · rename_i a ha
      refine ⟨_, noPanic_ok ?_⟩
      rcases Peers.Rd.register_safe D.peers lib (c.fates 0) c.now s.reg a p.conn p.conn.handshake with h | h
      · rw [h]; exact register_not_panic (fun e => hz (by rw [ha, e])) hn
      · rw [h]; simp [fail, goPanic]
  · unfold handleInternalError
    split
    · exact ⟨_, rfl⟩
    · rename_i a ha
      refine ⟨_, noPanic_ok ?_⟩
      rcases Peers.Rd.unregister_safe D.peers (c.fates 0) c.now s.reg a with h | h
      · rw [h]; exact unregister_not_panic (fun e => hz (by rw [ha, e]))
      · rw [h]; simp [fail, goPanic]

end Verif.Services.Fine
