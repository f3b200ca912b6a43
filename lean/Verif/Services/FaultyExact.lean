import Verif.Services.FaultyEvents
/-
Events that need what cannot be read: lemmas for property C105.
-/

set_option autoImplicit false

namespace Verif.Services.Fine

open Verif
open Verif.Chains (Addr BytesN BlockID ProtoBlock MicroInv Linkage)
open Verif.Chains.Rd (Faults readFailed)
open Verif.Peers (Conn Registry Lib AddrPort Config)
open Verif.Loading (Ctx)
open Verif.Loading.Fine (World Shared Disk Other)
open Verif.KV (Fate)

variable {lib : Lib} {D : Disk} {c : Ctx} {x : Shared} {p : Sender} {a : Addr}

theorem unreadable {F : Faults} {db : Peers.DB} {b : BytesN 4} (h : F.bad b.1 = true) : Peers.Rd.peer F db (.v4 b) = fail readFailed := by
  simp [Peers.Rd.peer, Peers.keyBytes, Chains.Rd.get, h, fail, bind, Except.bind]

theorem score_unread (hr : Peers.Rd.peer D.peers x.reg.db a = fail readFailed) (hp : p.remote = some a) (sc : Bytes) :
    handleScore D c x p sc = .ok { sh := x, call := some (.registry ⟨c.now, .updateScore (c.fates 0) a (setBytes sc)⟩) } := by
  unfold handleScore
  rw [hp]
  simp only [Peers.Rd.UpdatePeerScore, hr]
  rfl

theorem broken_unread (hr : Peers.Rd.peer D.peers x.reg.db a = fail readFailed) (hp : p.remote = some a) :
    handleInternalError D c x p = .ok { sh := x, call := some (.registry ⟨c.now, .unregister (c.fates 0) a⟩), out := [.close p.conn] } := by
  unfold handleInternalError
  rw [hp]
  simp only [Peers.Rd.UnregisterPeer, hr]
  rfl

theorem connected_unread {b : BytesN 4} (hr : Peers.Rd.peer D.peers x.reg.db (.v4 b) = fail readFailed) (hp : p.remote = some (.v4 b))
    (hd : .v4 b ≠ x.reg.declared) : handleConnected D lib c x p =
      .ok { sh := { x with reg := { x.reg with pending := Peers.delPending x.reg.pending (.v4 b) } },
            call := some (.registry ⟨c.now, .register (c.fates 0) (.v4 b) p.conn p.conn.handshake⟩), out := [.close p.conn] } := by
  unfold handleConnected
  rw [hp]
  have e : Peers.Rd.RegisterPeer D.peers lib (c.fates 0) c.now x.reg (.v4 b) p.conn p.conn.handshake =
      ({ x.reg with pending := Peers.delPending x.reg.pending (.v4 b) }, true, fail readFailed) := by
    unfold Peers.Rd.RegisterPeer
    simp only [Peers.is4]
    rw [if_pos trivial, if_neg hd, hr]
    rfl
  simp only [e]
  rfl

theorem has_unread {F : Faults} {db : Chains.DB} {id : BlockID} (h : F.bad (Chains.idKey Chains.blockPrefix id) = true) :
    Chains.Rd.hasBlock F db id = fail readFailed := by
  simp [Chains.Rd.hasBlock, Chains.Rd.getNumOfBlockID, Chains.Rd.get, h, fail, readFailed, bind, Except.bind]

theorem block_unread {b : ProtoBlock} (h : D.chains.bad (Chains.idKey Chains.blockPrefix b.id) = true) (hp : p.remote = some a) :
    handleBlock D c x p (some b) = .ok { sh := x, call := some (.putBlock b a (c.fates 0) (c.fates 1)) } := by
  unfold handleBlock
  rw [hp]
  simp only [Chains.Rd.PutBlock, has_unread h]
  rfl

theorem micro_unread {i : MicroInv} (h : D.chains.bad (Chains.idKey Chains.blockPrefix i.totalBlockID) = true) (hp : p.remote = some a) :
    handleMicroBlockInv D c x p (some i) = .ok { sh := x, call := some (.putMicro i a (c.fates 0) (c.fates 1)) } := by
  unfold handleMicroBlockInv
  rw [hp]
  simp only [Chains.Rd.PutMicroBlock, has_unread h]
  rfl

/-! ### before the signal -/

/-- what is true before the signal -/
structure Before (s : Sys) : Prop where
  cancelled : s.cancelled = false
  dist : s.dist ≠ .exited
  loader : s.loaderUp = true
  respawn : s.respawnUp = true
  api : s.apiUp = true
  lsn : s.lsn ≠ .exited
  main : s.main = .waiting

theorem respawn_only (s : Sys) (D : Disk) (now : Int) (failed : Bool) : ∃ w d b, s.respawn D now failed = { s with world := w, dialled := d, armed := b } := by
  unfold Sys.respawn
  split
  · exact ⟨_, _, _, rfl⟩
  · simp only
    split
    · exact ⟨_, _, _, rfl⟩
    · exact ⟨_, _, _, rfl⟩

theorem Before.step {s s' : Sys} {e : Ev} (B : Before s) (h : s.step lib e = some (.ok s')) (he : e ≠ .signal) : Before s' := by
  obtain ⟨_, C⟩ := step_case h
  have no : s.cancelled = true → False := fun hc => by rw [B.cancelled] at hc; cases hc
  have same : Before s := B
  cases C with
  | handled hd hr hx =>
    exact ⟨B.cancelled, (by dsimp only; split <;> simp), B.loader, B.respawn, B.api, B.lsn, B.main⟩
  | take c p hd hw => exact ⟨B.cancelled, (by simp), B.loader, B.respawn, B.api, B.lsn, B.main⟩
  | distExit hc _ => exact (no hc).elim
  | loaderExit hc _ => exact (no hc).elim
  | respawnExit hc _ => exact (no hc).elim
  | listenerExit conn hl hc hm => exact (no hc).elim
  | apiExit hu hm => exact absurd B.main hm
  | signal => exact absurd rfl he
  | main q hq =>
    unfold Prog.mainStep at hq
    rw [show s.shell.main = .waiting from B.main] at hq
    simp only [show s.shell.cancelled = false from B.cancelled] at hq
    cases hq
  | listen ok hl => exact ⟨B.cancelled, B.dist, B.loader, B.respawn, B.api, (by dsimp only; split <;> simp), B.main⟩
  | respawn D now failed hu ha =>
    obtain ⟨w, d, b, e⟩ := respawn_only s D now failed
    rw [e]
    exact ⟨B.cancelled, B.dist, B.loader, B.respawn, B.api, B.lsn, B.main⟩
  | _ => exact ⟨B.cancelled, B.dist, B.loader, B.respawn, B.api, B.lsn, B.main⟩

theorem not_before {s s' : Sys} {e : Ev} (h : s.step lib e = some (.ok s')) (hc : s.cancelled = true) : s'.cancelled = true := by
  obtain ⟨_, C⟩ := step_case h
  cases C with
  | respawn D now failed hu ha =>
    obtain ⟨w, d, b, e⟩ := respawn_only s D now failed
    rw [e]; exact hc
  | _ => first | exact hc | rfl

theorem before_path {s s' : Sys} {es : List Ev} {tr : List Loading.Fine.Answer} (h : Path lib s es tr s') (B : Before s) :
    (Ev.signal ∈ es ∧ s'.cancelled = true) ∨ (Ev.signal ∉ es ∧ Before s') := by
  induction h with
  | nil => exact Or.inr ⟨by simp, B⟩
  | snoc h e he ih =>
    rcases ih with ⟨h1, h2⟩ | ⟨h1, h2⟩
    · exact Or.inl ⟨by simp [h1], not_before he h2⟩
    · by_cases hs : e = .signal
      · subst hs
        obtain ⟨_, C⟩ := step_case he
        exact Or.inl ⟨by simp, by cases C with | signal => rfl | handled _ hr _ => cases hr⟩
      · refine Or.inr ⟨?_, h2.step he hs⟩
        simp only [List.mem_append, List.mem_singleton, not_or]
        exact ⟨h1, fun e => hs e.symm⟩

end Verif.Services.Fine
