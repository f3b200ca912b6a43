import Verif.Services.ProgramInv
import Verif.Props.Blocks
import Verif.Peers.Append
/-
What the handlers of the distributor do, for the property theorems.
-/

set_option autoImplicit false

namespace Verif.Services

open Verif
open Verif.Chains (Addr BytesN BlockID ProtoBlock MicroInv Linkage)
open Verif.Peers (Conn Registry Lib AddrPort Config Covered view)
open Verif.Loading (Ctx Loader)
open Verif.KV (Fate)

variable {lib : Lib}

theorem step_handling {s : Prog} {e : Ev} {r : Go Handled} (hm : s.main ≠ .exited) (hd : s.dist = .ready) (h : Handling lib s e r) :
    s.step lib e = some (s.handled r) := by
  cases h with
  | message c p m => simp [Prog.step, guarded, hm, hd]
  | connected c p hj =>
    have : decide (∀ a, a ∈ p.remote → a ∈ s.joined) = true := decide_eq_true hj
    simp only [Prog.step, guarded, hm, hd, this, decide_true, Bool.and_self, if_false, if_true]
  | broken c p => simp [Prog.step, guarded, hm, hd]
  | ping c => simp [Prog.step, guarded, hm, hd]

theorem handled_ok (s : Prog) (x : Handled) : s.handled (.ok x) = .ok { s with
    l := x.l, out := s.out ++ x.out, sent := s.sent ++ x.pkg.toList
    dist := match x.pkg with
      | none => .ready
      | some p => .sending p } := rfl

/-! ### no panic -/

theorem error_not_panic {α β : Type} {e : Fault} (h : (Except.error e : Go α) ≠ goPanic) : (Except.error e : Go β) ≠ goPanic := by
  intro h'
  cases h'
  exact h rfl

theorem write_not_panic {V : Type} (f : Fate) (db : KV.DB V) (b : KV.Batch V) : (KV.write f db b).2 ≠ goPanic := by
  cases f <;> simp [KV.write, goPanic, fail]

theorem putPeer_not_panic (f : Fate) (db : Peers.DB) (p : Peers.Peer) : (Peers.putPeer f db p).2 ≠ goPanic := by
  unfold Peers.putPeer
  split
  · rename_i h4
    split
    · split
      · exact write_not_panic _ _ _
      · rename_i e he
        obtain ⟨b, hb⟩ := Peers.is4_iff.mp h4
        rw [hb] at he
        cases he
    · simp [fail, goPanic]
  · simp [fail, goPanic]

theorem peer_not_panic {db : Peers.DB} {a : Addr} (h : a ≠ .zero) : Peers.peer db a ≠ goPanic := by
  unfold Peers.peer
  have : ∃ k, Peers.keyBytes a = .ok k := by cases a <;> first | exact absurd rfl h | exact ⟨_, rfl⟩
  obtain ⟨k, hk⟩ := this
  rw [hk]
  simp only [go_bind_ok]
  cases KV.get db k with
  | none => simp [fail, goPanic]
  | some r => cases r <;> simp [fail, goPanic]

theorem updateScore_not_panic {f : Fate} {r : Registry} {a : Addr} {n : Nat} (h : a ≠ .zero) :
    (Peers.UpdatePeerScore f r a n).2 ≠ goPanic := by
  unfold Peers.UpdatePeerScore
  have := peer_not_panic (db := r.db) h
  cases hp : Peers.peer r.db a with
  | error e => rw [hp] at this; exact error_not_panic this
  | ok p => exact putPeer_not_panic _ _ _

theorem unregister_not_panic {f : Fate} {now : Int} {r : Registry} {a : Addr} (h : a ≠ .zero) :
    (Peers.UnregisterPeer f now r a).2 ≠ goPanic := by
  unfold Peers.UnregisterPeer
  have := peer_not_panic (db := r.db) h
  cases hp : Peers.peer r.db a with
  | error e => rw [hp] at this; exact error_not_panic this
  | ok p => exact putPeer_not_panic _ _ _

theorem register_not_panic {f : Fate} {now : Int} {r : Registry} {a : Addr} {np : Conn} {h : Peers.Handshake} (ha : a ≠ .zero)
    (hn : np.handshake.appName ≠ []) : (Peers.RegisterPeer lib f now r a np h).2.2 ≠ goPanic := by
  have found : ∀ (r : Registry) p, (Peers.registerFound lib f now r a np h p).2.2 ≠ goPanic := by
    intro r p
    unfold Peers.registerFound
    simp only
    split
    · exact putPeer_not_panic _ _ _
    · split
      · rename_i hg; exact absurd (List.getLast?_eq_none_iff.mp hg) hn
      · split
        · exact putPeer_not_panic _ _ _
        · split
          · rename_i e he
            unfold Peers.checkPort at he
            cases hd : h.declared with
            | empty => rw [hd] at he; cases he
            | unparsable => rw [hd] at he; cases he; simp [goPanic]
            | addrPort ap =>
              rw [hd] at he
              simp only at he
              split at he
              · cases he; simp [goPanic]
              · split at he
                · cases he
                · cases he; simp [goPanic]
          · exact putPeer_not_panic _ _ _
  unfold Peers.RegisterPeer
  simp only
  split
  · split
    · simp [fail, goPanic]
    · split
      · exact found _ _
      · exact found _ _
      · rename_i e _ he
        have := peer_not_panic (db := r.db) ha
        rw [he] at this
        exact error_not_panic this
  · simp [fail, goPanic]

theorem append_not_panic {fs : Nat → Fate} {r : Registry} (G : Peers.Good r.db) (l : List (Option AddrPort)) :
    (Peers.AppendAddresses fs r l).2 ≠ goPanic := by
  obtain ⟨db', added, k, h, _⟩ := Peers.append_spec fs l r 0 G
  unfold Peers.AppendAddresses
  rw [h]
  simp [goPanic]

theorem updateLeash_not_panic (f : Fate) (db : Chains.DB) (a : Addr) (id : BlockID) : (Chains.updateLeash f db a id).2 ≠ goPanic := by
  unfold Chains.updateLeash
  exact write_not_panic _ _ _

theorem insertThenLeash_not_panic (f1 f2 : Fate) (db : Chains.DB) (batch : Chains.Batch) (a : Addr) (id : BlockID) :
    (Chains.insertThenLeash f1 f2 db batch a id).2 ≠ goPanic := by
  unfold Chains.insertThenLeash
  have := write_not_panic f1 db batch
  split
  · rename_i e he; rw [he] at this; exact this
  · exact updateLeash_not_panic _ _ _ _

theorem putBlock_not_panic {g : ProtoBlock} {lk : Linkage} (h : Chains.Spec.Reachable g lk) {b : ProtoBlock} (hb : b.baseTarget.toNat < 2 ^ 63)
    (f1 f2 : Fate) (a : Addr) : (Chains.PutBlock f1 f2 lk.db b a).2 ≠ goPanic := by
  obtain ⟨ns, hs, R, hlen⟩ := Chains.reachable_rep h
  cases hn : Chains.numOf ns b.id with
  | some n => rw [R.PutBlock_known hn]; exact updateLeash_not_panic _ _ _ _
  | none =>
    cases hp : Chains.numOf ns b.parent with
    | none => rw [R.PutBlock_orphan hn hp]; simp [fail, goPanic]
    | some p =>
      obtain ⟨y, hy, _⟩ := Chains.numOf_some hp
      rw [R.PutBlock_new hlen hn hp hy]
      cases b.generator with
      | none => simp [fail, goPanic]
      | some ga =>
        cases hsc : Chains.calculateScore b.baseTarget with
        | error e =>
          simp only
          unfold Chains.calculateScore at hsc
          split at hsc
          · cases hsc
          · split at hsc
            · omega
            · cases hsc
        | ok sc => exact insertThenLeash_not_panic _ _ _ _ _ _

theorem putMicro_not_panic {g : ProtoBlock} {lk : Linkage} (h : Chains.Spec.Reachable g lk) (b : MicroInv)
    (f1 f2 : Fate) (a : Addr) : (Chains.PutMicroBlock f1 f2 lk.db b a).2 ≠ goPanic := by
  obtain ⟨ns, hs, R, hlen⟩ := Chains.reachable_rep h
  cases hn : Chains.numOf ns b.totalBlockID with
  | some n => rw [R.PutMicro_known hn]; exact updateLeash_not_panic _ _ _ _
  | none =>
    cases hp : Chains.numOf ns b.reference with
    | none => rw [R.PutMicro_orphan hn hp]; simp [fail, goPanic]
    | some p =>
      obtain ⟨y, hy, _⟩ := Chains.numOf_some hp
      rw [R.PutMicro_new hn hp hy]
      split
      · simp [fail, goPanic]
      · exact insertThenLeash_not_panic _ _ _ _ _ _

theorem noPanic_ok {α : Type} {r : Go α} {h : Handled} (hr : r ≠ goPanic) : noPanic r h = .ok h := by
  unfold noPanic
  rcases r with (e | u) | u
  · rfl
  · exact absurd rfl hr
  · rfl

/-! ### lists of peers -/

theorem tcpAddrs_addr : ∀ (l : List Peers.Peer) (xs : List (BytesN 4 × UInt16)), (∀ q, q ∈ l → Peers.is4 q.addr = true) →
    Peers.tcpAddrs l = .ok xs → xs.map (fun x => Addr.v4 x.1) = l.map (·.addr)
  | [], xs, _, h => by cases h; rfl
  | q :: l, xs, h4, h => by
    obtain ⟨b, hb⟩ := Peers.is4_iff.mp (h4 q (by simp))
    rw [Peers.tcpAddrs] at h
    have hq : Peers.tcpAddr q = .ok (b, q.port) := by simp [Peers.tcpAddr, hb, Peers.as4]
    rw [hq] at h
    cases hr : Peers.tcpAddrs l with
    | error e => simp only [hr, go_bind_ok] at h; cases h
    | ok ys =>
      simp only [hr, go_bind_ok] at h
      cases h
      rw [List.map_cons, List.map_cons, hb, tcpAddrs_addr l ys (fun q hq => h4 q (List.mem_cons_of_mem _ hq)) hr]

theorem unique_conn {l : List (Addr × Conn)} (h : (l.map (·.1)).Nodup) {a : Addr} {c c' : Conn} (h1 : (a, c) ∈ l) (h2 : (a, c') ∈ l) :
    c = c' := by
  induction l with
  | nil => cases h1
  | cons x l ih =>
    rw [List.map_cons, List.nodup_cons] at h
    rcases List.mem_cons.mp h1 with rfl | h3
    · rcases List.mem_cons.mp h2 with e | h2
      · exact (Prod.mk.inj e).2.symm
      · exact absurd (List.mem_map.mpr ⟨_, h2, rfl⟩) h.1
    · rcases List.mem_cons.mp h2 with rfl | h2
      · exact absurd (List.mem_map.mpr ⟨_, h3, rfl⟩) h.1
      · exact ih h.2 h3 h2

/-! ### scores -/

theorem foldl_bytes (b : Bytes) (n : Nat) :
    b.foldl (fun n (x : UInt8) => n * 256 + x.toNat) n = n * 256 ^ b.length + setBytes b := by
  unfold setBytes
  induction b generalizing n with
  | nil => simp
  | cons x b ih =>
    rw [List.foldl_cons, List.foldl_cons, ih, ih (0 * 256 + x.toNat)]
    simp only [List.length_cons, Nat.zero_mul, Nat.zero_add]
    rw [Nat.add_mul, Nat.mul_assoc, Nat.mul_comm 256, ← Nat.pow_succ, Nat.succ_eq_add_one, Nat.add_assoc]

end Verif.Services
