import Verif.Peers.Reads
import Verif.Props.Dialing
import Verif.Chains.Examples
/-
C101 and C102: the registry of peers on a disk that fails to read.
-/

set_option autoImplicit false

namespace Verif.Peers

open Verif
open Verif.Chains (Addr BytesN Env)
open Verif.Chains.Rd (Faults readFailed)
open Verif.KV (Fate)

variable {lib : Lib} {r : Registry}

/-! ### C101: answers -/

/-- What is said about one peer is right, or an error. -/
theorem C101_peer (F : Faults) (r : Registry) (a : Addr) :
    Rd.PeerOf F r a = PeerOf r a ∨ Rd.PeerOf F r a = fail readFailed :=
  (Rd.peer_safe F r.db a).imp id And.right

/-- So is the list of connections. -/
theorem C101_connections (F : Faults) (lib : Lib) (env : Env) (r : Registry) :
    Rd.Connections F lib env r = Connections lib env r ∨ ∃ e, Rd.Connections F lib env r = .error e := by
  unfold Rd.Connections Connections
  rcases Rd.connectionsLoop_safe F r.db (env.mapOrder r.connections) with h | ⟨e, h, _⟩
  · left; rw [h]
  · right; exact ⟨e, by rw [h]; rfl⟩

/-- The list of all peers and that of the friendly ones lack exactly the peers whose entries were
missed.  Missing for the full claim: an error when somebody is missing, see `C101_wrong`. -/
theorem C101_lists_partial (R : Reachable lib r) (F : Faults) (env : Env) :
    (∃ l l', Peers lib env r = .ok l ∧ Rd.Peers F lib env r = .ok l' ∧
      l'.Perm (l.filter (fun p => !F.missed p.addr.slice)) ∧ l'.Pairwise (fun p q => byName lib q p = false)) ∧
    ∃ l l', FriendlyPeers lib env r = .ok l ∧ Rd.FriendlyPeers F lib env r = .ok l' ∧
      l'.Perm (l.filter (fun p => !F.missed p.addr.slice)) ∧ l'.Pairwise (fun p q => byName lib q p = false) := by
  obtain ⟨ps, h1, _, h3, _⟩ := peers_good R.inv.good
  have hf := Rd.peers_filter F h1
  have hs : ∀ p, p ∈ ps → (!Rd.lost F p.addr) = !F.missed p.addr.slice := by
    intro p hp
    obtain ⟨b, v, _, rfl⟩ := (h3 p).mp hp
    rfl
  rw [List.filter_congr hs] at hf
  refine ⟨⟨_, _, by unfold Peers; rw [h1]; rfl, by unfold Rd.Peers; rw [hf]; rfl, ?_, env.sort_sorted _ _ (byName_strictWeak lib)⟩,
    _, _, by unfold FriendlyPeers; rw [h1]; rfl, by unfold Rd.FriendlyPeers; rw [hf]; rfl, ?_, env.sort_sorted _ _ (byName_strictWeak lib)⟩
  · exact (env.sort_perm _ _).trans ((env.sort_perm _ _).filter _).symm
  · refine (env.sort_perm _ _).trans (List.Perm.trans ?_ ((env.sort_perm _ _).filter _).symm)
    simp only [List.filter_filter]
    apply List.Perm.of_eq
    apply List.filter_congr
    intro p _; exact Bool.and_comm _ _

/-- A record that does not decode, if it is delivered, makes the lists and the addresses for
dialling an error, whatever else is in the database; nothing is marked as being dialled then.  Looked
up alone, a record whose version does not parse is an error too (one that CBOR rejects is not, see
`C36_damaged`). -/
theorem C101_damaged (F : Faults) (env : Env) (lib : Lib) (now : Int) (r : Registry) {b : BytesN 4} {v : Val}
    (hk : ∀ k v, (k, v) ∈ r.db → k.length = 4) (hm : (b.1, v) ∈ r.db) (hv : ∀ x, v ≠ .record x)
    (hd : F.missed b.1 = false) :
    (∃ e, Rd.Peers F lib env r = fail e) ∧ (∃ e, Rd.FriendlyPeers F lib env r = fail e) ∧
    (∃ e, Rd.TakeAvailableAddresses F now r = (r, fail e)) ∧
    (KV.get r.db b.1 = some .badVersion → ∃ e, Rd.PeerOf F r (.v4 b) = fail e) := by
  obtain ⟨e, h⟩ : ∃ e, Rd.peers F r.db = fail e := by
    unfold Rd.peers
    have hk' : ∀ k v, (k, v) ∈ r.db.filter (fun p => !F.missed p.1) → k.length = 4 :=
      fun k v h => hk k v (List.mem_filter.mp h).1
    have hm' : (b.1, v) ∈ r.db.filter (fun p => !F.missed p.1) := List.mem_filter.mpr ⟨hm, by simp [hd]⟩
    generalize r.db.filter (fun p => !F.missed p.1) = db at hk' hm'
    clear hk hm
    induction db with
    | nil => cases hm'
    | cons x db ih =>
      obtain ⟨k, w⟩ := x
      have hl := hk' k w (by simp)
      cases w with
      | badCbor => exact ⟨_, by simp [peers, keyFrom, hl, bind, Except.bind]; rfl⟩
      | badVersion => exact ⟨_, by simp [peers, keyFrom, hl, bind, Except.bind]; rfl⟩
      | record w =>
        have hm'' : (b.1, v) ∈ db := by
          rcases List.mem_cons.mp hm' with e | h
          · cases e; exact absurd rfl (hv w)
          · exact h
        obtain ⟨e, h⟩ := ih (fun k v h => hk' k v (List.mem_cons_of_mem _ h)) hm''
        exact ⟨e, by simp [peers, keyFrom, hl, bind, Except.bind, h, fail]⟩
  refine ⟨⟨e, by unfold Rd.Peers; rw [h]; rfl⟩, ⟨e, by unfold Rd.FriendlyPeers; rw [h]; rfl⟩,
    ⟨e, by unfold Rd.TakeAvailableAddresses; rw [h]; rfl⟩, fun hg => ?_⟩
  cases hb : F.bad b.1 with
  | true => exact ⟨readFailed, by simp [Rd.PeerOf, Rd.peer, keyBytes, Chains.Rd.get, hb, fail, bind, Except.bind]⟩
  | false => exact ⟨.other "version", by simp [Rd.PeerOf, Rd.peer, keyBytes, Chains.Rd.get, hb, hg, fail, bind, Except.bind]⟩

example : (∀ k v, (k, v) ∈ ([([1, 1, 1, 1], .badCbor), ([2, 2, 2, 2], .badVersion)] : DB) → k.length = 4) ∧
    ([2, 2, 2, 2], Val.badVersion) ∈ ([([1, 1, 1, 1], .badCbor), ([2, 2, 2, 2], .badVersion)] : DB) ∧
    Faults.none.missed [2, 2, 2, 2] = false := by
  refine ⟨?_, by simp, rfl⟩
  intro k v h
  simp at h
  rcases h with ⟨rfl, _⟩ | ⟨rfl, _⟩ <;> rfl

/-- the iterator does not deliver one entry, and a lookup of it fails -/
def failing : Faults :=
  { bad := fun k => decide (k = [2, 2, 2, 2]), missed := fun k => decide (k = [2, 2, 2, 2]) }

/-- two peers are known and connected -/
def two : Registry := Ex.run [Ex.seeds, Ex.at_ 1 (.suggest .ok (Ex.ip 1 1 1 1)),
  Ex.at_ 1 (.suggest .ok (Ex.ip 2 2 2 2)), Ex.at_ 1 (.register .ok (Ex.ip 1 1 1 1) (Ex.conn 65) (Ex.hs 65)),
  Ex.at_ 2 (.register .ok (Ex.ip 2 2 2 2) (Ex.conn 66) (Ex.hs 66))]

/-- A peer is not in the lists, and there is no error. -/
theorem C101_wrong : Reachable Ex.lib two ∧
    (Peers Ex.lib Chains.Ex.env two).map (·.map (·.addr)) = .ok [Ex.ip 1 1 1 1, Ex.ip 2 2 2 2] ∧
    (Rd.Peers failing Ex.lib Chains.Ex.env two).map (·.map (·.addr)) = .ok [Ex.ip 1 1 1 1] ∧
    (Rd.FriendlyPeers failing Ex.lib Chains.Ex.env two).map (·.map (·.addr)) = .ok [Ex.ip 1 1 1 1] ∧
    Rd.Connections failing Ex.lib Chains.Ex.env two = fail readFailed :=
  ⟨Ex.reach _, by decide +kernel, by decide +kernel, by decide +kernel, by rfl⟩

/-! ### C102: calls -/

/-- A call that reads one record does what it does on a good disk, or it returns the error of the
disk and leaves records and connections as they were; a registration is then refused with the
connection closed.  Of the addresses being dialled, a failed registration or marking takes off its
own; the others leave them as they were.  Missing for the full claim: that a failed dial and a broken
connection are forgotten in any case, see `C102_never_dialled` and `C102_dead_connection`. -/
theorem C102_call_partial (F : Faults) (lib : Lib) (f : Fate) (now : Int) (r : Registry) (a : Addr) :
    (∀ np h, Rd.RegisterPeer F lib f now r a np h = RegisterPeer lib f now r a np h ∨
      Rd.RegisterPeer F lib f now r a np h = ({ r with pending := delPending r.pending a }, true, fail readFailed)) ∧
    (Rd.UnregisterPeer F f now r a = UnregisterPeer f now r a ∨ Rd.UnregisterPeer F f now r a = (r, fail readFailed)) ∧
    (Rd.MarkAsHostile F f r (some a) = MarkAsHostile f r (some a) ∨
      Rd.MarkAsHostile F f r (some a) = ({ r with pending := delPending r.pending a }, fail readFailed)) ∧
    (∀ s, Rd.UpdatePeerScore F f r a s = UpdatePeerScore f r a s ∨ Rd.UpdatePeerScore F f r a s = (r, fail readFailed)) ∧
    (Rd.SuggestVersion F f now r a = SuggestVersion f now r a ∨ Rd.SuggestVersion F f now r a = (r, fail readFailed)) := by
  refine ⟨fun np h => Rd.register_safe F lib f now r a np h, Rd.unregister_safe F f now r a, ?_,
    fun s => Rd.updateScore_safe F f r a s, Rd.suggest_safe F f now r a⟩
  rcases Rd.mark_safe F f r (some a) with h | ⟨a', e, h⟩
  · exact Or.inl h
  · cases e; exact Or.inr h

/-- Learning addresses does with a beginning of the list what it does on a good disk: the count
that is returned is right. -/
theorem C102_append (F : Faults) (fs : Nat → Fate) (r : Registry) (l : List (Option AddrPort)) :
    ∃ k, k ≤ l.length ∧ Rd.AppendAddresses F fs r l = AppendAddresses fs r (l.take k) := by
  obtain ⟨k, hk, h⟩ := Rd.appendLoop_take fs (l.map (fun x => (F, x))) r 0
  exact ⟨k, by simpa using hk, by simpa [Rd.AppendAddresses, AppendAddresses, Function.comp_def] using h⟩

/-- The addresses handed out for dialling are those that a good disk would give without the missed
ones, and only they are marked as being dialled. -/
theorem C102_take (R : Reachable lib r) (F : Faults) (now : Int) :
    ∃ l pend, (TakeAvailableAddresses now r).2 = .ok l ∧
      Rd.TakeAvailableAddresses F now r = ({ r with pending := pend }, .ok (l.filter (fun ap => !F.missed ap.addr.slice))) ∧
      ∀ a, a ∈ pend ↔ a ∈ r.pending ∨ ∃ ap, ap ∈ l ∧ F.missed a.slice = false ∧ ap.addr = a := by
  obtain ⟨l, N, h1, h2, _, h4⟩ := Rd.take_safe F R.inv now
  obtain ⟨l', _, h1', h2', _⟩ := R.inv.take now
  have hl : l' = l := Except.ok.inj (congrArg Prod.snd (h1'.symm.trans h1))
  subst hl
  have h4' : ∀ ap, ap ∈ l' → is4 ap.addr = true := by
    intro ap hap
    obtain ⟨b, v, _, _, _, rfl⟩ := (h2' ap).mp hap
    rfl
  refine ⟨l', N.filter (fun a => !Rd.lost F a) ++ r.pending, by rw [h1], ?_, ?_⟩
  · have : l'.filter (fun ap => !Rd.lost F ap.addr) = l'.filter (fun ap => !F.missed ap.addr.slice) :=
      List.filter_congr (fun ap hap => by rw [Rd.lost_v4 F (h4' ap hap)])
    rw [h2, this]
  · intro a
    rw [List.mem_append, List.mem_filter, h4]
    constructor
    · rintro (⟨⟨ap, hap, rfl⟩, hm⟩ | h)
      · rw [Rd.lost_v4 F (h4' ap hap)] at hm
        exact Or.inr ⟨ap, hap, by simpa using hm, rfl⟩
      · exact Or.inl h
    · rintro (h | ⟨ap, hap, hm, rfl⟩)
      · exact Or.inr h
      · exact Or.inl ⟨⟨ap, hap, rfl⟩, by rw [Rd.lost_v4 F (h4' ap hap), hm]; rfl⟩

/-- After any history on a disk that fails now and then, the registry is one that calls on a good
disk lead to: what is proved of those holds of it. -/
theorem C102_history (R : Reachable lib r) (es : List (Faults × Event)) : Reachable lib (Rd.exec lib r es) :=
  Rd.exec_reachable es R

/-- An address is handed out for dialling, the dial fails, and the record cannot be read when this
is reported.  Then the address is never handed out again, at whatever time, unless a node registers
from there, a later report succeeds, or the program is restarted.  (On a good disk it is handed out
again after the delay.) -/
theorem C102_never_dialled (R : Reachable lib r) {F : Faults} {f : Fate} {now now1 now' : Int} {r1 : Registry}
    {l l' : List AddrPort} (h : TakeAvailableAddresses now r = (r1, .ok l)) {ap : AddrPort} (hap : ap ∈ l)
    (hbad : F.bad ap.addr.slice = true) {es : List Event} (hrel : ∀ e, e ∈ es → e.releases ap.addr = false)
    (h' : (TakeAvailableAddresses now' (exec lib (Rd.UnregisterPeer F f now1 r1 ap.addr).1 es)).2 = .ok l') :
    ∀ ap', ap' ∈ l' → ap'.addr ≠ ap.addr := by
  have h4 : is4 ap.addr = true := by
    obtain ⟨l0, _, h1, h2, _⟩ := R.inv.take now
    rw [h1] at h
    have hl := Except.ok.inj (Prod.mk.inj h).2
    subst hl
    obtain ⟨b, v, _, _, _, rfl⟩ := (h2 ap).mp hap
    rfl
  have hu : (Rd.UnregisterPeer F f now1 r1 ap.addr).1 = r1 := by
    obtain ⟨b, hb⟩ := is4_iff.mp h4
    rw [hb] at hbad ⊢
    have hbad' : F.bad b.1 = true := hbad
    simp [Rd.UnregisterPeer, Rd.peer, keyBytes, Chains.Rd.get, hbad', fail, bind, Except.bind]
  rw [hu] at h'
  exact C30_not_twice R h hap hrel h'

/-- the hypotheses can be met: two addresses are handed out, both dials fail, the report of one of
them is lost; a day later only the other one is handed out -/
example :
    let r := Ex.run [Ex.seeds]
    let r1 := (TakeAvailableAddresses (1 * second) r).1
    (TakeAvailableAddresses (1 * second) r).2 = .ok [⟨Ex.ip 1 1 1 1, 6868⟩, ⟨Ex.ip 2 2 2 2, 6868⟩] ∧
    failing.bad (Ex.ip 2 2 2 2).slice = true ∧ (Ex.at_ 2 (.unregister .ok (Ex.ip 1 1 1 1))).releases (Ex.ip 2 2 2 2) = false ∧
    (Rd.UnregisterPeer failing .ok (2 * second) r1 (Ex.ip 2 2 2 2)).2 = fail readFailed ∧
    (TakeAvailableAddresses (86400 * second) (exec Ex.lib (Rd.UnregisterPeer failing .ok (2 * second) r1 (Ex.ip 2 2 2 2)).1
      [Ex.at_ 2 (.unregister .ok (Ex.ip 1 1 1 1))])).2 = .ok [⟨Ex.ip 1 1 1 1, 6868⟩] ∧
    (TakeAvailableAddresses (86400 * second) (exec Ex.lib (UnregisterPeer .ok (2 * second) r1 (Ex.ip 2 2 2 2)).1
      [Ex.at_ 2 (.unregister .ok (Ex.ip 1 1 1 1))])).2 = .ok [⟨Ex.ip 1 1 1 1, 6868⟩, ⟨Ex.ip 2 2 2 2, 6868⟩] := by
  decide +kernel

/-- A connection breaks and the record cannot be read when this is reported: the connection stays
on the list, and messages are still sent to it. -/
theorem C102_dead_connection (F : Faults) (f : Fate) (now : Int) (r : Registry) (env : Env) {a : Addr} (h4 : is4 a = true)
    (hbad : F.bad a.slice = true) :
    Rd.UnregisterPeer F f now r a = (r, fail readFailed) ∧
    Broadcast env (Rd.UnregisterPeer F f now r a).1 = Broadcast env r := by
  obtain ⟨b, rfl⟩ := is4_iff.mp h4
  have hbad' : F.bad b.1 = true := hbad
  have : Rd.UnregisterPeer F f now r (.v4 b) = (r, fail readFailed) := by
    simp [Rd.UnregisterPeer, Rd.peer, keyBytes, Chains.Rd.get, hbad', fail, bind, Except.bind]
  exact ⟨this, by rw [this]⟩

example : is4 (Ex.ip 2 2 2 2) = true ∧ failing.bad (Ex.ip 2 2 2 2).slice = true ∧
    (Broadcast Chains.Ex.env (Rd.UnregisterPeer failing .ok 0 two (Ex.ip 2 2 2 2)).1).length = 2 ∧
    (Broadcast Chains.Ex.env (UnregisterPeer .ok 0 two (Ex.ip 2 2 2 2)).1).length = 1 := by decide +kernel

end Verif.Peers
