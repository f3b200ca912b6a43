import Verif.Chains.Reads
import Verif.Peers.Queries
/-
The functions of peers/storage.go, peers/registry.go and
peers/version_provider.go that read the database, once more, on a disk that
may fail to read.  `Faults` is explained in Verif.Chains.Reads.
-/

set_option autoImplicit false

namespace Verif.Peers.Rd

open Verif
open Verif.Chains (Addr BytesN Env)
open Verif.Chains.Rd (Faults readFailed)
open Verif.KV (Fate)

/-- `storage.peer`, peers/storage.go:68-96 -/
def peer (F : Faults) (db : DB) (a : Addr) : Go Peer := do
  let k ← keyBytes a
  match ← Chains.Rd.get F db k with
  | none => fail .notFound
  | some .badCbor => .ok Peer.zero
  | some .badVersion => fail (.other "version")
  | some (.record v) => .ok (v.toPeer a)

/-- `storage.peers`, peers/storage.go:124-156: the entries that the iterator delivers -/
def peers (F : Faults) (db : DB) : Go (List Peer) := Peers.peers (db.filter (fun p => !F.missed p.1))

/-- `storage.hasPeer`, peers/storage.go:158-167 -/
def hasPeer (F : Faults) (db : DB) (a : Addr) : Go Bool := do
  let k ← keyBytes a
  let v ← Chains.Rd.get F db k
  .ok v.isSome

/-- `RegisterPeer`, peers/registry.go:63-122 -/
def RegisterPeer (F : Faults) (lib : Lib) (f : Fate) (now : Int) (r : Registry) (a : Addr) (np : Conn) (h : Handshake) :
    Registry × Bool × Go Unit :=
  let r := { r with pending := delPending r.pending a }
  if is4 a then
    if a = r.declared then (r, false, fail (.other "connection to itself"))
    else match peer F r.db a with
      | .ok p => registerFound lib f now r a np h p
      | .error (.err .notFound) => registerFound lib f now r a np h Peer.zero
      | .error e => (r, true, .error e)
  else (r, true, fail (.other "not an IPv4 address"))

/-- `UpdatePeerScore`, peers/registry.go:124-134 -/
def UpdatePeerScore (F : Faults) (f : Fate) (r : Registry) (a : Addr) (score : Nat) : Registry × Go Unit :=
  match peer F r.db a with
  | .error e => (r, .error e)
  | .ok p =>
    let (db', res) := putPeer f r.db { p with score := some score }
    ({ r with db := db' }, res)

/-- `UnregisterPeer`, peers/registry.go:160-179 -/
def UnregisterPeer (F : Faults) (f : Fate) (now : Int) (r : Registry) (a : Addr) : Registry × Go Unit :=
  match peer F r.db a with
  | .error e => (r, .error e)
  | .ok p =>
    let (db', res) := putPeer f r.db { p with nextAttempt := roundSec (now + delay), conn := none }
    ({ r with db := db', pending := delPending r.pending a, connections := delConn r.connections a }, res)

/-- `MarkAsHostile`, peers/registry.go:181-202 -/
def MarkAsHostile (F : Faults) (f : Fate) (r : Registry) (arg : Option Addr) : Registry × Go Unit :=
  match arg with
  | none => (r, fail (.other "address"))
  | some a =>
    let r := { r with pending := delPending r.pending a }
    let mark (p : Peer) : Registry × Go Unit :=
      let (db', res) := putPeer f r.db { p with addr := a, port := 0, state := .hostile }
      ({ r with db := db' }, res)
    match peer F r.db a with
    | .ok p => mark p
    | .error (.err .notFound) => mark Peer.zero
    | .error e => (r, .error e)

/-- the loop of `Connections`, peers/registry.go:211-219 -/
def connectionsLoop (F : Faults) (db : DB) : List (Addr × Conn) → Go (List Peer)
  | [] => .ok []
  | (a, c) :: l => do
    let sp ← peer F db a
    let rest ← connectionsLoop F db l
    .ok ({ sp with conn := some c } :: rest)

/-- `Connections`, peers/registry.go:205-222 -/
def Connections (F : Faults) (lib : Lib) (env : Env) (r : Registry) : Go (List Peer) := do
  let l ← connectionsLoop F r.db (env.mapOrder r.connections)
  .ok (env.sort (byName lib) l)

/-- the loop of `AppendAddresses`, peers/registry.go:226-267; the disk may fail differently at every
lookup, so the faults are given for each element of the list -/
def appendLoop (fs : Nat → Fate) (r : Registry) : List (Faults × Option AddrPort) → Nat → Registry × Go Nat
  | [], count => (r, .ok count)
  | (_, none) :: l, count => appendLoop fs r l count
  | (F, some ap) :: l, count =>
    if acceptable r ap then
      match hasPeer F r.db ap.addr with
      | .error .panic => (r, .error .panic)
      | .error (.err _) => (r, .ok count)
      | .ok true => appendLoop fs r l count
      | .ok false =>
        match putPeer (fs count) r.db (newPeer ap) with
        | (db', .ok ()) => appendLoop fs { r with db := db' } l (count + 1)
        | (db', .error .panic) => ({ r with db := db' }, .error .panic)
        | (db', .error (.err _)) => ({ r with db := db' }, .ok count)
    else appendLoop fs r l count

/-- `AppendAddresses`, peers/registry.go:226-267 -/
def AppendAddresses (F : Faults) (fs : Nat → Fate) (r : Registry) (l : List (Option AddrPort)) : Registry × Go Nat :=
  appendLoop fs r (l.map (fun x => (F, x))) 0

/-- `Peer`, peers/registry.go:269-274 -/
def PeerOf (F : Faults) (r : Registry) (a : Addr) : Go Peer := peer F r.db a

/-- `Peers`, peers/registry.go:276-286 -/
def Peers (F : Faults) (lib : Lib) (env : Env) (r : Registry) : Go (List Peer) := do
  let l ← peers F r.db
  .ok (env.sort (byName lib) l)

/-- `FriendlyPeers`, peers/registry.go:288-304 -/
def FriendlyPeers (F : Faults) (lib : Lib) (env : Env) (r : Registry) : Go (List Peer) := do
  let l ← peers F r.db
  .ok (env.sort (byName lib) (l.filter (fun p => decide (p.state = .connected))))

/-- `TakeAvailableAddresses`, peers/registry.go:320-355 -/
def TakeAvailableAddresses (F : Faults) (now : Int) (r : Registry) : Registry × Go (List AddrPort) :=
  match peers F r.db with
  | .error e => (r, .error e)
  | .ok ps =>
    let (l, pending') := takeLoop r now ps r.pending
    ({ r with pending := pending' }, .ok l)

/-- `SuggestVersion`, peers/version_provider.go:19-57 -/
def SuggestVersion (F : Faults) (f : Fate) (now : Int) (r : Registry) (a : Addr) : Registry × Go Version :=
  match peer F r.db a with
  | .error (.err .notFound) =>
    match bestVersion r.versions with
    | .error e => (r, .error e)
    | .ok ver =>
      let np : Peer := { Peer.zero with addr := a, port := 0, version := ver,
                                        nextAttempt := roundSec (now + delay), state := .unknown }
      let w := putPeer f r.db np
      ({ r with db := w.1 }, do let _ ← w.2; .ok ver)
  | .error e => (r, .error e)
  | .ok p =>
    match p.state with
    | .unknown =>
      match nextVersion r.versions p.version with
      | .error e => (r, .error e)
      | .ok ver =>
        let w := putPeer f r.db { p with version := ver, nextAttempt := roundSec (now + delay) }
        ({ r with db := w.1 }, do let _ ← w.2; .ok ver)
    | .connected => (r, .ok p.version)
    | .hostile => (r, fail (.other "peer is hostile"))

/-- the registry after one call -/
def step (F : Faults) (lib : Lib) (r : Registry) (e : Event) : Registry :=
  match e.op with
  | .register f a np h => (RegisterPeer F lib f e.now r a np h).1
  | .unregister f a => (UnregisterPeer F f e.now r a).1
  | .markHostile f arg => (MarkAsHostile F f r arg).1
  | .updateScore f a s => (UpdatePeerScore F f r a s).1
  | .append fs l => (AppendAddresses F fs r l).1
  | .take => (TakeAvailableAddresses F e.now r).1
  | .suggest f a => (SuggestVersion F f e.now r a).1
  | .reopen c => NewRegistry c r.db

/-- the registry after a history, with what is wrong with the disk at every call -/
def exec (lib : Lib) (r : Registry) (es : List (Faults × Event)) : Registry :=
  es.foldl (fun r e => step e.1 lib r e.2) r

/-! ### lemmas -/

theorem peer_safe (F : Faults) (db : DB) (a : Addr) : peer F db a = Peers.peer db a ∨
    ((∃ k, keyBytes a = .ok k ∧ F.bad k = true) ∧ peer F db a = fail readFailed) := by
  unfold peer Peers.peer
  cases hk : keyBytes a with
  | error e => exact Or.inl rfl
  | ok k =>
    cases hb : F.bad k with
    | true => exact Or.inr ⟨⟨k, rfl, hb⟩, by simp [Chains.Rd.get, hb, fail, bind, Except.bind]⟩
    | false =>
      left
      simp only [Chains.Rd.get, hb, bind, Except.bind]
      rcases KV.get db k with _ | v
      · rfl
      · cases v <;> rfl

theorem hasPeer_safe (F : Faults) (db : DB) (a : Addr) : hasPeer F db a = Peers.hasPeer db a ∨
    hasPeer F db a = fail readFailed := by
  unfold hasPeer Peers.hasPeer
  cases hk : keyBytes a with
  | error e => exact Or.inl rfl
  | ok k =>
    cases hb : F.bad k with
    | true => exact Or.inr (by simp [Chains.Rd.get, hb, fail, bind, Except.bind])
    | false => left; simp [Chains.Rd.get, hb, bind, Except.bind]

theorem register_safe (F : Faults) (lib : Lib) (f : Fate) (now : Int) (r : Registry) (a : Addr) (np : Conn) (h : Handshake) :
    RegisterPeer F lib f now r a np h = Peers.RegisterPeer lib f now r a np h ∨
    RegisterPeer F lib f now r a np h = ({ r with pending := delPending r.pending a }, true, fail readFailed) := by
  unfold RegisterPeer Peers.RegisterPeer
  by_cases h4 : is4 a = true
  · by_cases hd : a = r.declared
    · left; simp only [hd, if_true]
    · simp only [h4, hd, if_true, if_false]
      rcases peer_safe F r.db a with e | ⟨_, e⟩
      · left; rw [e]
        generalize Peers.peer r.db a = x
        cases x with
        | ok p => rfl
        | error e => cases e with
          | panic => rfl
          | err e => cases e <;> rfl
      · right; rw [e]; rfl
  · left; simp only [h4, Bool.false_eq_true, if_false]

theorem updateScore_safe (F : Faults) (f : Fate) (r : Registry) (a : Addr) (s : Nat) :
    UpdatePeerScore F f r a s = Peers.UpdatePeerScore f r a s ∨ UpdatePeerScore F f r a s = (r, fail readFailed) := by
  unfold UpdatePeerScore Peers.UpdatePeerScore
  rcases peer_safe F r.db a with e | ⟨_, e⟩
  · left; rw [e]; generalize Peers.peer r.db a = x; cases x <;> rfl
  · right; rw [e]; rfl

theorem unregister_safe (F : Faults) (f : Fate) (now : Int) (r : Registry) (a : Addr) :
    UnregisterPeer F f now r a = Peers.UnregisterPeer f now r a ∨ UnregisterPeer F f now r a = (r, fail readFailed) := by
  unfold UnregisterPeer Peers.UnregisterPeer
  rcases peer_safe F r.db a with e | ⟨_, e⟩
  · left; rw [e]; generalize Peers.peer r.db a = x; cases x <;> rfl
  · right; rw [e]; rfl

theorem mark_safe (F : Faults) (f : Fate) (r : Registry) (arg : Option Addr) :
    MarkAsHostile F f r arg = Peers.MarkAsHostile f r arg ∨
    ∃ a, arg = some a ∧ MarkAsHostile F f r arg = ({ r with pending := delPending r.pending a }, fail readFailed) := by
  unfold MarkAsHostile Peers.MarkAsHostile
  cases arg with
  | none => exact Or.inl rfl
  | some a =>
    simp only
    rcases peer_safe F r.db a with e | ⟨_, e⟩
    · left; rw [e]
      generalize Peers.peer r.db a = x
      cases x with
      | ok p => rfl
      | error e => cases e with
        | panic => rfl
        | err e => cases e <;> rfl
    · right; rw [e]; exact ⟨a, rfl, rfl⟩

theorem suggest_safe (F : Faults) (f : Fate) (now : Int) (r : Registry) (a : Addr) :
    SuggestVersion F f now r a = Peers.SuggestVersion f now r a ∨ SuggestVersion F f now r a = (r, fail readFailed) := by
  unfold SuggestVersion Peers.SuggestVersion
  rcases peer_safe F r.db a with e | ⟨_, e⟩
  · left; rw [e]
    generalize Peers.peer r.db a = x
    cases x with
    | ok p => cases hs : p.state <;> (simp only [hs]; try (generalize nextVersion r.versions p.version = y; cases y <;> rfl))
    | error e => cases e with
      | panic => rfl
      | err e => cases e <;> first | rfl | (simp only; generalize bestVersion r.versions = y; cases y <;> rfl)
  · right; rw [e]; rfl

theorem connectionsLoop_safe (F : Faults) (db : DB) : ∀ l : List (Addr × Conn),
    connectionsLoop F db l = Peers.connectionsLoop db l ∨ ∃ e, connectionsLoop F db l = .error e ∧
      (e = .err readFailed ∨ Peers.connectionsLoop db l = .error e)
  | [] => Or.inl rfl
  | (a, c) :: l => by
    simp only [connectionsLoop, Peers.connectionsLoop]
    rcases peer_safe F db a with e | ⟨_, e⟩
    · rw [e]
      cases Peers.peer db a with
      | error e => exact Or.inl rfl
      | ok p =>
        rcases connectionsLoop_safe F db l with e' | ⟨e', h, hh⟩
        · left; rw [e']
        · right; exact ⟨e', by rw [h]; rfl, hh.imp id (fun h => by rw [h]; rfl)⟩
    · right; rw [e]; exact ⟨.err readFailed, rfl, Or.inl rfl⟩

/-- appending on a failing disk is appending a beginning of the list on a good one -/
theorem appendLoop_take (fs : Nat → Fate) : ∀ (l : List (Faults × Option AddrPort)) (r : Registry) (count : Nat),
    ∃ k, k ≤ l.length ∧ appendLoop fs r l count = Peers.appendLoop fs r ((l.map (·.2)).take k) count
  | [], r, count => ⟨0, by simp, rfl⟩
  | (F, none) :: l, r, count => by
    obtain ⟨k, hk, e⟩ := appendLoop_take fs l r count
    exact ⟨k + 1, by simpa using hk, by simpa [appendLoop, Peers.appendLoop] using e⟩
  | (F, some ap) :: l, r, count => by
    cases hacc : acceptable r ap with
    | false =>
      obtain ⟨k, hk, e⟩ := appendLoop_take fs l r count
      exact ⟨k + 1, by simpa using hk, by simpa [appendLoop, Peers.appendLoop, hacc] using e⟩
    | true =>
      rcases hasPeer_safe F r.db ap.addr with e | e
      · cases hp : Peers.hasPeer r.db ap.addr with
        | error x =>
          refine ⟨1, by simp, ?_⟩
          cases x <;> simp [appendLoop, Peers.appendLoop, hacc, e, hp]
        | ok b =>
          cases b with
          | true =>
            obtain ⟨k, hk, e'⟩ := appendLoop_take fs l r count
            exact ⟨k + 1, by simpa using hk, by simpa [appendLoop, Peers.appendLoop, hacc, e, hp] using e'⟩
          | false =>
            cases hw : putPeer (fs count) r.db (newPeer ap) with
            | mk db' res =>
              cases res with
              | ok u =>
                obtain ⟨k, hk, e'⟩ := appendLoop_take fs l { r with db := db' } (count + 1)
                exact ⟨k + 1, by simpa using hk, by simpa [appendLoop, Peers.appendLoop, hacc, e, hp, hw] using e'⟩
              | error x =>
                refine ⟨1, by simp, ?_⟩
                cases x <;> simp [appendLoop, Peers.appendLoop, hacc, e, hp, hw]
      · refine ⟨0, by simp, ?_⟩
        simp [appendLoop, Peers.appendLoop, hacc, e, fail]

/-- the addresses whose entries an iterator misses -/
def lost (F : Faults) (a : Addr) : Bool :=
  match keyBytes a with
  | .ok k => F.missed k
  | .error _ => false

theorem lost_v4 (F : Faults) {a : Addr} (h : is4 a = true) : lost F a = F.missed a.slice := by
  obtain ⟨b, rfl⟩ := is4_iff.mp h
  rfl

/-- a walk that misses entries gives the list without them -/
theorem peers_filter (F : Faults) : ∀ {db : DB} {ps : List Peer}, Peers.peers db = .ok ps →
    peers F db = .ok (ps.filter (fun p => !lost F p.addr)) := by
  intro db
  induction db with
  | nil => intro ps h; cases h; rfl
  | cons x db ih =>
    intro ps h
    obtain ⟨k, v⟩ := x
    simp only [Peers.peers] at h
    cases hk : keyFrom k with
    | error e => rw [hk] at h; cases h
    | ok a =>
      rw [hk] at h
      have ha : keyBytes a = .ok k := by
        unfold keyFrom at hk
        split at hk
        · cases hk; rfl
        · cases hk
      cases v with
      | badCbor => cases h
      | badVersion => cases h
      | record v =>
        cases hr : Peers.peers db with
        | error e => simp only [bind, Except.bind, hr] at h; cases h
        | ok qs =>
          simp only [bind, Except.bind, hr] at h
          cases h
          have := ih hr
          unfold peers at this ⊢
          have hl : lost F (v.toPeer a).addr = F.missed k := by simp [lost, Value.toPeer, ha]
          cases hm : F.missed k with
          | true => simp only [List.filter_cons, hm, hl, Bool.not_true, Bool.false_eq_true, if_false]; exact this
          | false =>
            simp only [List.filter_cons, hm, hl, Bool.not_false, if_true, Peers.peers, hk, bind, Except.bind, this]

/-- taking from a list from which some peers are missing -/
theorem takeLoop_filter (r : Registry) (now : Int) (q : Addr → Bool) : ∀ (ps : List Peer) (p1 p2 : List Addr),
    (ps.map (·.addr)).Nodup → (∀ p, p ∈ ps → p1.contains p.addr = p2.contains p.addr) →
    (takeLoop r now (ps.filter (fun p => q p.addr)) p2).1 = (takeLoop r now ps p1).1.filter (fun ap => q ap.addr) ∧
    ∃ N : List Addr, (takeLoop r now ps p1).2 = N ++ p1 ∧
      (takeLoop r now (ps.filter (fun p => q p.addr)) p2).2 = N.filter q ++ p2 ∧
      (∀ a, a ∈ N → a ∉ p1 ∧ ∃ p, p ∈ ps ∧ p.addr = a) ∧ ∀ a, a ∈ N ↔ ∃ ap, ap ∈ (takeLoop r now ps p1).1 ∧ ap.addr = a
  | [], p1, p2, _, _ => ⟨rfl, [], rfl, rfl, by simp, by simp [takeLoop]⟩
  | p :: ps, p1, p2, hn, hc => by
    have hn' : p.addr ∉ ps.map (·.addr) ∧ (ps.map (·.addr)).Nodup := List.nodup_cons.mp hn
    have hcp := hc p (by simp)
    have hav : available r now p1 p = available r now p2 p := by unfold available; rw [hcp]
    have hne : ∀ x, x ∈ ps → x.addr ≠ p.addr := fun x hx e => hn'.1 (e ▸ List.mem_map_of_mem hx)
    cases ha : available r now p1 p with
    | false =>
      have ih := takeLoop_filter r now q ps p1 p2 hn'.2 (fun x hx => hc x (List.mem_cons_of_mem _ hx))
      obtain ⟨i1, N, i2, i3, i4, i5⟩ := ih
      have e1 : takeLoop r now (p :: ps) p1 = takeLoop r now ps p1 := by simp [takeLoop, ha]
      have e2 : takeLoop r now ((p :: ps).filter (fun p => q p.addr)) p2 = takeLoop r now (ps.filter (fun p => q p.addr)) p2 := by
        cases hq : q p.addr with
        | false => simp [hq]
        | true => simp [hq, takeLoop, ← hav, ha]
      rw [e1, e2]
      exact ⟨i1, N, i2, i3, fun a h => ⟨(i4 a h).1, (i4 a h).2.imp fun x hx => ⟨List.mem_cons_of_mem _ hx.1, hx.2⟩⟩, i5⟩
    | true =>
      have hnp : p.addr ∉ p1 := by
        intro h
        unfold available at ha
        simp [h] at ha
      have e1 : takeLoop r now (p :: ps) p1 =
          (p.addressPort :: (takeLoop r now ps (p.addr :: p1)).1, (takeLoop r now ps (p.addr :: p1)).2) := by
        simp [takeLoop, ha]
      cases hq : q p.addr with
      | false =>
        have e2 : takeLoop r now ((p :: ps).filter (fun p => q p.addr)) p2 = takeLoop r now (ps.filter (fun p => q p.addr)) p2 := by
          simp [hq]
        obtain ⟨i1, N, i2, i3, i4, i5⟩ := takeLoop_filter r now q ps (p.addr :: p1) p2 hn'.2 (fun x hx => by
          have := hc x (List.mem_cons_of_mem _ hx)
          rw [← this]; simp [hne x hx])
        rw [e1, e2]
        refine ⟨by simp [i1, hq, Peer.addressPort], N ++ [p.addr], by simp [i2], by simp [i3, hq], ?_, ?_⟩
        · intro a h
          rcases List.mem_append.mp h with h | h
          · have := i4 a h
            exact ⟨fun hm => this.1 (List.mem_cons_of_mem _ hm), this.2.imp fun x hx => ⟨List.mem_cons_of_mem _ hx.1, hx.2⟩⟩
          · simp at h; subst h; exact ⟨hnp, p, by simp, rfl⟩
        · intro a
          rw [List.mem_append, i5, List.mem_singleton]
          constructor
          · rintro (⟨ap, h, e⟩ | h)
            · exact ⟨ap, List.mem_cons_of_mem _ h, e⟩
            · exact ⟨_, List.mem_cons_self, h.symm⟩
          · rintro ⟨ap, h, e⟩
            rcases List.mem_cons.mp h with h | h
            · subst h; exact Or.inr e.symm
            · exact Or.inl ⟨ap, h, e⟩
      | true =>
        have e2 : takeLoop r now ((p :: ps).filter (fun p => q p.addr)) p2 =
            (p.addressPort :: (takeLoop r now (ps.filter (fun p => q p.addr)) (p.addr :: p2)).1,
              (takeLoop r now (ps.filter (fun p => q p.addr)) (p.addr :: p2)).2) := by
          simp [hq, takeLoop, ← hav, ha]
        obtain ⟨i1, N, i2, i3, i4, i5⟩ := takeLoop_filter r now q ps (p.addr :: p1) (p.addr :: p2) hn'.2 (fun x hx => by
          have := hc x (List.mem_cons_of_mem _ hx)
          simpa [hne x hx] using this)
        rw [e1, e2]
        refine ⟨by simp [i1, hq, Peer.addressPort], N ++ [p.addr], by simp [i2], by simp [i3, hq], ?_, ?_⟩
        · intro a h
          rcases List.mem_append.mp h with h | h
          · have := i4 a h
            exact ⟨fun hm => this.1 (List.mem_cons_of_mem _ hm), this.2.imp fun x hx => ⟨List.mem_cons_of_mem _ hx.1, hx.2⟩⟩
          · simp at h; subst h; exact ⟨hnp, p, by simp, rfl⟩
        · intro a
          rw [List.mem_append, i5, List.mem_singleton]
          constructor
          · rintro (⟨ap, h, e⟩ | h)
            · exact ⟨ap, List.mem_cons_of_mem _ h, e⟩
            · exact ⟨_, List.mem_cons_self, h.symm⟩
          · rintro ⟨ap, h, e⟩
            rcases List.mem_cons.mp h with h | h
            · subst h; exact Or.inr e.symm
            · exact Or.inl ⟨ap, h, e⟩

/-- a handshake of another network -/
def alien (scheme : UInt8) : Handshake :=
  { appName := [scheme + 1], version := .zero, nodeName := [], nonce := 0, declared := .empty }

/-- An address can be dropped from the pending ones by a call on a good disk: a node of another
network connects from there, and its record cannot be written. -/
theorem drop_pending (lib : Lib) (now : Int) (r : Registry) (a : Addr) :
    (Peers.RegisterPeer lib .fail now r a ⟨0, alien r.scheme⟩ (alien r.scheme)).1 =
      { r with pending := delPending r.pending a } := by
  have hput : ∀ p : Peer, (putPeer .fail r.db p).1 = r.db := by
    intro p; unfold putPeer
    split
    · split
      · split <;> rfl
      · rfl
    · rfl
  have hf : ∀ p : Peer, (registerFound lib .fail now { r with pending := delPending r.pending a } a ⟨0, alien r.scheme⟩ (alien r.scheme) p).1 =
      { r with pending := delPending r.pending a } := by
    intro p
    unfold registerFound
    have hs : r.scheme + 1 ≠ r.scheme := by
      intro h
      have h1 : r.scheme + 1 = r.scheme + 0 := by rw [h, UInt8.add_zero]
      have := (UInt8.add_right_inj r.scheme).mp h1
      cases this
    by_cases hc : lib.cmpMinor (alien r.scheme).version p.version ≥ 2
    · simp only [hc, if_true, hput]
    · simp only [hc, if_false]
      simp [alien, hs, hput]
  unfold Peers.RegisterPeer
  by_cases h4 : is4 a = true
  · by_cases hd : a = r.declared
    · simp only [hd, if_true]; split <;> rfl
    · simp only [h4, hd, if_true, if_false]
      cases Peers.peer r.db a with
      | ok p => exact hf p
      | error e => cases e with
        | panic => rfl
        | err e => cases e <;> first | rfl | exact hf _
  · simp only [h4, Bool.false_eq_true, if_false]

/-- the same for several addresses -/
theorem drop_all (lib : Lib) (now : Int) : ∀ (D : List Addr) (r : Registry), ∃ es,
    Peers.exec lib r es = { r with pending := r.pending.filter (fun a => !D.contains a) }
  | [], r => ⟨[], by
      have : r.pending.filter (fun a => !([] : List Addr).contains a) = r.pending := by
        rw [List.filter_eq_self]; simp
      rw [this]; rfl⟩
  | a :: D, r => by
    obtain ⟨es, h⟩ := drop_all lib now D { r with pending := delPending r.pending a }
    refine ⟨⟨now, .register .fail a ⟨0, alien r.scheme⟩ (alien r.scheme)⟩ :: es, ?_⟩
    have : Peers.exec lib r (⟨now, .register .fail a ⟨0, alien r.scheme⟩ (alien r.scheme)⟩ :: es) =
        Peers.exec lib { r with pending := delPending r.pending a } es := by
      simp only [Peers.exec, List.foldl_cons]
      congr 1
      exact drop_pending lib now r a
    rw [this, h]
    simp only [delPending, List.filter_filter]
    congr 1
    apply List.filter_congr
    intro x _
    by_cases e : x = a <;> simp [e]

/-- `TakeAvailableAddresses` on a failing disk -/
theorem take_safe (F : Faults) {r : Registry} (I : Inv r) (now : Int) :
    ∃ l N, Peers.TakeAvailableAddresses now r = ({ r with pending := N ++ r.pending }, .ok l) ∧
      TakeAvailableAddresses F now r = ({ r with pending := N.filter (fun a => !lost F a) ++ r.pending },
        .ok (l.filter (fun ap => !lost F ap.addr))) ∧
      (∀ a, a ∈ N → a ∉ r.pending) ∧ ∀ a, a ∈ N ↔ ∃ ap, ap ∈ l ∧ ap.addr = a := by
  obtain ⟨ps, h1, _, _, h4⟩ := peers_good I.good
  obtain ⟨i1, N, i2, i3, i4, i5⟩ := takeLoop_filter r now (fun a => !lost F a) ps r.pending r.pending h4 (fun _ _ => rfl)
  refine ⟨_, N, ?_, ?_, fun a h => (i4 a h).1, i5⟩
  · simp [Peers.TakeAvailableAddresses, h1, ← i2]
  · simp only [TakeAvailableAddresses, peers_filter F h1, i1, i3]

/-- one call on a failing disk is some calls on a good one -/
theorem step_exec (F : Faults) (lib : Lib) {r : Registry} (I : Inv r) (e : Event) :
    ∃ es, step F lib r e = Peers.exec lib r es := by
  have one : ∀ x, x = Peers.step lib r e → ∃ es, x = Peers.exec lib r es := fun x h => ⟨[e], h⟩
  have nothing : ∀ x, x = r → ∃ es, x = Peers.exec lib r es := fun x h => ⟨[], h⟩
  have drop : ∀ x a, x = { r with pending := delPending r.pending a } → ∃ es, x = Peers.exec lib r es := by
    intro x a h
    exact ⟨[⟨e.now, .register .fail a ⟨0, alien r.scheme⟩ (alien r.scheme)⟩], by
      rw [h]; exact (drop_pending lib e.now r a).symm⟩
  obtain ⟨now, op⟩ := e
  cases op with
  | register f a np h =>
    rcases register_safe F lib f now r a np h with h | h
    · exact one _ (congrArg Prod.fst h)
    · exact drop _ a (congrArg Prod.fst h)
  | unregister f a =>
    rcases unregister_safe F f now r a with h | h
    · exact one _ (congrArg Prod.fst h)
    · exact nothing _ (congrArg Prod.fst h)
  | markHostile f arg =>
    rcases mark_safe F f r arg with h | ⟨a, _, h⟩
    · exact one _ (congrArg Prod.fst h)
    · exact drop _ a (congrArg Prod.fst h)
  | updateScore f a s =>
    rcases updateScore_safe F f r a s with h | h
    · exact one _ (congrArg Prod.fst h)
    · exact nothing _ (congrArg Prod.fst h)
  | append fs l =>
    obtain ⟨k, _, h⟩ := appendLoop_take fs (l.map (fun x => (F, x))) r 0
    refine ⟨[⟨now, .append fs (((l.map (fun x => (F, x))).map (·.2)).take k)⟩], ?_⟩
    exact congrArg Prod.fst h
  | take =>
    obtain ⟨l, N, h1, h2, h3, _⟩ := take_safe F I now
    obtain ⟨es, h⟩ := drop_all lib now (N.filter (fun a => lost F a)) { r with pending := N ++ r.pending }
    refine ⟨⟨now, .take⟩ :: es, ?_⟩
    have e1 : Peers.exec lib r (⟨now, .take⟩ :: es) = Peers.exec lib { r with pending := N ++ r.pending } es := by
      simp only [Peers.exec, List.foldl_cons]
      congr 1
      exact congrArg Prod.fst h1
    rw [e1, h]
    refine (congrArg Prod.fst h2).trans ?_
    simp only [List.filter_append]
    congr 2
    · apply List.filter_congr
      intro x hx
      simp [List.contains_eq_mem, List.mem_filter, hx]
    · symm
      rw [List.filter_eq_self]
      intro x hx
      simp only [Bool.not_eq_true', List.contains_eq_mem, decide_eq_false_iff_not, List.mem_filter, not_and]
      intro hN; exact absurd hx (h3 x hN)
  | suggest f a =>
    rcases suggest_safe F f now r a with h | h
    · exact one _ (congrArg Prod.fst h)
    · exact nothing _ (congrArg Prod.fst h)
  | reopen c => exact one _ rfl

theorem exec_reachable {lib : Lib} (es : List (Faults × Event)) : ∀ {r : Registry}, Reachable lib r →
    Reachable lib (exec lib r es) := by
  induction es with
  | nil => intro r h; exact h
  | cons e es ih =>
    intro r h
    apply ih
    obtain ⟨es', h'⟩ := step_exec e.1 lib h.inv e.2
    obtain ⟨c, es0, rfl⟩ := h
    refine ⟨c, es0 ++ es', h'.trans ?_⟩
    simp [Peers.exec]

end Verif.Peers.Rd
