import Verif.Services.FaultyInv
import Verif.Loading.FineTo
/-
What the distributor sends and closes has its cause: vocabulary and lemmas for property C135.
-/

set_option autoImplicit false

namespace Verif.Services.Fine

open Verif
open Verif.Chains (Addr)
open Verif.Peers (Lib Conn Registry Event)
open Verif.Loading (Ctx)
open Verif.Loading.Fine (World Disk)
open Verif.KV (Fate)

/-! ### vocabulary -/

/-- what is done to one connection on account of one event -/
inductive Act where
  /-- a list of peers is sent -/
  | peers (to : Conn)
  | close (c : Conn)
deriving DecidableEq

/-- the part of the output that is no ping -/
def _root_.Verif.Services.Out.act : Out → Option Act
  | .peersTo c _ => some (.peers c)
  | .close c => some (.close c)
  | .ping _ => none

/-- the connections that are pinged -/
def _root_.Verif.Services.Out.pinged : Out → Option Conn
  | .ping c => some c
  | _ => none

def acts (l : List Out) : List Act := l.filterMap Out.act

def pings (l : List Out) : List Conn := l.filterMap Out.pinged

/-- What an event gives cause for: a peer that asks for peers gets a list; a connection that comes up or breaks may be
closed. -/
def Ev.cause : Ev → Option Act
  | .message _ _ p .getPeers => some (.peers p.conn)
  | .connected _ _ p => some (.close p.conn)
  | .broken _ _ p => some (.close p.conn)
  | _ => none

def causes (es : List Ev) : List Act := es.filterMap Ev.cause

/-- the connections that came up -/
def Ev.joins : Ev → Option Conn
  | .connected _ _ p => some p.conn
  | _ => none

def joins (es : List Ev) : List Conn := es.filterMap Ev.joins

/-- the time for pings has come -/
def Ev.pings : Ev → Bool
  | .ping _ => true
  | _ => false

/-- how often it has come -/
def pingTimes (es : List Ev) : Nat := es.countP Ev.pings

theorem out_split (l : List Out) : l.length = (acts l).length + (pings l).length := by
  induction l with
  | nil => rfl
  | cons a l ih =>
    cases a with
    | ping c => show l.length + 1 = (acts l).length + ((pings l).length + 1); omega
    | peersTo c i => show l.length + 1 = ((acts l).length + 1) + (pings l).length; omega
    | close c => show l.length + 1 = ((acts l).length + 1) + (pings l).length; omega

/-! ### the connections in the registry -/

theorem appendLoop_connections (fs : Nat → Fate) : ∀ (l : List (Chains.Rd.Faults × Option Peers.AddrPort)) (r : Registry) (n : Nat),
    (Peers.Rd.appendLoop fs r l n).1.connections = r.connections
  | [], r, n => rfl
  | (F, none) :: l, r, n => appendLoop_connections fs l r n
  | (F, some ap) :: l, r, n => by
    unfold Peers.Rd.appendLoop
    split
    · split
      · rfl
      · rfl
      · exact appendLoop_connections fs l r n
      · split
        · exact appendLoop_connections fs l _ _
        · rfl
        · rfl
    · exact appendLoop_connections fs l r n

theorem found_connections (lib : Lib) (f : Fate) (now : Int) (r : Registry) (a : Addr) (np : Conn) (h : Peers.Handshake) (p : Peers.Peer) :
    (Peers.registerFound lib f now r a np h p).1.connections = Peers.setConn r.connections a np ∨
      (Peers.registerFound lib f now r a np h p).1.connections = r.connections := by
  unfold Peers.registerFound
  dsimp only
  split
  · exact Or.inr rfl
  · split
    · exact Or.inr rfl
    · split
      · exact Or.inr rfl
      · split
        · exact Or.inr rfl
        · exact Or.inl rfl

theorem rd_connections (F : Chains.Rd.Faults) (lib : Lib) (r : Registry) (e : Event) :
    (∃ f a np h, e.op = .register f a np h ∧ (Peers.Rd.step F lib r e).connections = Peers.setConn r.connections a np) ∨
      (Peers.Rd.step F lib r e).connections.Sublist r.connections := by
  obtain ⟨now, op⟩ := e
  cases op with
  | register f a np h =>
    simp only [Peers.Rd.step]
    rcases Peers.Rd.register_safe F lib f now r a np h with e | e
    · rw [e]
      have key : ∀ p, (Peers.registerFound lib f now { r with pending := Peers.delPending r.pending a } a np h p).1.connections =
            Peers.setConn r.connections a np ∨
          (Peers.registerFound lib f now { r with pending := Peers.delPending r.pending a } a np h p).1.connections = r.connections :=
        found_connections lib f now { r with pending := Peers.delPending r.pending a } a np h
      have key' : ∀ p, (∃ f' a' np' h', Peers.Op.register f a np h = .register f' a' np' h' ∧
            (Peers.registerFound lib f now { r with pending := Peers.delPending r.pending a } a np h p).1.connections =
              Peers.setConn r.connections a' np') ∨
          ((Peers.registerFound lib f now { r with pending := Peers.delPending r.pending a } a np h p).1.connections).Sublist r.connections := by
        intro p
        rcases key p with k | k
        · exact Or.inl ⟨f, a, np, h, rfl, k⟩
        · right; rw [k]; exact List.Sublist.refl _
      unfold Peers.RegisterPeer
      dsimp only
      split
      · split
        · exact Or.inr (List.Sublist.refl _)
        · split
          · exact key' _
          · exact key' _
          · exact Or.inr (List.Sublist.refl _)
      · exact Or.inr (List.Sublist.refl _)
    · rw [e]; exact Or.inr (List.Sublist.refl _)
  | unregister f a =>
    right
    simp only [Peers.Rd.step, Peers.Rd.UnregisterPeer]
    split
    · exact List.Sublist.refl _
    · exact List.filter_sublist
  | markHostile f arg =>
    right
    cases arg with
    | none => exact List.Sublist.refl _
    | some a => simp only [Peers.Rd.step, Peers.Rd.MarkAsHostile]; split <;> exact List.Sublist.refl _
  | updateScore f a s => right; simp only [Peers.Rd.step, Peers.Rd.UpdatePeerScore]; split <;> exact List.Sublist.refl _
  | append fs l => right; simp only [Peers.Rd.step, Peers.Rd.AppendAddresses, appendLoop_connections]; exact List.Sublist.refl _
  | take => right; simp only [Peers.Rd.step, Peers.Rd.TakeAvailableAddresses]; split <;> exact List.Sublist.refl _
  | suggest f a =>
    right
    simp only [Peers.Rd.step, Peers.Rd.SuggestVersion]
    split
    · split <;> exact List.Sublist.refl _
    · exact List.Sublist.refl _
    · split
      · split <;> exact List.Sublist.refl _
      · exact List.Sublist.refl _
      · exact List.Sublist.refl _
  | reopen c => exact Or.inr (List.nil_sublist _)

/-! ### one event -/

variable {lib : Lib}

theorem handleBlock_out {D : Disk} {c : Ctx} {sh : Loading.Fine.Shared} {p : Sender} {b : Option Chains.ProtoBlock} {x : Handled}
    (h : handleBlock D c sh p b = .ok x) : x.out = [] := by
  unfold handleBlock at h
  split at h
  · cases h; rfl
  · cases h; rfl
  · dsimp only at h
    split at h <;> (cases h <;> rfl)

/-- the output of the handlers -/
theorem Handling.output {s : Sys} {e : Ev} {r : Go Handled} {x : Handled} (h : Handling lib s e r) (hx : r = .ok x) :
    (acts x.out).Sublist e.cause.toList ∧
      (pings x.out = [] ∨ (e.pings = true ∧ (pings x.out).Perm (s.world.sh.reg.connections.map (·.2)))) := by
  cases h with
  | message D c p m =>
    have key : x.out = [] ∨ (m = .getPeers ∧ ∃ l, x.out = [.peersTo p.conn l]) := by
      unfold receive at hx
      split at hx
      · cases hx; exact Or.inl rfl
      · cases m with
        | getPeers =>
          simp only [handleMessage, handleGetPeers] at hx
          split at hx
          · cases hx
          · cases hx; exact Or.inl rfl
          · rename_i fs _
            cases ht : Peers.tcpAddrs fs with
            | error e => rw [ht] at hx; cases hx
            | ok infos => rw [ht] at hx; cases hx; exact Or.inr ⟨rfl, infos, rfl⟩
        | peers ps => obtain ⟨rfl, _⟩ := noPanic_eq hx; exact Or.inl rfl
        | signatures sigs =>
          simp only [handleMessage, handleSignatures] at hx
          split at hx <;> (cases hx; exact Or.inl rfl)
        | block b => exact Or.inl (handleBlock_out hx)
        | pbBlock b => exact Or.inl (handleBlock_out hx)
        | score sc =>
          simp only [handleMessage, handleScore] at hx
          split at hx
          · cases hx; exact Or.inl rfl
          · obtain ⟨rfl, _⟩ := noPanic_eq hx; exact Or.inl rfl
        | microBlockInv inv =>
          simp only [handleMessage, handleMicroBlockInv] at hx
          split at hx
          · cases hx; exact Or.inl rfl
          · cases hx; exact Or.inl rfl
          · obtain ⟨rfl, _⟩ := noPanic_eq hx; exact Or.inl rfl
        | blockIds ids =>
          simp only [handleMessage, handleBlockIDs] at hx
          split at hx
          · cases hx; exact Or.inl rfl
          · split at hx <;> (cases hx; exact Or.inl rfl)
        | _ => cases hx; exact Or.inl rfl
    rcases key with k | ⟨rfl, l, k⟩
    · rw [k]; exact ⟨List.nil_sublist _, Or.inl rfl⟩
    · rw [k]; exact ⟨List.Sublist.refl _, Or.inl rfl⟩
  | connected D c p hj =>
    unfold handleConnected at hx
    split at hx
    · cases hx; exact ⟨List.nil_sublist _, Or.inl rfl⟩
    · obtain ⟨rfl, _⟩ := noPanic_eq hx
      dsimp only
      split
      · exact ⟨List.Sublist.refl _, Or.inl rfl⟩
      · exact ⟨List.nil_sublist _, Or.inl rfl⟩
  | broken D c p =>
    unfold handleInternalError at hx
    split at hx
    · cases hx; exact ⟨List.nil_sublist _, Or.inl rfl⟩
    · obtain ⟨rfl, _⟩ := noPanic_eq hx
      exact ⟨List.Sublist.refl _, Or.inl rfl⟩
  | ping c =>
    cases hx
    have h1 : ∀ l : List Conn, acts (l.map Out.ping) = [] := by
      intro l
      induction l with
      | nil => rfl
      | cons a l ih => exact ih
    have h2 : ∀ l : List Conn, pings (l.map Out.ping) = l := by
      intro l
      induction l with
      | nil => rfl
      | cons a l ih => exact congrArg (a :: ·) ih
    refine ⟨by show (Fine.acts (List.map Out.ping _)).Sublist _; rw [h1]; exact List.nil_sublist _, Or.inr ⟨rfl, ?_⟩⟩
    show (Fine.pings (List.map Out.ping _)).Perm _
    rw [h2]
    exact (c.env.mapOrder_perm _).map _

/-- what was sent since the output was `b`, with the events `es` after the events `es0` -/
structure Caused (b : List Out) (es0 es : List Ev) (s : Sys) : Prop where
  live : ∀ x, x ∈ s.world.sh.reg.connections → x.2 ∈ joins (es0 ++ es)
  few : s.world.sh.reg.connections.length ≤ (joins (es0 ++ es)).length
  grown : ∃ more, s.out = b ++ more ∧ (acts more).Sublist (causes es) ∧ (∀ c, c ∈ pings more → c ∈ joins (es0 ++ es)) ∧
    (pings more).length ≤ pingTimes es * (joins (es0 ++ es)).length

theorem pingTimes_snoc (es : List Ev) (e : Ev) : pingTimes (es ++ [e]) = pingTimes es + e.pings.toNat := by
  unfold pingTimes
  rw [List.countP_append]
  cases he : e.pings <;> simp [he]

theorem joins_snoc (es : List Ev) (e : Ev) : joins (es ++ [e]) = joins es ++ e.joins.toList := by
  unfold joins
  rw [List.filterMap_append]
  cases he : e.joins <;> simp [he]

theorem causes_snoc (es : List Ev) (e : Ev) : causes (es ++ [e]) = causes es ++ e.cause.toList := by
  unfold causes
  rw [List.filterMap_append]
  cases he : e.cause <;> simp [he]

theorem acts_append (a b : List Out) : acts (a ++ b) = acts a ++ acts b := List.filterMap_append

theorem pings_append (a b : List Out) : pings (a ++ b) = pings a ++ pings b := List.filterMap_append

/-- a new registry and new output -/
theorem Caused.next {b : List Out} {es0 es : List Ev} {s s' : Sys} (C : Caused b es0 es s) (e : Ev) (o : List Out) (ho : s'.out = s.out ++ o)
    (ha : (acts o).Sublist e.cause.toList)
    (hp : pings o = [] ∨ (e.pings = true ∧ (pings o).Perm (s.world.sh.reg.connections.map (·.2))))
    (hc : (∃ a cn, e.joins = some cn ∧ s'.world.sh.reg.connections = Peers.setConn s.world.sh.reg.connections a cn) ∨
      s'.world.sh.reg.connections.Sublist s.world.sh.reg.connections) : Caused b es0 (es ++ [e]) s' := by
  have hj : joins (es0 ++ (es ++ [e])) = joins (es0 ++ es) ++ e.joins.toList := by rw [← List.append_assoc, joins_snoc]
  have hlen : (joins (es0 ++ es)).length ≤ (joins (es0 ++ (es ++ [e]))).length := by rw [hj, List.length_append]; omega
  have hmem : ∀ c, c ∈ joins (es0 ++ es) → c ∈ joins (es0 ++ (es ++ [e])) := fun c h => by rw [hj]; exact List.mem_append_left _ h
  refine ⟨?_, ?_, ?_⟩
  · intro x hx
    rcases hc with ⟨a, cn, hn, hc⟩ | hc
    · rw [hc] at hx
      rcases Peers.mem_setConn.mp hx with rfl | ⟨hx, _⟩
      · rw [hj, hn]; simp
      · exact hmem _ (C.live x hx)
    · exact hmem _ (C.live x (hc.mem hx))
  · rcases hc with ⟨a, cn, hn, hc⟩ | hc
    · rw [hc, hj, hn, List.length_append]
      have h1 : (Peers.delConn s.world.sh.reg.connections a).length ≤ s.world.sh.reg.connections.length := List.length_filter_le _ _
      have h2 := C.few
      show (Peers.delConn s.world.sh.reg.connections a).length + 1 ≤ (joins (es0 ++ es)).length + 1
      omega
    · exact Nat.le_trans hc.length_le (Nat.le_trans C.few hlen)
  · obtain ⟨more, hm, c1, c2, c3⟩ := C.grown
    refine ⟨more ++ o, by rw [ho, hm, List.append_assoc], ?_, ?_, ?_⟩
    · rw [acts_append, causes_snoc]; exact c1.append ha
    · intro c hm
      rw [pings_append] at hm
      rcases List.mem_append.mp hm with hm | hm
      · exact hmem _ (c2 c hm)
      · rcases hp with hp | ⟨_, hp⟩
        · rw [hp] at hm; cases hm
        · obtain ⟨x, hx, rfl⟩ := List.mem_map.mp (hp.mem_iff.mp hm)
          exact hmem _ (C.live x hx)
    · rw [pings_append, List.length_append, pingTimes_snoc, Nat.add_mul]
      have h1 : pingTimes es * (joins (es0 ++ es)).length ≤ pingTimes es * (joins (es0 ++ (es ++ [e]))).length := Nat.mul_le_mul_left _ hlen
      have h3 : (pings o).length ≤ e.pings.toNat * (joins (es0 ++ (es ++ [e]))).length := by
        rcases hp with hp | ⟨he, hp⟩
        · rw [hp]; exact Nat.zero_le _
        · rw [he, hp.length_eq, List.length_map, Bool.toNat_true, Nat.one_mul]
          exact Nat.le_trans C.few hlen
      omega

theorem done_connections (D : Disk) (sh : Loading.Fine.Shared) (x : Option Loading.Fine.Other) :
    (∃ ev f a np h, x = some (.registry ev) ∧ ev.op = .register f a np h ∧
      (done D lib sh x).reg.connections = Peers.setConn sh.reg.connections a np) ∨
      (done D lib sh x).reg.connections.Sublist sh.reg.connections := by
  cases x with
  | none => exact Or.inr (List.Sublist.refl _)
  | some y =>
    cases y with
    | registry ev =>
      rcases rd_connections D.peers lib sh.reg ev with ⟨f, a, np, h, h1, h2⟩ | h
      · exact Or.inl ⟨ev, f, a, np, h, rfl, h1, h2⟩
      · exact Or.inr h
    | putBlock b a f1 f2 => exact Or.inr (List.Sublist.refl _)
    | putMicro inv a f1 f2 => exact Or.inr (List.Sublist.refl _)

/-- only a connection that comes up is registered -/
theorem handlerCall_register {e : Ev} {ev : Event} {f : Fate} {a : Addr} {np : Conn} {h : Peers.Handshake}
    (hc : handlerCall e = some (.registry ev)) (ho : ev.op = .register f a np h) : e.joins = some np := by
  cases e with
  | message D c p m =>
    exfalso
    simp only [handlerCall] at hc
    unfold messageCall at hc
    split at hc <;> first
      | (cases hc <;> cases ho)
      | (cases hr : p.remote with
         | none => rw [hr] at hc; cases hc
         | some a => rw [hr] at hc; cases hc <;> cases ho)
      | cases hc
  | connected D c p =>
    simp only [handlerCall] at hc
    cases hr : p.remote with
    | none => rw [hr] at hc; cases hc
    | some a => rw [hr] at hc; cases hc; cases ho; rfl
  | broken D c p =>
    simp only [handlerCall] at hc
    cases hr : p.remote with
    | none => rw [hr] at hc; cases hc
    | some a => rw [hr] at hc; cases hc; cases ho
  | _ => cases hc

theorem Caused.step {b : List Out} {es0 es : List Ev} {s s' : Sys} {e : Ev} (C : Caused b es0 es s) (h : s.step lib e = some (.ok s')) :
    Caused b es0 (es ++ [e]) s' := by
  obtain ⟨_, hc⟩ := step_case h
  have plain : ∀ {s1 : Sys}, s1.out = s.out → s1.world.sh.reg.connections.Sublist s.world.sh.reg.connections →
      Caused b es0 (es ++ [e]) s1 :=
    fun ho hr => C.next e [] (by rw [ho, List.append_nil]) (List.nil_sublist _) (Or.inl rfl) (Or.inr hr)
  cases hc with
  | @handled _ r x hd hr hx =>
    obtain ⟨h1, h2⟩ := hr.output hx
    obtain ⟨e1, e2⟩ := hr.effect hx
    refine C.next e x.out rfl h1 h2 ?_
    show (∃ a cn, _ ∧ x.sh.reg.connections = _) ∨ x.sh.reg.connections.Sublist _
    rw [e2]
    rcases done_connections (lib := lib) e.disk s.world.sh x.call with ⟨ev, f, a, np, h, k1, k2, k3⟩ | k
    · exact Or.inl ⟨a, np, handlerCall_register (e1 ▸ k1) k2, k3⟩
    · exact Or.inr k
  | call D c k ht hk =>
    refine plain rfl ?_
    show (c.effectRd D s.world.sh).reg.connections.Sublist _
    unfold Loading.Fine.Call.effectRd
    split <;> exact List.Sublist.refl _
  | respawn D now failed hu ha =>
    unfold Sys.respawn
    split
    · exact plain rfl (List.Sublist.refl _)
    · have k : (Peers.Rd.TakeAvailableAddresses D.peers now s.world.sh.reg).1.connections.Sublist s.world.sh.reg.connections := by
        rcases rd_connections D.peers lib s.world.sh.reg ⟨now, .take⟩ with ⟨_, _, _, _, k, _⟩ | k
        · cases k
        · exact k
      dsimp only
      split
      · exact plain rfl k
      · exact plain rfl k
  | refused D f now a er hw =>
    rcases rd_connections D.peers lib s.world.sh.reg ⟨now, .suggest f a⟩ with ⟨_, _, _, _, k, _⟩ | k
    · cases k
    · exact plain rfl k
  | suggested D f now a v hw =>
    rcases rd_connections D.peers lib s.world.sh.reg ⟨now, .suggest f a⟩ with ⟨_, _, _, _, k, _⟩ | k
    · cases k
    · exact plain rfl k
  | giveUp D f now a hd =>
    rcases rd_connections D.peers lib s.world.sh.reg ⟨now, .unregister f a⟩ with ⟨_, _, _, _, k, _⟩ | k
    · cases k
    · exact plain rfl k
  | _ => exact plain rfl (List.Sublist.refl _)

theorem Caused.start (D : Disk) (cfg : Peers.Config) (pdb : Peers.DB) (fs : Nat → Fate) (seeds : List (Option Peers.AddrPort))
    (lk : Chains.Linkage) (listener : Bool) : Caused [] [] [] (Sys.start D cfg pdb fs seeds lk listener) := by
  have k : (Sys.start D cfg pdb fs seeds lk listener).world.sh.reg.connections = [] := appendLoop_connections fs _ _ _
  refine ⟨?_, ?_, [], rfl, List.Sublist.refl _, (fun c h => by cases h), Nat.zero_le _⟩
  · rw [k]; intro x h; cases h
  · rw [k]; exact Nat.le_refl _

theorem caused {b : List Out} {s0 s : Sys} {es0 es : List Ev} {tr : List Loading.Fine.Answer} (C : Caused b es0 [] s0)
    (h : Path lib s0 es tr s) : Caused b es0 es s := by
  induction h with
  | nil => exact C
  | snoc h e he ih => exact ih.step he

/-- from any moment on -/
theorem Caused.since {b : List Out} {es : List Ev} {s : Sys} (C : Caused b [] es s) : Caused s.out es [] s := by
  refine ⟨?_, ?_, [], (List.append_nil _).symm, List.Sublist.refl _, (fun c h => by cases h), Nat.zero_le _⟩
  · rw [List.append_nil]; exact C.live
  · rw [List.append_nil]; exact C.few

/-! ### whom the loader writes to -/

theorem connectionsLoop_conn {F : Chains.Rd.Faults} {db : Peers.DB} : ∀ {l : List (Addr × Conn)} {ps : List Peers.Peer},
    Peers.Rd.connectionsLoop F db l = .ok ps → ∀ p, p ∈ ps → ∃ x, x ∈ l ∧ p.conn = some x.2
  | [], ps, h, p, hp => by cases h; cases hp
  | (a, c) :: l, ps, h, p, hp => by
    unfold Peers.Rd.connectionsLoop at h
    cases h1 : Peers.Rd.peer F db a with
    | error e => rw [h1] at h; cases h
    | ok sp =>
      rw [h1] at h
      cases h2 : Peers.Rd.connectionsLoop F db l with
      | error e => rw [h2] at h; cases h
      | ok rest =>
        rw [h2] at h
        cases h
        rcases List.mem_cons.mp hp with rfl | hp
        · exact ⟨(a, c), List.mem_cons_self, rfl⟩
        · obtain ⟨x, hx, e⟩ := connectionsLoop_conn h2 p hp
          exact ⟨x, List.mem_cons_of_mem _ hx, e⟩

theorem connections_conn {F : Chains.Rd.Faults} {env : Chains.Env} {r : Registry} {ps : List Peers.Peer}
    (h : Peers.Rd.Connections F lib env r = .ok ps) : ∀ p, p ∈ ps → ∃ x, x ∈ r.connections ∧ p.conn = some x.2 := by
  intro p hp
  unfold Peers.Rd.Connections at h
  cases h1 : Peers.Rd.connectionsLoop F r.db (env.mapOrder r.connections) with
  | error e => rw [h1] at h; cases h
  | ok l =>
    rw [h1] at h
    cases h
    obtain ⟨x, hx, e⟩ := connectionsLoop_conn h1 p ((env.sort_perm _ _).mem_iff.mp hp)
    exact ⟨x, (env.mapOrder_perm _).mem_iff.mp hx, e⟩

/-- the loader has written, and will write, to connections with `J` only -/
structure Aims (J : Conn → Prop) (w : World) : Prop where
  own : Loading.Fine.Sure J w.own
  todo : ∀ p, w.todo = some p → Loading.Fine.Listing J (fun x => ∀ o, x = .ok o → Loading.Fine.Sure J o) p

theorem Aims.step {J : Conn → Prop} {w w' : World} {tr : List Loading.Fine.Answer} (A : Aims J w) (hl : ∀ x, x ∈ w.sh.reg.connections → J x.2)
    (h : Loading.Fine.RdStep lib w tr w') : Aims J w' := by
  cases h with
  | receive c i h => exact ⟨A.own, fun p hp => by cases hp; exact Loading.Fine.listing_handle c i A.own⟩
  | call D c k h =>
    refine ⟨A.own, fun p hp => ?_⟩
    cases hp
    refine A.todo _ h _ ?_
    cases c with
    | connections env =>
      intro ps hps p hp cn hcn
      obtain ⟨x, hx, e⟩ := connections_conn (lib := lib) hps p hp
      rw [e] at hcn
      cases hcn
      exact hl x hx
    | _ => exact trivial
  | finish o h => exact ⟨A.todo _ h o rfl, fun p hp => by cases hp⟩
  | other D x => exact ⟨A.own, A.todo⟩

theorem Aims.path {J : Conn → Prop} {s0 s : Sys} {b : List Out} {es : List Ev} {tr : List Loading.Fine.Answer} (C : Caused b [] [] s0)
    (A : Aims J s0.world) (h : Path lib s0 es tr s) (hj : ∀ c, c ∈ joins es → J c) : Aims J s.world := by
  induction h with
  | nil => exact A
  | @snoc es tr v v' h e he ih =>
    have hj' : ∀ c, c ∈ joins es → J c := fun c hc => hj c (by rw [joins_snoc]; exact List.mem_append_left _ hc)
    have hl : ∀ x, x ∈ v.world.sh.reg.connections → J x.2 := fun x hx => hj' _ ((caused C h).live x hx)
    rcases step_world he with ⟨h1, _⟩ | h1
    · rw [h1]; exact ih hj'
    · exact (ih hj').step hl h1

end Verif.Services.Fine
