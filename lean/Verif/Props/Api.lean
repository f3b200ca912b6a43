import Verif.Services.ApiLemmas
import Verif.Services.Examples
import Verif.Props.Forks
import Verif.Props.Lca
import Verif.Props.Leashes
import Verif.Props.Heads
import Verif.Props.Messages
/-
Properties C55 and C56: the HTTP answers about forks.
-/

set_option autoImplicit false

namespace Verif.Props

open Verif
open Verif.Chains (Addr BytesN BlockID DB Env Fork Leash Linkage ProtoBlock GeneratorStats LeashOf HasLeash Leashes Forks ForkOf
  ForkGenerators LastIDs getBlockByID BlockRec)
open Verif.Chains.Spec (Op Fresh Stored Reachable exec inserts Selected Readable Close Anc HeightOf IsBest)
open Verif.Peers (Conn Registry Lib Peer Connections)
open Verif.Services

/-- a library for the examples: a digit is an address 10.0.0.d, a `z` is a link-local address with a zone -/
def exWeb : Web where
  parse s := match s with
    | [c] => if c.isDigit then some (Chains.Ex.ip (c.toNat - 48)) else if c = 'z' then some (zoned "eth0") else none
    | _ => none
  parse_valid s a h := by
    split at h
    · split at h
      · cases h; simp [Chains.Ex.ip]
      · split at h
        · cases h; simp [zoned]
        · cases h
    · cases h
  space c := c = ' '
  encodes ms := decide (ms < 253402300800000)
  encodes_near ms h := by simp; omega
  encodes_far ms h := by simp; omega
  maxCap := 2 ^ 40
  room := 2 ^ 26

/-! ### C55 -/

/-- The peers named in a request: every piece between commas that is not blank, without the blanks at its ends, names a peer, and the request
is refused exactly if one of these cannot be parsed. -/
theorem C55_request (w : Web) (pieces : List (List Char)) (hne : pieces ≠ []) (hp : ∀ p, p ∈ pieces → ',' ∉ p) :
    (w.getPeers (joined pieces) = none ↔ ∃ p c, p ∈ pieces ∧ Bare w.space p c ∧ c ≠ [] ∧ w.parse c = none) ∧
    ∀ as, w.getPeers (joined pieces) = some as →
      ∀ a, a ∈ as ↔ ∃ p c, p ∈ pieces ∧ Bare w.space p c ∧ c ≠ [] ∧ w.parse c = some a := by
  have key : ∀ r, (∃ p, p ∈ pieces ∧ w.trim p ≠ [] ∧ w.parse (w.trim p) = r) ↔
      ∃ p c, p ∈ pieces ∧ Bare w.space p c ∧ c ≠ [] ∧ w.parse c = r := by
    intro r
    constructor
    · rintro ⟨p, h1, h2, h3⟩
      exact ⟨p, _, h1, (bare_iff _ _ _).mpr rfl, h2, h3⟩
    · rintro ⟨p, c, h1, h2, h3, h4⟩
      have e : w.trim p = c := (bare_iff _ _ _).mp h2
      exact ⟨p, h1, by rw [e]; exact h3, by rw [e]; exact h4⟩
  unfold Web.getPeers
  rw [split_joined hne hp]
  exact ⟨peersLoop_none.trans (key _), fun as h a => (peersLoop_some h a).trans (key _)⟩

/-- A request with a name that cannot be parsed is answered with 400, and no other request is. -/
theorem C55_bad_request (w : Web) (lib : Lib) (env1 env2 : Env) (reg : Registry) (db : DB) (q : List Char) :
    (w.getPeers q = none ↔ w.activeForks lib env1 env2 reg db q = .badRequest) ∧
    (w.getPeers q = none ↔ w.forks env2 db q = .badRequest) := by
  have enc : ∀ fs : List Fork, w.encode fs (forkTimes fs) ≠ .badRequest := by
    intro fs; unfold Web.encode; split <;> simp
  have aft : ∀ {α : Type} (r : Go α) (k : α → Resp (List Fork)), (∀ a, k a ≠ .badRequest) → Resp.after r k ≠ .badRequest := by
    intro α r k hk
    unfold Resp.after
    split
    · exact hk _
    · simp
    · simp
  unfold Web.activeForks Web.forks
  cases h : w.getPeers q with
  | none => simp
  | some ps =>
    simp only [reduceCtorEq, false_iff]
    exact ⟨aft _ _ (fun a => aft _ _ enc), aft _ _ enc⟩

/-- If a (requested) peer is connected, the report contains connected (and requested) peers only, and each of them that
is on the list of leashes, in exactly one fork.  `s` is the state in which the connections are read and `l` the store from which
the forks are computed.  Missing: the case without such a peer (`C55_everyone`). -/
theorem C55_only_connected_partial {lib : Lib} {s : Prog} (R : Reached lib s) {g : ProtoBlock} {l : Linkage} (h : Reachable g l)
    (w : Web) (env1 env2 : Env) (q : List Char) {rps : List Addr} (hq : w.getPeers q = some rps)
    (hc : ∃ a c, (a, c) ∈ s.l.reg.connections ∧ (rps = [] ∨ a ∈ rps)) {fs : List Fork}
    (ho : w.activeForks lib env1 env2 s.l.reg l.db q = .ok fs) :
    (∀ f p, f ∈ fs → p ∈ f.peers → (∃ c, (p, c) ∈ s.l.reg.connections) ∧ (rps = [] ∨ p ∈ rps)) ∧
    ∃ ls, Leashes l.db = .ok ls ∧ ∀ p id c, (p, c) ∈ s.l.reg.connections → (rps = [] ∨ p ∈ rps) → { addr := p, blockID := id } ∈ ls →
      ∃ f, f ∈ fs ∧ p ∈ f.peers ∧ f.headBlock = id ∧ ∀ f', f' ∈ fs → p ∈ f'.peers → f' = f := by
  unfold Web.activeForks at ho
  rw [hq] at ho
  simp only at ho
  obtain ⟨conns, hconn, ho⟩ := Resp.after_ok ho
  obtain ⟨fs', hforks, ho⟩ := Resp.after_ok ho
  obtain ⟨rfl, _⟩ := Web.encode_ok ho
  obtain ⟨conns', hconn', hmem, hpeer, _⟩ := C63_connections R env1
  rw [hconn] at hconn'; cases hconn'
  have hin : ∀ p, p ∈ activePeers rps conns ↔ (∃ c, (p, c) ∈ s.l.reg.connections) ∧ (rps = [] ∨ p ∈ rps) := by
    intro p
    unfold activePeers
    simp only [List.mem_filter, List.mem_map]
    have h1 : (∃ x, x ∈ conns ∧ x.addr = p) ↔ ∃ c, (p, c) ∈ s.l.reg.connections := by
      constructor
      · rintro ⟨x, hx, rfl⟩
        cases hxc : x.conn with
        | none => exact absurd hxc (hpeer x hx).2
        | some c => exact ⟨c, (hmem _ c).mp ⟨x, hx, rfl, hxc⟩⟩
      · rintro ⟨c, hm⟩
        obtain ⟨x, hx, e, _⟩ := (hmem p c).mpr hm
        exact ⟨x, hx, e⟩
    rw [h1]
    refine and_congr_right (fun _ => ?_)
    cases rps with
    | nil => simp
    | cons r rs => simp
  have hne : activePeers rps conns ≠ [] := by
    obtain ⟨a, c, hm, hr⟩ := hc
    exact List.ne_nil_of_mem ((hin a).mpr ⟨⟨c, hm⟩, hr⟩)
  obtain ⟨ls, hls, _, _, hent⟩ := C15_partition h env2 _ hforks
  constructor
  · intro f p hf hp
    have := ((hent f hf).1 p).mp hp
    rcases this.2 with e | hm
    · exact absurd e hne
    · exact (hin p).mp hm
  · refine ⟨ls, hls, fun p id c hm hr hp => ?_⟩
    exact C15_each_peer_once h env2 _ hforks ls hls p id ⟨hp, Or.inr ((hin p).mpr ⟨⟨c, hm⟩, hr⟩)⟩

/-- If nobody who is asked for is connected, the answer is the report about all peers ever leashed. -/
theorem C55_everyone {lib : Lib} {s : Prog} (R : Reached lib s) (w : Web) (env1 env2 : Env) (db : DB) (q : List Char)
    {rps : List Addr} (hq : w.getPeers q = some rps) (hc : ∀ a c, (a, c) ∈ s.l.reg.connections → rps ≠ [] ∧ a ∉ rps) :
    w.activeForks lib env1 env2 s.l.reg db q = w.forks env2 db [] := by
  obtain ⟨conns, hconn, hmem, hpeer, _⟩ := C63_connections R env1
  have : activePeers rps conns = [] := by
    unfold activePeers
    rw [List.filter_eq_nil_iff]
    intro p hp
    obtain ⟨x, hx, rfl⟩ := List.mem_map.mp hp
    cases hxc : x.conn with
    | none => exact absurd hxc (hpeer x hx).2
    | some c =>
      obtain ⟨h1, h2⟩ := hc _ _ ((hmem x.addr c).mp ⟨x, hx, rfl, hxc⟩)
      cases rps with
      | nil => exact absurd rfl h1
      | cons r rs => simpa using h2
  have hnil : w.getPeers [] = some [] := rfl
  unfold Web.activeForks Web.forks
  rw [hq, hnil]
  simp only [hconn, Resp.after, this]

/-- the store of the examples with a peer that has left: 10.0.0.1 and 10.0.0.2 are leashed, nobody is connected -/
theorem C55_reports_the_absent : ∃ s, Reached Peers.Ex.lib s ∧ s.l.reg.connections = [] ∧
    (exWeb.activeForks Peers.Ex.lib Chains.Ex.env Chains.Ex.env s.l.reg Chains.Ex.l1.db "1".toList) =
      exWeb.forks Chains.Ex.env Chains.Ex.l1.db [] ∧
    ((match exWeb.forks Chains.Ex.env Chains.Ex.l1.db [] with
      | .ok fs => fs.map (fun f => (f.headBlock, f.peers))
      | _ => []) =
      [(Chains.Ex.bid 2, [Chains.Ex.ip 1]), (Chains.Ex.bid 4, [Chains.Ex.ip 2])]) := by
  refine ⟨Ex.start, Ex.reached_start, by decide +kernel, ?_, by decide +kernel⟩
  have hnone : Ex.start.l.reg.connections = [] := by decide +kernel
  refine C55_everyone (rps := [Chains.Ex.ip 1]) Ex.reached_start exWeb _ _ _ _ (by decide +kernel) ?_
  intro a c hm
  rw [hnone] at hm; cases hm

/-- Nothing is wrong with the report when a requested peer is connected: 10.0.0.2 and 10.0.0.3 are connected, 10.0.0.2 is asked for. -/
example : (match exWeb.activeForks Peers.Ex.lib Chains.Ex.env Chains.Ex.env (Ex.after Ex.joined).l.reg Chains.Ex.l1.db " 2,,1".toList with
      | .ok fs => fs.map (fun f => (f.headBlock, f.peers))
      | _ => []) = [(Chains.Ex.bid 4, [Chains.Ex.ip 2])] ∧
    exWeb.activeForks Peers.Ex.lib Chains.Ex.env Chains.Ex.env (Ex.after Ex.joined).l.reg Chains.Ex.l1.db "x".toList = .badRequest := by
  decide +kernel

/-! ### C56 -/

/-- Exactly the unparsable addresses are answered with 400 and exactly the peers without leash with 404. -/
theorem C56_refused {g : ProtoBlock} {l1 : Linkage} (h : Reachable g l1) (w : Web) (env : Env) (db2 : DB) (addr : List Char) :
    (w.fork env l1.db db2 addr = .badRequest ↔ w.parse addr = none) ∧
    (w.fork env l1.db db2 addr = .notFound ↔ ∃ a, w.parse addr = some a ∧ HasLeash l1.db a = .ok false) := by
  obtain ⟨ns, hs, R, _⟩ := Chains.reachable_rep h
  unfold Web.fork
  cases hp : w.parse addr with
  | none => simp
  | some a =>
    have hl : HasLeash l1.db a = .ok true ∨ HasLeash l1.db a = .ok false := by
      unfold HasLeash
      rcases R.getLeash_cases a with ⟨id, hid⟩ | hid
      · rw [hid]; exact Or.inl rfl
      · rw [hid]; exact Or.inr rfl
    rcases hl with hl | hl
    · dsimp only
      rw [hl]
      simp only [Resp.after, Bool.not_true, Bool.false_eq_true, if_false]
      cases ForkOf env db2 a with
      | ok f => simp only [Web.encode]; split <;> simp [hl]
      | error e => cases e <;> simp [hl]
    · dsimp only
      rw [hl]
      simp [Resp.after, hl]

/-- The fork given for a peer: its head is the block the peer is on, its peers are exactly the peers on that block, the head data are
those of that block, and the fork is compared with a best leashed block, being the longest itself only if the head is such a block.
`l2` is the store from which the fork is computed.  Missing: peers not on the list of leashes (`C56_zone`). -/
theorem C56_fork_partial {g : ProtoBlock} {l2 : Linkage} (h : Reachable g l2) (w : Web) (env : Env) (db1 : DB) (addr : List Char)
    {a : Addr} (ha : w.parse addr = some a) {ls : List Leash} (hls : Leashes l2.db = .ok ls) {id : BlockID}
    (hin : { addr := a, blockID := id } ∈ ls) {f : Fork} (hf : w.fork env db1 l2.db addr = .ok f) :
    f.headBlock = id ∧ LeashOf l2 a = .ok id ∧ (∀ p, p ∈ f.peers ↔ { addr := p, blockID := id } ∈ ls) ∧ f.peers.Nodup ∧
    f.peersCount = f.peers.length ∧
    ∃ r best, getBlockByID l2.db id = .ok r ∧ IsBest l2.db ls best ∧
      f.headTimestamp = r.timestamp ∧ f.headGenerator = r.generator ∧ f.headHeight = r.height ∧ f.score = r.score ∧
      (f.longest = true ↔ best = id) ∧
      (best = id → f.lastCommonBlock = id ∧ f.length = 0) ∧
      (best ≠ id → Chains.Spec.IsLCA l2.db best id f.lastCommonBlock ∧
        ∃ rc, getBlockByID l2.db f.lastCommonBlock = .ok rc ∧ f.length = (r.height.toNat : Int) - rc.height.toNat) := by
  unfold Web.fork at hf
  rw [ha] at hf
  simp only at hf
  obtain ⟨ok, hok, hf⟩ := Resp.after_ok hf
  split at hf
  · cases hf
  obtain ⟨f', hfork, hf⟩ := Resp.after_ok hf
  obtain ⟨rfl, _⟩ := Web.encode_ok hf
  obtain ⟨ns, hs, R, _⟩ := Chains.reachable_rep h
  obtain ⟨b, best, hB, hb, hst, hcase⟩ := R.ForkOf_ok hls hin hfork
  obtain ⟨hbid, hsid, r, hr, e1, e2, e3, e4⟩ := R.BlockOf_ok hb
  obtain ⟨ls', hls', hnd, hleash⟩ := R.leashes
  rw [show Chains.leashes l2.db = .ok ls from hls] at hls'; cases hls'
  have hpeers : f.peers = Chains.Spec.peersOn ls id ∧ f.headBlock = id ∧ f.peersCount = (Chains.Spec.peersOn ls id).length ∧
      f.headTimestamp = r.timestamp ∧ f.headGenerator = r.generator ∧ f.headHeight = r.height ∧ f.score = r.score := by
    rcases hcase with ⟨rfl, rfl⟩ | ⟨_, c, lb, _, _, rfl⟩ <;> simp [Chains.mkFork, hbid, e1, e2, e3, e4]
  obtain ⟨hp, hh, hpc, t1, t2, t3, t4⟩ := hpeers
  refine ⟨hh, ?_, ?_, ?_, by rw [hpc, hp], r, best, hr, hB, t1, t2, t3, t4, ?_⟩
  · have := ((hleash _ _).mp hin).2.2
    simp [LeashOf, this]
  · intro p
    rw [hp]
    unfold Chains.Spec.peersOn
    simp only [List.mem_map, List.mem_filter, decide_eq_true_eq]
    constructor
    · rintro ⟨⟨a', i'⟩, ⟨hm, rfl⟩, rfl⟩; exact hm
    · intro hm; exact ⟨_, ⟨hm, rfl⟩, rfl⟩
  · rw [hp]
    exact (List.Sublist.map _ List.filter_sublist).nodup hnd
  · rcases hcase with ⟨rfl, rfl⟩ | ⟨hne, c, lb, hc, hlb, rfl⟩
    · simp [Chains.mkFork, hbid]
    · refine ⟨⟨fun e => by simp [Chains.mkFork] at e, fun e => absurd e.symm hne⟩, fun e => absurd e.symm hne, fun _ => ⟨?_, lb, hlb, ?_⟩⟩
      · obtain ⟨n, hn⟩ := R.stored_iff.mp hst
        obtain ⟨m, hm⟩ := R.stored_iff.mp hsid
        obtain ⟨c', htc, hl, _, _, _, hpan, hans⟩ := C13_lca_exact h best id hst hsid _ _ ((R.heightOf hn).mpr rfl) ((R.heightOf hm).mpr rfl)
        by_cases hx : Chains.LcaPanics htc (min (Chains.ht ns n) (Chains.ht ns m) - htc - 1)
        · rw [hpan hx] at hc; cases hc
        · rw [hans hx] at hc; cases hc; exact hl
      · simp [e1]

/-- A peer with a leash gets an answer if every leashed block is readable, within the range of times that can be encoded, and comparable
with the peer's block.  The leash is looked up in an earlier store.  Missing: peers whose address has a zone, blocks from far in the
future, and far branches (`C56_zone`, `C56_year`, `C56_panics`). -/
theorem C56_answers_partial {g : ProtoBlock} {l0 : Linkage} (hf : Fresh g l0) (ops1 ops2 : List Op)
    (hb : inserts (ops1 ++ ops2) + 2 < 2 ^ 32) (w : Web) (env : Env) (addr : List Char) {a : Addr} (ha : w.parse addr = some a)
    (hpl : a = a.plain) (hones : ∀ z, a ≠ .v6 ⟨List.replicate 16 0xff, rfl⟩ z) (hl : HasLeash (exec l0 ops1).db a = .ok true)
    (hgood : ∀ ls p id, Leashes (exec l0 (ops1 ++ ops2)).db = .ok ls → { addr := p, blockID := id } ∈ ls →
      Readable (exec l0 (ops1 ++ ops2)).db id ∧
      (∀ r, getBlockByID (exec l0 (ops1 ++ ops2)).db id = .ok r → w.encodes r.timestamp.toNat = true) ∧
      ∀ i, LeashOf (exec l0 (ops1 ++ ops2)) a = .ok i → Close (exec l0 (ops1 ++ ops2)).db id i) :
    ∃ f, w.fork env (exec l0 ops1).db (exec l0 (ops1 ++ ops2)).db addr = .ok f := by
  have hk := hasLeash_kept hf ops1 ops2 hb a hl
  have hR : Reachable g (exec l0 (ops1 ++ ops2)) := ⟨l0, _, hf, hb, rfl⟩
  generalize hl2 : exec l0 (ops1 ++ ops2) = l2 at *
  obtain ⟨ls, hls, _, _, hlist⟩ := C08_leashes_partial hR
  obtain ⟨id, hid, hin⟩ := hlist a hpl (w.parse_valid _ _ ha) hones hk
  obtain ⟨f, hfork⟩ := C19_fork_answers hR env hls hin (fun q i hm => ⟨(hgood ls q i hls hm).1, (hgood ls q i hls hm).2.2 id hid⟩)
  refine ⟨f, ?_⟩
  unfold Web.fork
  rw [ha]
  simp only [hl, Resp.after, hfork, Bool.not_true, Bool.false_eq_true, if_false]
  apply Web.encode_all
  intro t ht
  rw [List.mem_singleton] at ht
  subst ht
  obtain ⟨ns, hs, R, _⟩ := Chains.reachable_rep hR
  obtain ⟨b, best, hB, hb, hst, hcase⟩ := R.ForkOf_ok hls hin hfork
  obtain ⟨hbid, hsid, r, hr, e1, e2, e3, e4⟩ := R.BlockOf_ok hb
  have : f.headTimestamp = r.timestamp := by
    rcases hcase with ⟨rfl, rfl⟩ | ⟨_, c, lb, _, _, rfl⟩ <;> simp [Chains.mkFork, e4]
  rw [this]
  exact (hgood ls a id hls hin).2.1 r hr

/-- Decimal numbers in the range of `int` are understood, with an optional sign. -/
theorem C56_number (n : Nat) (h : n < 2 ^ 63) :
    atoi n.repr.toList = some (n : Int) ∧ atoi ('+' :: n.repr.toList) = some (n : Int) ∧ atoi ('-' :: n.repr.toList) = some (-(n : Int)) := by
  have hd : decimal n.repr.toList = some n := by
    rw [Nat.toList_repr]
    have hne : Nat.toDigits 10 n ≠ [] := Nat.toDigits_ne_nil
    have hall : (Nat.toDigits 10 n).all Char.isDigit = true :=
      List.all_eq_true.mpr (fun c hc => Nat.isDigit_of_mem_toDigits (by decide) (by decide) hc)
    have hv : (Nat.toDigits 10 n).foldl (fun n c => n * 10 + (c.toNat - 48)) 0 = n := by
      have := Nat.ofDigitChars_ten_toDigits (n := n)
      rw [Nat.ofDigitChars_eq_foldl] at this
      have h48 : '0'.toNat = 48 := rfl
      rw [h48] at this
      simpa only [Nat.mul_comm] using this
    cases hl : Nat.toDigits 10 n with
    | nil => exact absurd hl hne
    | cons c cs =>
      rw [decimal, ← hl, if_pos hall, hv]
      intro e; cases e
  have hns : ∀ c cs, n.repr.toList = c :: cs → c ≠ '-' ∧ c ≠ '+' := by
    intro c cs e
    have hc : c.isDigit = true := Nat.isDigit_of_mem_toDigits (b := 10) (n := n) (by decide) (by decide)
      (by rw [← Nat.toList_repr, e]; simp)
    constructor <;> · rintro rfl; exact absurd hc (by decide)
  refine ⟨?_, ?_, ?_⟩
  · cases hl : n.repr.toList with
    | nil => rw [hl] at hd; cases hd
    | cons c cs =>
      obtain ⟨h1, h2⟩ := hns c cs hl
      rw [hl] at hd
      unfold atoi
      split
      · rename_i e; cases e; exact absurd rfl h1
      · rename_i e; cases e; exact absurd rfl h2
      · rw [hd]; simp [h]
  · simp only [atoi, hd]; simp [h]
  · simp only [atoi, hd]; simp [Nat.le_of_lt h]

/-- For `generators`: exactly unparsable addresses and numbers are answered with 400, and exactly peers without leash with 404. -/
theorem C56_generators_refused {g : ProtoBlock} {l1 : Linkage} (h : Reachable g l1) (w : Web) (env1 env2 : Env) (db2 db3 : DB)
    (addr count : List Char) :
    (w.forkGenerators env1 env2 l1.db db2 db3 addr count = .badRequest ↔ w.parse addr = none ∨ atoi count = none) ∧
    (w.forkGenerators env1 env2 l1.db db2 db3 addr count = .notFound ↔
      ∃ a c, w.parse addr = some a ∧ atoi count = some c ∧ HasLeash l1.db a = .ok false) := by
  obtain ⟨ns, hs, R, _⟩ := Chains.reachable_rep h
  unfold Web.forkGenerators
  cases hp : w.parse addr with
  | none => simp
  | some a =>
    dsimp only
    cases hc : atoi count with
    | none => simp
    | some c =>
      dsimp only
      have hl : HasLeash l1.db a = .ok true ∨ HasLeash l1.db a = .ok false := by
        unfold HasLeash
        rcases R.getLeash_cases a with ⟨id, hid⟩ | hid
        · rw [hid]; exact Or.inl rfl
        · rw [hid]; exact Or.inr rfl
      rcases hl with hl | hl
      · rw [hl]
        simp only [Resp.after, Bool.not_true, Bool.false_eq_true, if_false]
        cases ForkOf env1 db2 a with
        | ok f =>
          have hgen : ∀ (db : DB) (id : BlockID) (n : Int), w.generators env2 db id n ≠ .badRequest ∧ w.generators env2 db id n ≠ .notFound := by
            intro db id n
            have aft : ∀ {α : Type} (r : Go α) (k : α → Resp (List GeneratorStats)), (∀ a, k a ≠ .badRequest ∧ k a ≠ .notFound) →
                Resp.after r k ≠ .badRequest ∧ Resp.after r k ≠ .notFound := by
              intro α r k hk
              unfold Resp.after
              split
              · exact hk _
              · simp
              · simp
            unfold Web.generators
            split
            · exact aft _ _ (fun _ => by simp)
            · split <;> exact aft _ _ (fun _ => by simp)
          simp [(hgen db3 f.headBlock (blockCount c f)).1, (hgen db3 f.headBlock (blockCount c f)).2, hl]
        | error e => cases e <;> simp [hl]
      · rw [hl]
        simp [Resp.after, hl]

/-- The generators given for a peer are those of the last blocks of its chain: as many blocks as the request says, the whole fork if it
says 0, or 1000 if it says 0 and the fork is the longest one.  `l3` is the store from which the generators are computed. -/
theorem C56_generators {g : ProtoBlock} {l3 : Linkage} (h : Reachable g l3) (w : Web) (env1 env2 : Env) (db1 db2 : DB)
    (addr count : List Char) {gs : List GeneratorStats} (ho : w.forkGenerators env1 env2 db1 db2 l3.db addr count = .ok gs) :
    ∃ a c f, w.parse addr = some a ∧ atoi count = some c ∧ ForkOf env1 db2 a = .ok f ∧
      ∃ (n : Nat) (ids : List BlockID) (rs : List BlockRec),
        (c ≠ 0 → (n : Int) = c) ∧ (c = 0 → f.longest = true → n = 1000) ∧ (c = 0 → f.longest = false → (n : Int) = f.length) ∧
        LastIDs l3.db f.headBlock n = .ok ids ∧ ids.map (getBlockByID l3.db) = rs.map Except.ok ∧
        (gs.map (·.generator)).Nodup ∧
        (∀ a k, { generator := a, blocks := k } ∈ gs ↔ k = (rs.map (·.generator)).count a ∧ k ≠ 0) ∧
        gs.Pairwise (fun a b => b.blocks ≤ a.blocks) := by
  unfold Web.forkGenerators at ho
  cases hp : w.parse addr with
  | none => rw [hp] at ho; cases ho
  | some a =>
    rw [hp] at ho
    dsimp only at ho
    cases hc : atoi count with
    | none => rw [hc] at ho; cases ho
    | some c =>
      rw [hc] at ho
      dsimp only at ho
      obtain ⟨ok, hok, ho⟩ := Resp.after_ok ho
      split at ho
      · cases ho
      obtain ⟨f, hf, ho⟩ := Resp.after_ok ho
      refine ⟨a, c, f, rfl, rfl, hf, ?_⟩
      unfold Web.generators at ho
      split at ho
      · obtain ⟨_, _, e⟩ := Resp.after_ok ho; cases e
      split at ho
      · obtain ⟨_, _, e⟩ := Resp.after_ok ho; cases e
      obtain ⟨gs', hg, e⟩ := Resp.after_ok ho
      cases e
      obtain ⟨a1, a2, _⟩ := C21_answers h env2 f.headBlock (blockCount c f)
      have hst : Stored l3.db f.headBlock := by
        refine Classical.byContradiction (fun hn => ?_)
        rw [a1 hn] at hg; cases hg
      have hpos : 0 ≤ blockCount c f := by
        refine Int.not_lt.mp (fun hlt => ?_)
        rw [a2 hst hlt] at hg; cases hg
      obtain ⟨n, hn⟩ := Int.eq_ofNat_of_zero_le hpos
      rw [hn] at hg
      obtain ⟨ns, hs, R, _⟩ := Chains.reachable_rep h
      obtain ⟨k, hk⟩ := R.stored_iff.mp hst
      obtain ⟨ids, rs, h1, h2, h3, h4, h5, _⟩ := C21_generators h env2 f.headBlock n ((R.heightOf hk).mpr rfl) hg
      refine ⟨n, ids, rs, ?_, ?_, ?_, h1, h2, h3, h4, h5⟩
      · intro hc0; rw [← hn, blockCount, if_neg hc0]
      · intro hc0 hlong
        rw [blockCount, if_pos hc0, hlong, if_pos rfl] at hn
        omega
      · intro hc0 hlong
        rw [blockCount, if_pos hc0, hlong] at hn
        simpa using hn.symm

/-- A request for a negative number of blocks panics, and a request for a large number panics or ends the program, for every peer with a fork;
the fork is stored in the store from which the generators are computed. -/
theorem C56_bad_numbers {g : ProtoBlock} {l3 : Linkage} (h : Reachable g l3) (w : Web) (env1 env2 : Env) (db1 db2 : DB)
    (addr count : List Char) {a : Addr} {c : Int} {f : Fork} (ha : w.parse addr = some a) (hc : atoi count = some c)
    (hl : HasLeash db1 a = .ok true) (hf : ForkOf env1 db2 a = .ok f) (hst : Stored l3.db f.headBlock) :
    (c < 0 → w.forkGenerators env1 env2 db1 db2 l3.db addr count = .panicked) ∧
    (w.maxCap < c → w.forkGenerators env1 env2 db1 db2 l3.db addr count = .panicked) ∧
    (w.room < c → c ≤ w.maxCap → w.forkGenerators env1 env2 db1 db2 l3.db addr count = .died) := by
  obtain ⟨ns, hs, R, _⟩ := Chains.reachable_rep h
  obtain ⟨k, hk⟩ := R.stored_iff.mp hst
  have hnum : ∃ n, Chains.getNumOfBlockID l3.db f.headBlock = .ok n := ⟨_, by rw [R.getNum, hk]⟩
  obtain ⟨n, hnum⟩ := hnum
  have hcount : c ≠ 0 → blockCount c f = c := fun h0 => if_neg h0
  unfold Web.forkGenerators
  rw [ha]
  dsimp only
  rw [hc]
  simp only [hl, hf, Resp.after, Bool.not_true, Bool.false_eq_true, if_false]
  refine ⟨fun hneg => ?_, fun hbig => ?_, fun h1 h2 => ?_⟩
  · rw [hcount (by omega), Web.generators, if_neg (by omega), if_neg (by omega), (C21_answers h env2 f.headBlock c).2.1 hst hneg]
    rfl
  · rw [hcount (by omega), Web.generators, if_pos (by omega), hnum]
    rfl
  · rw [hcount (by omega), Web.generators, if_neg (by omega), if_pos (by omega), hnum]
    rfl

/-- Otherwise, if the peer's fork can be computed and all blocks of its chain can be read, the generators are given.  Missing: what is
listed at `C56_answers_partial`, and the numbers of `C56_bad_numbers`. -/
theorem C56_generators_answers_partial {g : ProtoBlock} {l3 : Linkage} (h : Reachable g l3) (w : Web) (env1 env2 : Env) (db1 db2 : DB)
    (addr count : List Char) {a : Addr} {c : Int} {f : Fork} (ha : w.parse addr = some a) (hc : atoi count = some c)
    (hl : HasLeash db1 a = .ok true) (hf : ForkOf env1 db2 a = .ok f) (hst : Stored l3.db f.headBlock)
    (hr : ∀ i, Anc l3.db i f.headBlock → Readable l3.db i) (hlen : c = 0 → 0 ≤ f.length ∧ f.length ≤ w.room)
    (hroom : 1000 ≤ w.room) (hcap : w.room ≤ w.maxCap) (h0 : 0 ≤ c) (h1 : c ≤ w.room) :
    ∃ gs, w.forkGenerators env1 env2 db1 db2 l3.db addr count = .ok gs := by
  have hb : 0 ≤ blockCount c f ∧ blockCount c f ≤ w.room := by
    unfold blockCount
    split
    · split
      · exact ⟨by omega, by omega⟩
      · rename_i e _; exact hlen e
    · exact ⟨h0, h1⟩
  obtain ⟨gs, hg⟩ := (C21_answers h env2 f.headBlock (blockCount c f)).2.2 hst hb.1 hr
  refine ⟨gs, ?_⟩
  unfold Web.forkGenerators
  rw [ha]
  dsimp only
  rw [hc]
  simp only [hl, hf, Resp.after, Bool.not_true, Bool.false_eq_true, if_false]
  rw [Web.generators, if_neg (by omega), if_neg (by omega), hg]
  rfl

/-- A block dated after the year 10000, once a listed peer is on it, makes every report that includes the peer fail with status 500: the
peer's own fork and the list of forks, among them the one for all peers.  (`PutBlock` does not look at the date.) -/
theorem C56_year {g : ProtoBlock} {l : Linkage} (h : Reachable g l) (w : Web) (env : Env) {ls : List Leash} (hls : Leashes l.db = .ok ls)
    {p : Addr} {id : BlockID} {r : BlockRec} (hin : { addr := p, blockID := id } ∈ ls) (hr : getBlockByID l.db id = .ok r)
    (hfar : 253402387200000 ≤ r.timestamp.toNat) :
    (∀ q rps, w.getPeers q = some rps → rps = [] ∨ p ∈ rps → (w.forks env l.db q).status = some 500) ∧
    ∀ addr db1, w.parse addr = some p → HasLeash db1 p = .ok true → (w.fork env db1 l.db addr).status = some 500 := by
  obtain ⟨ns, hs, R, _⟩ := Chains.reachable_rep h
  have hno := w.encodes_far _ hfar
  constructor
  · intro q rps hq hsel
    unfold Web.forks
    rw [hq]
    dsimp only
    cases hf : Forks env l.db rps with
    | error e => cases e <;> rfl
    | ok fs =>
      obtain ⟨f, hm, _, hh, _⟩ := C15_each_peer_once h env rps hf ls hls p id ⟨hin, hsel⟩
      have ht : f.headTimestamp = r.timestamp := by
        obtain ⟨f0, rest, rfl, _⟩ := C16_ranked h env rps hf
        obtain ⟨_, _, hall⟩ := C17_lengths h env rps hf
        obtain ⟨_, r', rc, hr', _, _, _, _, ht, _⟩ := hall f hm
        rw [hh, hr] at hr'; cases hr'; exact ht
      have : (forkTimes fs).all w.encodes = false := by
        rw [List.all_eq_false]
        refine ⟨f.headTimestamp.toNat, List.mem_map.mpr ⟨f, hm, rfl⟩, ?_⟩
        rw [ht, hno]; simp
      simp [Resp.after, Web.encode, this, Resp.status]
  · intro addr db1 ha hl
    unfold Web.fork
    rw [ha]
    simp only [hl, Resp.after, Bool.not_true, Bool.false_eq_true, if_false]
    cases hf : ForkOf env l.db p with
    | error e => cases e <;> rfl
    | ok f =>
      obtain ⟨b, best, hB, hb, hst, hcase⟩ := R.ForkOf_ok hls hin hf
      obtain ⟨hbid, hsid, r', hr', e1, e2, e3, e4⟩ := R.BlockOf_ok hb
      rw [hr] at hr'; cases hr'
      have ht : f.headTimestamp = r.timestamp := by
        rcases hcase with ⟨rfl, rfl⟩ | ⟨_, c, lb, _, _, rfl⟩ <;> simp [Chains.mkFork, e4]
      simp [Web.encode, ht, hno, Resp.status]

/-- the store of the examples after 10.0.0.9 sent a block dated in the year 11000 or so -/
def farStore : Linkage :=
  exec Chains.Ex.l0 (Chains.Ex.ops1 ++ [.putBlock { Chains.Ex.blk 6 2 with timestamp := 284990000000000 } (Chains.Ex.ip 9) .ok .ok])

/-- Witness: the block is accepted, and afterwards the list of all forks fails though it was answered before; the fork of 10.0.0.1 is still answered. -/
theorem C56_year_witness : Reachable Chains.Ex.g0 farStore ∧
    (exWeb.forks Chains.Ex.env Chains.Ex.l1.db []).status = some 200 ∧
    exWeb.forks Chains.Ex.env farStore.db [] = .failed ∧ exWeb.fork Chains.Ex.env farStore.db farStore.db ['9'] = .failed ∧
    (exWeb.fork Chains.Ex.env farStore.db farStore.db ['1']).status = some 200 :=
  ⟨⟨Chains.Ex.l0, _, Chains.Ex.fresh, by decide +kernel, rfl⟩, by decide +kernel, by decide +kernel, by decide +kernel, by decide +kernel⟩

/-- An address with a zone finds the leash of the address without zone, but not its fork: the request fails though the peer has a leash. -/
theorem C56_zone : ∃ l, Reachable Chains.Ex.g0 l ∧ exWeb.parse ['z'] = some (zoned "eth0") ∧
    HasLeash l.db (zoned "eth0") = .ok true ∧ LeashOf l (zoned "eth0") = .ok (Chains.Ex.bid 4) ∧
    exWeb.fork Chains.Ex.env l.db l.db ['z'] = .failed := by
  refine ⟨exec Chains.Ex.l0 (Chains.Ex.ops1 ++ [.moveLeash (Chains.Ex.bid 4) (zoned "") .ok]),
    ⟨Chains.Ex.l0, _, Chains.Ex.fresh, by decide +kernel, rfl⟩, by decide +kernel, by decide +kernel, by decide +kernel, by decide +kernel⟩

/-- Two long branches: every report that compares them panics. -/
theorem C56_panics : Reachable Chains.Ex.g0 (exec Chains.Ex.l0 twoBranches) ∧
    exWeb.fork Chains.Ex.env (exec Chains.Ex.l0 twoBranches).db (exec Chains.Ex.l0 twoBranches).db ['2'] = .panicked ∧
    exWeb.forks Chains.Ex.env (exec Chains.Ex.l0 twoBranches).db [] = .panicked :=
  ⟨⟨Chains.Ex.l0, _, Chains.Ex.fresh, by decide +kernel, rfl⟩, by decide +kernel, by decide +kernel⟩

/-- Cases in which all the hypotheses hold: the fork and the generators of 10.0.0.2, and requests with bad numbers. -/
example : (exWeb.fork Chains.Ex.env Chains.Ex.l1.db Chains.Ex.l1.db ['2']).status = some 200 ∧
    exWeb.fork Chains.Ex.env Chains.Ex.l1.db Chains.Ex.l1.db ['7'] = .notFound ∧
    exWeb.fork Chains.Ex.env Chains.Ex.l1.db Chains.Ex.l1.db "no".toList = .badRequest ∧
    (match exWeb.forkGenerators Chains.Ex.env Chains.Ex.env Chains.Ex.l1.db Chains.Ex.l1.db Chains.Ex.l1.db ['1'] "0".toList with
      | .ok gs => gs.map (fun x => (x.generator, x.blocks))
      | _ => []) = [(Chains.Ex.gen 2, 1), (Chains.Ex.gen 1, 1), (Chains.Ex.gen 0, 1)] ∧
    exWeb.forkGenerators Chains.Ex.env Chains.Ex.env Chains.Ex.l1.db Chains.Ex.l1.db Chains.Ex.l1.db ['1'] "-1".toList = .panicked ∧
    exWeb.forkGenerators Chains.Ex.env Chains.Ex.env Chains.Ex.l1.db Chains.Ex.l1.db Chains.Ex.l1.db ['1'] "9000000000".toList = .died ∧
    exWeb.forkGenerators Chains.Ex.env Chains.Ex.env Chains.Ex.l1.db Chains.Ex.l1.db Chains.Ex.l1.db ['1'] "9000000000000000000".toList = .panicked ∧
    exWeb.forkGenerators Chains.Ex.env Chains.Ex.env Chains.Ex.l1.db Chains.Ex.l1.db Chains.Ex.l1.db ['1'] "9300000000000000000".toList = .badRequest := by
  decide +kernel

-- a list of addresses, one piece of which is empty, and one that is refused; a number with a sign
example : joined [" 2".toList, [], "1".toList] = " 2,,1".toList ∧ exWeb.getPeers " 2,,1".toList = some [Chains.Ex.ip 2, Chains.Ex.ip 1] ∧
    exWeb.getPeers "2,no".toList = none := by decide +kernel
example : atoi "+100".toList = some 100 := (C56_number 100 (by decide)).2.1

end Verif.Props
