import Verif.Services.JsonReports
import Verif.Props.Config
import Verif.Props.Api
import Verif.Props.ReadsReports
/-
Property C122: the text of a report can be read back.
-/

set_option autoImplicit false

namespace Verif.Props

open Verif
open Verif.Chains (Addr BytesN BlockID Env Fork GeneratorStats)
open Verif.Peers (Registry Lib Peer Reachable validUTF8)
open Verif.Services
open Verif.Services.Json

variable {t : Texts} {w : Web} {d : Dates} {lib : Lib}

/-- a text is JSON in UTF-8 that a reader understands as `j`, with no name repeated in an object and only UTF-8 in its strings; it is
one line without control characters and without `<`, `>` and `&` -/
def Says (text : Bytes) (j : J) : Prop :=
  read text = some j ∧ validUTF8 text = true ∧ j.clean ∧
    ∃ line, text = line ++ [10] ∧ ∀ x, x ∈ line → 32 ≤ x ∧ x ≠ 60 ∧ x ≠ 62 ∧ x ≠ 38

private theorem says {j : J} (h : j.clean) : Says (body j) j := by
  refine ⟨read_body (utf8_of_clean j h), Peers.validUTF8_append _ (render_valid j) (by decide +kernel), h, render j, rfl, fun x hx => ?_⟩
  have := List.all_eq_true.mp (render_tame j) x hx
  exact forall_byte (p := fun x => tame x = true → 32 ≤ x ∧ x ≠ 60 ∧ x ≠ 62 ∧ x ≠ 38) (by decide +kernel) x this

/-- The text of every report about chains is read back as the report. -/
theorem C122_chains (T : t.Lawful w d) (fs : List Fork) (f : Fork) (hs : List HeadInfo) (ls : List LeashInfo) (gs : List GeneratorStats) :
    Says (body (array t.fork fs)) (array t.fork fs) ∧ Says (body (t.fork f)) (t.fork f) ∧ Says (body (array t.head hs)) (array t.head hs) ∧
    Says (body (array t.leash ls)) (array t.leash ls) ∧ Says (body (array generator gs)) (array generator gs) :=
  ⟨says (array_clean (fun f _ => fork_clean T f)), says (fork_clean T f), says (array_clean (fun h _ => head_clean T h)),
    says (array_clean (fun l _ => leash_clean T l)), says (array_clean (fun g _ => generator_clean g))⟩

/-- `ps` is what one of the three reports about peers gives -/
def Listed (d : Dates) (lib : Lib) (env : Env) (r : Registry) (ps : List Peer) : Prop :=
  d.peers lib env r = .ok ps ∨ d.friendly lib env r = .ok ps ∨ d.connections lib env r = .ok ps

private theorem Listed.ok {env : Env} {r : Registry} {ps : List Peer} (R : Reachable lib r) (h : Listed d lib env r ps) : ∀ p, p ∈ ps → PeerOK d p := by
  rcases h with h | h | h
  · exact Dates.peers_OK R h
  · exact Dates.friendly_OK R h
  · exact Dates.connections_OK R h

/-- Whatever names the peers have chosen, the text of a report about peers is read back as the report. -/
theorem C122_peers (T : t.Lawful w d) {env : Env} {r : Registry} {ps : List Peer} (R : Reachable lib r) (h : Listed d lib env r ps) :
    Says (body (array t.peer ps)) (array t.peer ps) :=
  says (array_clean (fun p hp => peer_clean T (h.ok R p hp).1))

/-- The status, too. -/
theorem C122_status {version : Bytes} (hv : validUTF8 version = true) (n : Nat) (s : Status) :
    Says (body (statusJ version n s)) (statusJ version n s) := says (status_clean hv n s)

/-- Any text at all that the encoder makes is one line of UTF-8 without `<`, `>`, `&`. -/
theorem C122_any (j : J) : validUTF8 (body j) = true ∧ ∃ line, body j = line ++ [10] ∧ ∀ x, x ∈ line → 32 ≤ x ∧ x ≠ 60 ∧ x ≠ 62 ∧ x ≠ 38 := by
  refine ⟨Peers.validUTF8_append _ (render_valid j) (by decide +kernel), render j, rfl, fun x hx => ?_⟩
  have := List.all_eq_true.mp (render_tame j) x hx
  exact forall_byte (p := fun x => tame x = true → 32 ≤ x ∧ x ≠ 60 ∧ x ≠ 62 ∧ x ≠ 38) (by decide +kernel) x this

private theorem list_toList : ∀ l : List J, (list l).toList = l
  | [] => rfl
  | j :: l => by rw [list, Js.toList, list_toList l]

/-- A report about peers has one element for every peer, in the order of the report, and each field of the peer is under its name. -/
theorem C122_peer_fields (t : Texts) (ps : List Peer) : (array t.peer ps).elems = some (ps.map t.peer) ∧
    ∀ p, (t.peer p).get "address" = some (.str (t.addrPort p.addr p.port)) ∧ (t.peer p).get "nonce" = some (.num p.nonce.toNat) ∧
      (t.peer p).get "name" = some (.str p.name) ∧ (t.peer p).get "version" = some (t.version p.version) ∧
      (t.peer p).get "state" = some (.num (match p.state with | .unknown => 0 | .connected => 1 | .hostile => 2)) ∧
      (t.peer p).get "next_attempt" = some (.str (t.sec p.nextAttempt)) ∧
      (t.peer p).get "score" = some (match p.score with | none => .null | some n => .num n) := by
  refine ⟨by unfold array J.elems; simp only [list_toList], fun p => ⟨?_, ?_, ?_, ?_, ?_, ?_, ?_⟩⟩
  · rfl
  · rfl
  · rfl
  · rfl
  · cases p with
    | mk a b c n v s x y z => cases s <;> rfl
  · rfl
  · cases p with
    | mk a b c n v s x y z => cases y <;> rfl

/-- The same for forks. -/
theorem C122_fork_fields (t : Texts) (f : Fork) (hp : f.peers ≠ []) :
    (t.fork f).get "longest" = some (.bool f.longest) ∧ (t.fork f).get "head_block" = some (.str (base58 f.headBlock.1)) ∧
    (t.fork f).get "head_timestamp" = some (.str (t.milli f.headTimestamp.toNat)) ∧
    (t.fork f).get "head_generator" = some (.str (base58 f.headGenerator.1)) ∧ (t.fork f).get "head_height" = some (.num f.headHeight.toNat) ∧
    (t.fork f).get "score" = some (.num f.score) ∧ (t.fork f).get "peers_count" = some (.num f.peersCount) ∧
    ((t.fork f).get "peers").bind J.elems = some (f.peers.map (fun a => .str (t.addr a))) ∧
    (t.fork f).get "last_common_block" = some (.str (base58 f.lastCommonBlock.1)) ∧ (t.fork f).get "length" = some (.num f.length) := by
  have he : f.peers.isEmpty = false := by cases hf : f.peers with | nil => exact absurd hf hp | cons _ _ => rfl
  refine ⟨rfl, rfl, ?_, rfl, rfl, ?_, rfl, ?_, rfl, rfl⟩
  · show some (J.str (if f.peers.isEmpty then never else t.milli f.headTimestamp.toNat)) = _
    rw [he]; rfl
  · show some (if f.peers.isEmpty then J.null else .num f.score) = _
    rw [he]; rfl
  · show J.elems (if f.peers.isEmpty then J.null else .arr (list (f.peers.map (fun a => .str (t.addr a))))) = _
    rw [he]
    show some (list _).toList = _
    rw [list_toList]

/-- Every fork of the reports that list forks has peers. -/
theorem C122_forks_have_peers {fs : List Fork}
    (hf : (∃ env db q, w.forks env db q = .ok fs) ∨ ∃ lib e1 e2 reg db q, w.activeForks lib e1 e2 reg db q = .ok fs) :
    ∀ f, f ∈ fs → f.peers ≠ [] := by
  have key : ∀ {env : Env} {db : Chains.DB} {ps : List Addr},
      Resp.after (Chains.Forks env db ps) (fun fs => w.encode fs (forkTimes fs)) = .ok fs → ∀ f, f ∈ fs → f.peers ≠ [] := by
    intro env db ps h
    obtain ⟨gs, hg, he⟩ := after_ok h
    obtain ⟨rfl, _⟩ := encode_ok he
    exact Forks_peers hg
  rcases hf with ⟨env, db, q, h⟩ | ⟨lib, e1, e2, reg, db, q, h⟩
  · unfold Web.forks at h
    split at h
    · cases h
    · exact key h
  · unfold Web.activeForks at h
    split at h
    · cases h
    · obtain ⟨_, _, h⟩ := after_ok h
      exact key h

/-- The text of the fork that the handler gives for a peer whose leash the iteration has missed (`C104_wrong`): the time is that of the
year 1, and the score and the peers are `null` instead of a number and a list. -/
theorem C122_missed (t : Texts) (f : Fork) (hp : f.peers = []) : (t.fork f).get "head_timestamp" = some (.str (ascii "0001-01-01T00:00:00Z")) ∧
    (t.fork f).get "score" = some .null ∧ (t.fork f).get "peers" = some .null := by
  refine ⟨?_, ?_, ?_⟩
  · show some (J.str (if f.peers.isEmpty then never else t.milli f.headTimestamp.toNat)) = _
    rw [hp]; rfl
  · show some (if f.peers.isEmpty then J.null else .num f.score) = _
    rw [hp]; rfl
  · show some (if f.peers.isEmpty then J.null else .arr (list (f.peers.map (fun a => .str (t.addr a))))) = _
    rw [hp]; rfl

/-- The same for heads, leashes, generators and the status. -/
theorem C122_other_fields (t : Texts) (h : HeadInfo) (l : LeashInfo) (g : GeneratorStats) (v : Bytes) (n : Nat) (s : Status) :
    ((t.head h).get "number" = some (.num h.number.toNat) ∧ (t.head h).get "id" = some (.str (base58 h.id.1)) ∧
      (t.head h).get "height" = some (.num h.height.toNat) ∧ (t.head h).get "score" = some (.num h.score) ∧
      (t.head h).get "timestamp" = some (.str (t.milli h.timestamp.toNat))) ∧
    ((t.leash l).get "block_id" = some (.str (base58 l.blockID.1)) ∧ (t.leash l).get "height" = some (.num l.height.toNat) ∧
      (t.leash l).get "score" = some (.num l.score) ∧ (t.leash l).get "timestamp" = some (.str (t.milli l.timestamp.toNat)) ∧
      (t.leash l).get "generator" = some (.str (base58 l.generator.1)) ∧ (t.leash l).get "peers_count" = some (.num l.peers.length) ∧
      ((t.leash l).get "peers").bind J.elems = some (l.peers.map (fun a => .str (t.addr a)))) ∧
    ((generator g).get "generator" = some (.str (base58 g.generator.1)) ∧ (generator g).get "blocks" = some (.num g.blocks)) ∧
    ((statusJ v n s).get "version" = some (.str v) ∧ (statusJ v n s).get "short_forks_count" = some (.num s.short) ∧
      (statusJ v n s).get "long_forks_count" = some (.num s.long) ∧ (statusJ v n s).get "all_peers_count" = some (.num s.all) ∧
      (statusJ v n s).get "friendly_peers_count" = some (.num s.friendly) ∧
      (statusJ v n s).get "connected_peers_count" = some (.num s.connected) ∧ (statusJ v n s).get "goroutines_count" = some (.num n)) := by
  refine ⟨⟨rfl, rfl, rfl, rfl, rfl⟩, ⟨rfl, rfl, rfl, rfl, rfl, rfl, ?_⟩, ⟨rfl, rfl⟩, ⟨rfl, rfl, rfl, rfl, rfl, rfl, rfl⟩⟩
  show some (list _).toList = _
  rw [list_toList]

/-- Two reports about forks with the same text are the same report: no information is lost. -/
theorem C122_forks_apart (T : t.Lawful w d) {fs gs : List Fork}
    (hf : (∃ env db q, w.forks env db q = .ok fs) ∨ ∃ lib e1 e2 reg db q, w.activeForks lib e1 e2 reg db q = .ok fs)
    (hg : (∃ env db q, w.forks env db q = .ok gs) ∨ ∃ lib e1 e2 reg db q, w.activeForks lib e1 e2 reg db q = .ok gs)
    (h : body (array t.fork fs) = body (array t.fork gs)) : fs = gs := by
  have ok : ∀ {fs : List Fork}, ((∃ env db q, w.forks env db q = .ok fs) ∨ ∃ lib e1 e2 reg db q, w.activeForks lib e1 e2 reg db q = .ok fs) →
      ∀ f, f ∈ fs → ForkOK w f := by
    rintro fs (⟨env, db, q, h⟩ | ⟨lib, e1, e2, reg, db, q, h⟩)
    · exact Web.forks_OK h
    · exact Web.activeForks_OK h
  have := body_inj (array_clean (fun f _ => fork_clean T f)) (array_clean (fun f _ => fork_clean T f)) h
  exact array_inj (fun a ha b hb e => fork_inj T (ok hf a ha) (ok hg b hb) e) this

/-- The same for the report about one fork, the heads, the leashes and the generators. -/
theorem C122_others_apart (T : t.Lawful w d) :
    (∀ env env' db1 db2 db1' db2' q q' f g, w.fork env db1 db2 q = .ok f → w.fork env' db1' db2' q' = .ok g →
      body (t.fork f) = body (t.fork g) → f = g) ∧
    (∀ db db' dbs dbs' f g, w.heads db dbs = .ok f → w.heads db' dbs' = .ok g → body (array t.head f) = body (array t.head g) → f = g) ∧
    (∀ env env' db db' dbs dbs' f g, w.leashes env db dbs = .ok f → w.leashes env' db' dbs' = .ok g →
      body (array t.leash f) = body (array t.leash g) → f = g) ∧
    (∀ f g : List GeneratorStats, body (array generator f) = body (array generator g) → f = g) := by
  refine ⟨?_, ?_, ?_, ?_⟩
  · intro env env' db1 db2 db1' db2' q q' f g hf hg h
    exact fork_inj T (Web.fork_OK hf) (Web.fork_OK hg) (body_inj (fork_clean T f) (fork_clean T g) h)
  · intro db db' dbs dbs' f g hf hg h
    exact array_inj (fun a ha b hb e => head_inj T (Web.heads_OK hf a ha) (Web.heads_OK hg b hb) e)
      (body_inj (array_clean (fun f _ => head_clean T f)) (array_clean (fun f _ => head_clean T f)) h)
  · intro env env' db db' dbs dbs' f g hf hg h
    exact array_inj (fun a ha b hb e => leash_inj T (Web.leashes_OK hf a ha) (Web.leashes_OK hg b hb) e)
      (body_inj (array_clean (fun f _ => leash_clean T f)) (array_clean (fun f _ => leash_clean T f)) h)
  · intro f g h
    exact array_inj (fun a _ b _ e => generator_inj e)
      (body_inj (array_clean (fun f _ => generator_clean f)) (array_clean (fun f _ => generator_clean f)) h)

/-- Two reports about peers with the same text list the same peers with the same fields, the version as far as its own text tells it. -/
theorem C122_peers_apart (T : t.Lawful w d) {env env' : Env} {r r' : Registry} {ps qs : List Peer} (R : Reachable lib r) (R' : Reachable lib r')
    (hp : Listed d lib env r ps) (hq : Listed d lib env' r' qs) (h : body (array t.peer ps) = body (array t.peer qs)) :
    ps.map (fun p => { p with version := .zero }) = qs.map (fun p => { p with version := .zero }) ∧
    ps.map (fun p => t.version p.version) = qs.map (fun p => t.version p.version) ∧
    ((∀ v v', t.version v = t.version v' → v = v') → ps = qs) := by
  have := body_inj (array_clean (fun p hm => peer_clean T (hp.ok R p hm).1)) (array_clean (fun p hm => peer_clean T (hq.ok R' p hm).1)) h
  have := list_inj (J.arr.inj this)
  have key : ∀ {ps qs : List Peer}, (∀ p, p ∈ ps → PeerOK d p) → (∀ p, p ∈ qs → PeerOK d p) → ps.map t.peer = qs.map t.peer →
      ps.map (fun p => { p with version := .zero }) = qs.map (fun p => { p with version := .zero }) ∧
      ps.map (fun p => t.version p.version) = qs.map (fun p => t.version p.version) ∧
      ((∀ v v', t.version v = t.version v' → v = v') → ps = qs) := by
    intro ps
    induction ps with
    | nil =>
      intro qs _ _ h
      cases qs with
      | nil => exact ⟨rfl, rfl, fun _ => rfl⟩
      | cons q qs => simp at h
    | cons p ps ih =>
      intro qs h1 h2 h
      cases qs with
      | nil => simp at h
      | cons q qs =>
        simp only [List.map_cons, List.cons.injEq] at h
        obtain ⟨i1, i2, i3⟩ := ih (fun x hx => h1 x (List.mem_cons_of_mem _ hx)) (fun x hx => h2 x (List.mem_cons_of_mem _ hx)) h.2
        obtain ⟨_, p4, pe, pc⟩ := h1 p List.mem_cons_self
        obtain ⟨_, q4, qe, qc⟩ := h2 q List.mem_cons_self
        obtain ⟨e1, e2⟩ := peer_inj T pe qe p4 q4 h.1
        have e3 : ({ p with version := .zero } : Peer) = { q with version := .zero } := by
          have : ({ p with version := .zero, conn := none } : Peer) = { p with version := .zero } := by rw [← pc]
          rw [← this, e2, ← qc]
        refine ⟨by rw [List.map_cons, List.map_cons, e3, i1], by rw [List.map_cons, List.map_cons, e1, i2], fun hv => ?_⟩
        rw [i3 hv]
        have : p = q := by
          have ev := hv _ _ e1
          cases p; cases q
          simp only [Peer.mk.injEq] at e3 ⊢
          obtain ⟨a1, a2, a3, a4, a5, a6, a7, a8, a9⟩ := e3
          exact ⟨a1, a2, a3, a4, ev, a6, a7, a8, a9⟩
        rw [this]
  exact key (hp.ok R) (hq.ok R') this

/-- Nothing to report is the empty list, and never `null`. -/
theorem C122_empty {α : Type} (f : α → J) : body (array f []) = ascii "[]\n" ∧ ∀ l, array f l ≠ .null := by
  refine ⟨rfl, fun l h => ?_⟩
  unfold array at h
  cases h

/-- Why the names in the records have to be UTF-8: of other names the encoder would make the same text. -/
theorem C122_other_names : validUTF8 [0xFF] = false ∧ validUTF8 [0xFE] = false ∧ quote [0xFF] = quote [0xFE] := by decide +kernel

/-! ### examples -/

/-- texts for the examples -/
def exTexts : Texts where
  v6 b _ := 58 :: dotted b.1
  milli := digits
  sec := number
  version v := .arr (list [.num v.major.toNat, .num v.minor.toNat, .num v.patch.toNat])

theorem exTexts_lawful : exTexts.Lawful exWeb exDates where
  v6_inj a b h := by
    have h : dotted a.1 ++ [] = dotted b.1 ++ [] := by rw [List.append_nil, List.append_nil]; exact (List.cons.inj h).2
    exact Subtype.ext (dotted_split (by rw [a.2, b.2]) noDig_nil noDig_nil h).1
  v6_colon a := List.mem_cons_self
  v6_valid a z := by
    show validUTF8 (58 :: dotted a.1) = true
    rw [valid_ascii (by decide)]; exact dotted_valid _
  milli_inj m n _ _ h := by
    have h : digits m = digits n := h
    rw [← decVal_digits m, h, decVal_digits]
  milli_valid m := digits_valid m
  sec_inj m n _ _ h := by
    have h : number m = number n := h
    have hs : Stop [] := fun b hb => by cases hb
    have h1 := readNum_number m hs
    rw [h, readNum_number n hs] at h1
    exact (Prod.mk.inj (Option.some.inj h1)).1.symm
  sec_valid m := number_valid m
  version_clean v := by
    show (J.arr (list _)).clean
    rw [J.clean]
    refine list_clean _ (fun j hj => ?_)
    simp only [List.mem_cons, List.not_mem_nil, or_false] at hj
    rcases hj with rfl | rfl | rfl <;> exact num_clean _

/-- a peer whose name tries to close the string and to give a score, with markup and a line break in it -/
def exRude : Peers.Conn := ⟨9, { Peers.Ex.hs 0 with nodeName := ascii "<b>\",\"score\":99,\"x\":\"\n" ++ [0xC3, 0xA4] }⟩

/-- the registry after it has connected -/
def exRudeReg : Registry :=
  Peers.Ex.run [Peers.Ex.at_ 0 (.suggest .ok (Peers.Ex.ip 2 2 2 2)), Peers.Ex.at_ 1 (.register .ok (Peers.Ex.ip 2 2 2 2) exRude exRude.handshake)]

/-- what a reader finds: whether the value of a member is that string -/
def saysStr (j : J) (k : String) (v : Bytes) : Bool := match j.get k with | some (.str n) => decide (n = v) | _ => false

/-- whether the value of a member is `null` -/
def saysNull (j : J) (k : String) : Bool := match j.get k with | some .null => true | _ => false

/-- The text of the report and what a reader gets from it: the name as it was, no score. -/
example : Reachable Peers.Ex.lib exRudeReg ∧
    (match exDates.peers Peers.Ex.lib Chains.Ex.env exRudeReg with
      | .ok ps =>
        decide (body (array exTexts.peer ps) =
          ascii "[{\"address\":\"2.2.2.2:0\",\"nonce\":7,\"name\":\"\\u003cb\\u003e\\\",\\\"score\\\":99,\\\"x\\\":\\\"\\n" ++ [0xC3, 0xA4] ++
          ascii "\",\"version\":[1,5,0],\"state\":1,\"next_attempt\":\"1\",\"score\":null}]\n") &&
        (match read (body (array exTexts.peer ps)) with
          | some (.arr (.cons j .nil)) => saysStr j "name" exRude.handshake.nodeName && saysNull j "score"
          | _ => false)
      | _ => false) = true := ⟨Peers.Ex.reach _, by decide +kernel⟩

/-- the fork of a peer whose leash was missed, on the store of `C104_wrong` -/
example : (match exWeb.forkRd .good (.opened nothing) Chains.Ex.env twoForks.db twoForks.db ['1'] with
      | .ok f => decide (body (exTexts.fork f) = ascii "{\"longest\":true,\"head_block\":\"" ++ List.replicate 64 49 ++
          ascii "\",\"head_timestamp\":\"0001-01-01T00:00:00Z\",\"head_generator\":\"" ++ List.replicate 26 49 ++
          ascii "\",\"head_height\":0,\"score\":null,\"peers_count\":0,\"peers\":null,\"last_common_block\":\"" ++
          List.replicate 64 49 ++ ascii "\",\"length\":0}\n")
      | _ => false) = true := by decide +kernel

/-- base58 of known values, an address with its port, and a text with white space as other programs write it -/
example : base58 (ascii "Hello World!") = ascii "2NEpo7TZRRrLZSi2U" ∧ base58 [0, 0, 0x28, 0x7f, 0xb4, 0xcd] = ascii "11233QC4" ∧ base58 [] = [] ∧
    exTexts.addrPort (Peers.Ex.ip 10 0 0 255) 6868 = ascii "10.0.0.255:6868" ∧ number (-1204) = ascii "-1204" ∧
    (read (ascii " { \"a\" : [ 1 , -20 ] , \"b\\u0041\" : null } ")).map render = some (ascii "{\"a\":[1,-20],\"bA\":null}") ∧
    (read (ascii "[1,]")).map render = none ∧ (read (ascii "{\"a\":01}")).map render = none := by
  decide +kernel

end Verif.Props
