import Verif.Services.NetipLemmas
import Verif.Props.Json
import Verif.Props.Routes
import Verif.Props.Reports
/-
Property C123: an address that a report shows can be used in a request.
-/

set_option autoImplicit false

namespace Verif.Props

open Verif
open Verif.Chains (Addr BytesN BlockID Env Fork Leash Linkage ProtoBlock Leashes HasLeash LeashOf)
open Verif.Chains.Spec (Op Fresh Reachable exec inserts)
open Verif.Peers (Peer Registry Lib)
open Verif.Services
open Verif.Services.Routing
open Verif.Services.Json (Texts digits dotted Usual)
open Verif.Services.Netip

variable {t : Texts} {w : Web} {d : Dates}

/-- The text of an address without a zone, other than the zero address, is read as that address. -/
theorem C123_read_back (h6 : t.v6 = v6Text) {a : Addr} (ha : a.plain = a) (hz : a ≠ .zero) : parseAddr (chars (t.addr a)) = some a := by
  cases a with
  | zero => exact absurd rfl hz
  | v4 b => exact parse_dotted b
  | v6 b z =>
    cases ha
    show parseAddr (chars (t.v6 b "")) = _
    rw [h6]
    exact parse_v6Text b

/-- the texts of addresses in a request or a report, for examples: `v6` is as in the code, the rest does not matter -/
def netTexts : Texts := { exTexts with v6 := v6Text }

example : chars (netTexts.addr (.v6 ⟨[0x20, 0x01, 0x0d, 0xb8, 0, 0, 0, 0, 0, 1, 0, 0, 0, 0, 0, 1], rfl⟩ "")) = "2001:db8::1:0:0:1".toList ∧
    parseAddr "2001:db8::1:0:0:1".toList = some (.v6 ⟨[0x20, 0x01, 0x0d, 0xb8, 0, 0, 0, 0, 0, 1, 0, 0, 0, 0, 0, 1], rfl⟩ "") ∧
    chars (netTexts.addr (.v6 ⟨[0, 0, 0, 0, 0, 0, 0, 0, 0, 0, 0xff, 0xff, 10, 0, 0, 7], rfl⟩ "")) = "::ffff:10.0.0.7".toList ∧
    chars (netTexts.addr (.v6 ⟨[0, 1, 0, 0, 0, 3, 0, 0, 0, 5, 0, 6, 0, 7, 0, 8], rfl⟩ "")) = "1:0:3:0:5:6:7:8".toList := by decide +kernel

/-- The texts that `ParseAddr` refuses and accepts, some of each kind. -/
example : (["1.2.3", "1.2.3.4.5", "01.2.3.4", "1.2.3.256", "1..2.3", "1.2.3.4:80", "", "abc", "1:2:3:4:5:6:7", "1::2::3", "12345::",
      "1:2:3:4:5:6:7:8::", ":1", "1:", "%1", "::%", "[::1]"].map (fun s => parseAddr s.toList)).all (· == none) = true ∧
    parseAddr "0.0.0.0".toList = some (.v4 ⟨[0, 0, 0, 0], rfl⟩) ∧
    parseAddr "::1%eth0".toList = some (.v6 ⟨[0, 0, 0, 0, 0, 0, 0, 0, 0, 0, 0, 0, 0, 0, 0, 1], rfl⟩ "eth0") ∧
    parseAddr "FE80::a:1.2.3.4".toList = some (.v6 ⟨[0xfe, 0x80, 0, 0, 0, 0, 0, 0, 0, 0, 0, 10, 1, 2, 3, 4], rfl⟩ "") := by decide +kernel

/-- Two addresses without a zone have the same text only if they are the same, so a text that is shown means one peer. -/
theorem C123_one_peer (h6 : t.v6 = v6Text) {a b : Addr} (ha : a.plain = a) (hza : a ≠ .zero) (hb : b.plain = b) (hzb : b ≠ .zero)
    (h : t.addr a = t.addr b) : a = b := by
  have h1 := C123_read_back h6 ha hza
  rw [h, C123_read_back h6 hb hzb] at h1
  exact (Option.some.inj h1).symm

/-- Every address in the reports about forks and leashes is read as the address it stands for, whatever is stored. -/
theorem C123_reports (h6 : t.v6 = v6Text) (lib : Lib) (env env2 : Env) (reg : Registry) (db db2 : Chains.DB) (dbs : Nat → Chains.DB)
    (q : List Char) :
    (∀ fs, w.forks env db q = .ok fs → ∀ f, f ∈ fs → ∀ a, a ∈ f.peers → parseAddr (chars (t.addr a)) = some a) ∧
    (∀ fs, w.activeForks lib env env2 reg db q = .ok fs → ∀ f, f ∈ fs → ∀ a, a ∈ f.peers → parseAddr (chars (t.addr a)) = some a) ∧
    (∀ f, w.fork env db db2 q = .ok f → ∀ a, a ∈ f.peers → parseAddr (chars (t.addr a)) = some a) ∧
    ∀ ls, w.leashes env db dbs = .ok ls → ∀ l, l ∈ ls → ∀ a, a ∈ l.peers → parseAddr (chars (t.addr a)) = some a := by
  have rb : ∀ {a : Addr}, Usual a → parseAddr (chars (t.addr a)) = some a := fun h => C123_read_back h6 h.1 h.2
  exact ⟨fun fs h f hf a ha => rb ((Json.Web.forks_OK h f hf).2.1 a ha),
    fun fs h f hf a ha => rb ((Json.Web.activeForks_OK h f hf).2.1 a ha),
    fun f h a ha => rb ((Json.Web.fork_OK h).2.1 a ha),
    fun ls h l hl a ha => rb ((Json.Web.leashes_OK h l hl).2 a ha)⟩

/-- the characters of the text of an address -/
theorem addr_chars (h6 : t.v6 = v6Text) {a : Addr} (ha : a.plain = a) : ∀ c, c ∈ chars (t.addr a) → c ∈ "0123456789abcdef.:".toList := by
  cases a with
  | zero => intro c hc; cases hc
  | v4 b =>
    intro c hc
    have k : ∀ c, c ∈ "0123456789.".toList → c ∈ "0123456789abcdef.:".toList := by decide
    exact k c (dotted_chars b.1 c hc)
  | v6 b z =>
    cases ha
    intro c hc
    apply v6Text_chars b c
    rw [← h6]
    exact hc

theorem addr_ne (h6 : t.v6 = v6Text) {a : Addr} (ha : a.plain = a) (hz : a ≠ .zero) : chars (t.addr a) ≠ [] := by
  intro e
  have := C123_read_back h6 ha hz
  rw [e] at this
  cases this

theorem path_plain {p s : List Char} (hp : Plain p) (hs : ∀ c, c ∈ s → c ∈ "0123456789abcdef.:".toList) : Plain (p ++ s) := by
  have k : ∀ c, c ∈ "0123456789abcdef.:".toList → c ≠ '%' ∧ c ≠ '?' ∧ isCtl c = false := by decide
  refine ⟨?_, ?_, ?_⟩
  · intro h
    rcases List.mem_append.mp h with h | h
    · exact hp.1 h
    · exact (k _ (hs _ h)).1 rfl
  · intro h
    rcases List.mem_append.mp h with h | h
    · exact hp.2.1 h
    · exact (k _ (hs _ h)).2.1 rfl
  · intro c h
    rcases List.mem_append.mp h with h | h
    · exact hp.2.2 c h
    · exact (k _ (hs _ h)).2.2

/-- A peer that the report on leashes shows, with its address put into the path of a request for its fork as it was shown: the request
reaches the handler, it is not refused with 400 or 404 however the store has grown meanwhile, and an answer with status 200 is about the
block that this peer is on.  Missing: the addresses in the reports about peers (`C123_ports`). -/
theorem C123_fork_partial (h6 : t.v6 = v6Text) {g : ProtoBlock} {l0 : Linkage} (hf : Fresh g l0) (ops1 ops2 ops3 : List Op)
    (hb : inserts (ops1 ++ ops2 ++ ops3) + 2 < 2 ^ 32) (w0 : Web) (env : Env) {dbs : Nat → Chains.DB} (hd : Later l0 ops1 dbs)
    {r : List LeashInfo} (ho : w0.leashes env (exec l0 ops1).db dbs = .ok r) {x : LeashInfo} (hx : x ∈ r) {a : Addr} (ha : a ∈ x.peers)
    (v : View) (hw : v.w.parse = parseAddr) (hc : ∀ i, v.cond i = .good) (h0 : v.db 0 = (exec l0 (ops1 ++ ops2)).db)
    (h1 : v.db 1 = (exec l0 (ops1 ++ ops2 ++ ops3)).db) :
    ∃ resp : Resp Fork, v.serve "GET" ("/api/fork/".toList ++ chars (t.addr a)) = .report (resp.map .fork) ∧
      resp ≠ .badRequest ∧ resp ≠ .notFound ∧
      ∀ f, resp = .ok f → a ∈ f.peers ∧ LeashOf (exec l0 (ops1 ++ ops2 ++ ops3)) a = .ok f.headBlock := by
  obtain ⟨hpl, hz⟩ := (Json.Web.leashes_OK ho x hx).2 a ha
  have hb2 : inserts (ops1 ++ ops2) + 2 < 2 ^ 32 := by
    rw [Chains.inserts_append] at hb; omega
  have hb1 : inserts ops1 + 2 < 2 ^ 32 := by
    rw [Chains.inserts_append] at hb2; omega
  have hchars := addr_chars h6 hpl
  have hparse : v.w.parse (chars (t.addr a)) = some a := by rw [hw]; exact C123_read_back h6 hpl hz
  refine ⟨v.w.fork (v.env 1) (v.db 0) (v.db 1) (chars (t.addr a)), ?_, ?_, ?_, ?_⟩
  · rw [(C116_asked v (Asks.fork _ (addr_ne h6 hpl hz) (fun h => absurd (hchars _ h) (by decide)))
      (path_plain (p := "/api/fork/".toList) ⟨by decide, by decide, by decide⟩ hchars) (q := []) (by simp)).1]
    show Reply.report ((v.w.forkRd (v.cond 0) (v.cond 1) (v.env 1) (v.db 0) (v.db 1) (chars (t.addr a))).map .fork) = _
    rw [hc 0, hc 1, (C104_good v.w v.d v.lib (v.env 1) (v.env 1) (v.env 1) (v.env 1) (v.db 0) (v.db 1) (v.db 1) v.db (v.reg 0) (v.reg 0) (v.reg 0)
      (chars (t.addr a)) []).2.2.1]
  all_goals
    obtain ⟨ls, hls, _, _, hrows, _⟩ := C71_leashes hf ops1 hb1 dbs hd w0 env ho
    have hR1 : Reachable g (exec l0 ops1) := ⟨l0, _, hf, hb1, rfl⟩
    have hR2 : Reachable g (exec l0 (ops1 ++ ops2)) := ⟨l0, _, hf, hb2, rfl⟩
    have hR3 : Reachable g (exec l0 (ops1 ++ ops2 ++ ops3)) := ⟨l0, _, hf, hb, rfl⟩
    have hin := ((hrows x hx).1 a).mp ha
    obtain ⟨ls', hls', _, hhas, _⟩ := C08_leashes_partial hR1
    rw [hls] at hls'; cases hls'
    have hl1 := (hhas a x.blockID hin).1
    have hl2 := hasLeash_kept hf ops1 ops2 hb2 a hl1
  · intro e
    rw [h0] at e
    have := (C56_refused hR2 v.w (v.env 1) (v.db 1) (chars (t.addr a))).1.mp e
    rw [hparse] at this; cases this
  · intro e
    rw [h0] at e
    obtain ⟨b, hb', hn⟩ := (C56_refused hR2 v.w (v.env 1) (v.db 1) (chars (t.addr a))).2.mp e
    rw [hparse] at hb'; cases hb'
    rw [hl2] at hn; cases hn
  · intro f he
    rw [h1] at he
    have hl3 := hasLeash_kept hf (ops1 ++ ops2) ops3 hb a hl2
    have hL : ∀ z, a ≠ .v6 ⟨List.replicate 16 0xff, rfl⟩ z := by
      obtain ⟨ns, hs, R, _⟩ := Chains.reachable_rep hR1
      obtain ⟨ls', hls', _, hmem⟩ := R.leashes
      rw [show Chains.leashes (exec l0 ops1).db = .ok ls from hls] at hls'; cases hls'
      have := ((hmem a x.blockID).mp hin).1
      intro z e
      rw [e] at this
      exact this rfl
    obtain ⟨ls3, hls3, _, _, hlist⟩ := C08_leashes_partial hR3
    obtain ⟨id, hid, hin3⟩ := hlist a hpl.symm hz hL hl3
    obtain ⟨e1, _, e3, _⟩ := C56_fork_partial hR3 v.w (v.env 1) (v.db 0) _ hparse hls3 hin3 he
    exact ⟨(e3 a).mpr hin3, by rw [e1]; exact hid⟩

/-- the library of the code, for examples -/
def realWeb : Web := { exWeb with parse := parseAddr, parse_valid := fun _ _ h => parse_ne h }

/-- a server on the store with the positions of two peers -/
def realView : View := { exView with w := realWeb }

theorem peersLoop_texts (hw : w.parse = parseAddr) (hs : ∀ c, c ∈ "0123456789abcdef.:".toList → w.space c = false) (h6 : t.v6 = v6Text) :
    ∀ {as : List Addr}, (∀ a, a ∈ as → Usual a) → w.peersLoop (as.map (fun a => chars (t.addr a))) = some as
  | [], _ => rfl
  | a :: as, h => by
    obtain ⟨hp, hz⟩ := h a List.mem_cons_self
    have hc := addr_chars h6 hp
    have hne := addr_ne h6 hp hz
    have ht : w.trim (chars (t.addr a)) = chars (t.addr a) := by
      refine (bare_iff w.space _ _).mp ⟨[], [], by simp, by simp, by simp, ?_, ?_⟩
      · intro x hx; exact hs x (hc x (List.mem_of_mem_head? hx))
      · intro x hx; exact hs x (hc x (List.mem_of_mem_getLast? hx))
    rw [List.map_cons, Web.peersLoop, ht, if_neg hne, hw, C123_read_back h6 hp hz,
      peersLoop_texts hw hs h6 (fun b hb => h b (List.mem_cons_of_mem _ hb))]
    rfl

theorem joined_mem : ∀ {ps : List (List Char)} {c : Char}, c ∈ joined ps → c = ',' ∨ ∃ p, p ∈ ps ∧ c ∈ p
  | [], c, h => by cases h
  | [p], c, h => Or.inr ⟨p, by simp, h⟩
  | p :: q :: ps, c, h => by
    rw [joined] at h
    rcases List.mem_append.mp h with h | h
    · exact Or.inr ⟨p, by simp, h⟩
    · rcases List.mem_cons.mp h with h | h
      · exact Or.inl h
      · rcases joined_mem h with h | ⟨x, hx, h⟩
        · exact Or.inl h
        · exact Or.inr ⟨x, List.mem_cons_of_mem _ hx, h⟩

/-- Addresses that reports show, put into the query of a request for forks with commas between them, select exactly these peers. -/
theorem C123_query (h6 : t.v6 = v6Text) (v : View) (hw : v.w.parse = parseAddr)
    (hs : ∀ c, c ∈ "0123456789abcdef.:".toList → v.w.space c = false) (hc : ∀ i, v.cond i = .good) {as : List Addr} (hne : as ≠ [])
    (ha : ∀ a, a ∈ as → a.plain = a ∧ a ≠ .zero) :
    v.serve "GET" ("/api/forks?peers=".toList ++ joined (as.map (fun a => chars (t.addr a)))) =
      .report ((Resp.after (Chains.Forks (v.env 0) (v.db 0) as) (fun fs => v.w.encode fs (forkTimes fs))).map .forks) := by
  have hmem : ∀ c, c ∈ joined (as.map (fun a => chars (t.addr a))) → c ∈ ",0123456789abcdef.:".toList := by
    intro c h
    rcases joined_mem h with rfl | ⟨p, hp, h⟩
    · decide
    · obtain ⟨a, ha', rfl⟩ := List.mem_map.mp hp
      exact List.mem_cons_of_mem _ (addr_chars h6 (ha a ha').1 c h)
  generalize hj : joined (as.map (fun a => chars (t.addr a))) = q at hmem
  have k : ∀ c, c ∈ ",0123456789abcdef.:".toList → isCtl c = false ∧ c ∉ "&;%".toList ∧ c ≠ '+' := by decide
  have hq : ∀ c ∈ "peers=".toList ++ q, isCtl c = false := by
    intro c h
    rcases List.mem_append.mp h with h | h
    · have k : ∀ c, c ∈ "peers=".toList → isCtl c = false := by decide
      exact k c h
    · exact (k c (hmem c h)).1
  have hserve := (C116_asked v Asks.forks ⟨by decide, by decide, by decide⟩ hq).2
  rw [show "/api/forks?peers=".toList ++ q = "/api/forks".toList ++ '?' :: ("peers=".toList ++ q) from rfl, hserve]
  show Reply.report ((v.w.forksRd (v.cond 0) (v.env 0) (v.db 0) (queryGet "peers".toList ("peers=".toList ++ q))).map .forks) = _
  rw [C117_query_plain q (fun c h => (k c (hmem c h)).2.1), hc 0,
    (C104_good v.w v.d v.lib (v.env 0) (v.env 0) (v.env 0) (v.env 0) (v.db 0) (v.db 0) (v.db 0) v.db (v.reg 0) (v.reg 0) (v.reg 0) _ []).1]
  have hplus : q.map (fun c => if c = '+' then ' ' else c) = q := by
    conv => rhs; rw [← List.map_id q]
    apply List.map_congr_left
    intro c h
    rw [if_neg (k c (hmem c h)).2.2]; rfl
  rw [hplus]
  unfold Web.forks Web.getPeers
  rw [← hj, split_joined (by simpa using hne)]
  · rw [peersLoop_texts hw hs h6 ha]
  · intro p hp h
    obtain ⟨a, ha', rfl⟩ := List.mem_map.mp hp
    exact absurd (addr_chars h6 (ha a ha').1 _ h) (by decide)

/-- The addresses in the reports about peers are shown with a port, and with the port they are refused: for every peer that these reports
show, a request for its fork with the address as shown is answered with status 400. -/
theorem C123_ports {lib : Lib} {reg : Registry} (R : Peers.Reachable lib reg) (env : Env) (v : View) (hw : v.w.parse = parseAddr) :
    ∀ l, d.peers lib env reg = .ok l ∨ d.friendly lib env reg = .ok l ∨ d.connections lib env reg = .ok l → ∀ p, p ∈ l →
      v.serve "GET" ("/api/fork/".toList ++ chars (t.addrPort p.addr p.port)) = .report .badRequest := by
  intro l h p hp
  have ok : Json.PeerOK d p := by
    rcases h with h | h | h
    · exact Json.Dates.peers_OK R h p hp
    · exact Json.Dates.friendly_OK R h p hp
    · exact Json.Dates.connections_OK R h p hp
  obtain ⟨b, hb⟩ := Peers.is4_iff.mp ok.2.1
  rw [hb]
  show v.serve "GET" ("/api/fork/".toList ++ chars (dotted b.1 ++ 58 :: digits p.port.toNat)) = _
  have hch : ∀ c, c ∈ chars (dotted b.1 ++ 58 :: digits p.port.toNat) → c ∈ "0123456789abcdef.:".toList := by
    intro c hc
    rw [chars_append] at hc
    rcases List.mem_append.mp hc with h | h
    · have k : ∀ c, c ∈ "0123456789.".toList → c ∈ "0123456789abcdef.:".toList := by decide
      exact k c (dotted_chars b.1 c h)
    · rcases List.mem_cons.mp h with rfl | h
      · decide
      · obtain ⟨x, hx, rfl⟩ := List.mem_map.mp h
        exact Json.forall_byte (p := fun x => Json.isDig x = true → Char.ofNat x.toNat ∈ "0123456789abcdef.:".toList) (by decide +kernel) x
          (Json.digits_isDig _ x hx)
  rw [(C116_asked v (Asks.fork _ ?_ (fun h => absurd (hch _ h) (by decide)))
      (path_plain (p := "/api/fork/".toList) ⟨by decide, by decide, by decide⟩ hch) (q := []) (by simp)).1]
  · show Reply.report ((v.w.forkRd (v.cond 0) (v.cond 1) (v.env 1) (v.db 0) (v.db 1) (chars (dotted b.1 ++ 58 :: digits p.port.toNat))).map .fork) = _
    unfold Web.forkRd
    rw [hw, parse_port]
    rfl
  · intro e
    have := congrArg List.length e
    simp [chars] at this

/-- Of what the theorems about the text of the reports ask of the library, what concerns addresses holds. -/
theorem C123_lawful (h6 : t.v6 = v6Text)
    (milli_inj : ∀ m n, w.encodes m = true → w.encodes n = true → t.milli m = t.milli n → m = n)
    (milli_valid : ∀ m, Peers.validUTF8 (t.milli m) = true)
    (sec_inj : ∀ m n, d.encodes m = true → d.encodes n = true → t.sec m = t.sec n → m = n)
    (sec_valid : ∀ m, Peers.validUTF8 (t.sec m) = true) (version_clean : ∀ v, (t.version v).clean) : t.Lawful w d where
  v6_inj a b h := by
    have := C123_one_peer (t := t) h6 (a := .v6 a "") (b := .v6 b "") rfl (fun e => by cases e) rfl (fun e => by cases e) h
    cases this; rfl
  v6_colon a := by rw [h6]; exact v6Text_colon a
  v6_valid a z := by rw [h6]; exact ascii_valid (v6Text_ascii a z)
  milli_inj := milli_inj
  milli_valid := milli_valid
  sec_inj := sec_inj
  sec_valid := sec_valid
  version_clean := version_clean

/-- The rule about percent signs that C117 goes by is one that `ParseAddr` follows. -/
theorem C123_zone : RefusesBareZone parseAddr := fun _ _ h1 h2 => parseFrom_pct h1 h2

/-- The report on leashes of the example shows the addresses 10.0.0.1 and 10.0.0.2; each can be asked for, alone and together. -/
example : (match realWeb.leashes Chains.Ex.env Chains.Ex.l1.db (fun _ => Chains.Ex.l1.db) with
      | .ok ls => ls.flatMap (fun l => l.peers.map (fun a => chars (netTexts.addr a)))
      | _ => []) = ["10.0.0.1".toList, "10.0.0.2".toList] ∧
    replyStatus (realView.serve "GET" "/api/fork/10.0.0.1".toList) = some 200 ∧
    replyStatus (realView.serve "GET" "/api/fork/10.0.0.2".toList) = some 200 ∧
    replyStatus (realView.serve "GET" "/api/fork/10.0.0.3".toList) = some 404 ∧
    replyStatus (realView.serve "GET" "/api/forks?peers=10.0.0.1,10.0.0.2".toList) = some 200 ∧
    Later Chains.Ex.l0 Chains.Ex.ops1 (fun _ => Chains.Ex.l1.db) ∧ Fresh Chains.Ex.g0 Chains.Ex.l0 :=
  ⟨by decide +kernel, by decide +kernel, by decide +kernel, by decide +kernel, by decide +kernel,
    fun _ => ⟨[], by decide +kernel, by rw [List.append_nil]; rfl⟩, Chains.Ex.fresh⟩

/-- The reports about peers show the peer as 2.2.2.2:6868. -/
example : ∃ reg, Peers.Reachable Peers.Ex.lib reg ∧
    (match exDates.peers Peers.Ex.lib Chains.Ex.env reg with
      | .ok ps => ps.map (fun p => chars (netTexts.addrPort p.addr p.port))
      | _ => []) = ["1.1.1.1:6868".toList, "2.2.2.2:6868".toList] ∧
    replyStatus (realView.serve "GET" "/api/fork/2.2.2.2:6868".toList) = some 400 :=
  ⟨Peers.Ex.run [Peers.Ex.seeds], Peers.Ex.reach _, by decide +kernel, by decide +kernel⟩

end Verif.Props
