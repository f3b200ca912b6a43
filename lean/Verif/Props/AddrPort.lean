import Verif.Services.AddrPortLemmas
import Verif.Props.Params
/-
Property C128: addresses mean the same after every detour through text.
-/

set_option autoImplicit false

namespace Verif.Props

open Verif
open Verif.Chains (Addr BytesN)
open Verif.Peers (AddrPort Peer Registry)
open Verif.Services
open Verif.Services.Json (digits dotted)
open Verif.Services.Netip

/-- The address of a connection is read from its text as it is: an IPv4 address, be it of four bytes or written as an IPv6 address, as the
IPv4 address, and any other as the IPv6 address with its zone. -/
theorem C128_connection (p : UInt16) :
    (∀ b : BytesN 4, parseAddrPort (tcpText ⟨b.1, "", p⟩) = some ⟨.v4 b, p⟩) ∧
    (∀ b : BytesN 4, parseAddrPort (tcpText ⟨List.replicate 10 0 ++ ([0xFF, 0xFF] ++ b.1), "", p⟩) = some ⟨.v4 b, p⟩) ∧
    (∀ (b : BytesN 16) (z : String), b.1.take 12 ≠ List.replicate 10 0 ++ [0xFF, 0xFF] →
      parseAddrPort (tcpText ⟨b.1, z, p⟩) = some ⟨.v6 b z, p⟩) := by
  refine ⟨fun b => ?_, fun b => ?_, fun b z h => ?_⟩
  · rw [tcpText_v4]; exact parse_v4Port b p
  · have := tcpText_in6 (mapped_length b) (mapped_in6 b) p
    rw [mapped_drop] at this
    show parseAddrPort (tcpText ⟨mapped b, "", p⟩) = _
    rw [this]
    exact parse_v4Port b p
  · rw [tcpText_v6 b (decide_eq_false h)]
    exact parse_v6Port b z p

/-- The texts of three connections. -/
example : tcpText ⟨[10, 0, 0, 7], "", 6868⟩ = "10.0.0.7:6868".toList ∧
    tcpText ⟨[0, 0, 0, 0, 0, 0, 0, 0, 0, 0, 0xff, 0xff, 10, 0, 0, 7], "", 6868⟩ = "10.0.0.7:6868".toList ∧
    tcpText ⟨[0xfe, 0x80, 0, 0, 0, 0, 0, 0, 0, 0, 0, 0, 0, 0, 0, 1], "eth0", 80⟩ = "[fe80::1%eth0]:80".toList ∧
    parseAddrPort "[fe80::1%eth0]:80".toList =
      some ⟨.v6 ⟨[0xfe, 0x80, 0, 0, 0, 0, 0, 0, 0, 0, 0, 0, 0, 0, 0, 1], rfl⟩ "eth0", 80⟩ := by decide +kernel

/-- Two connections with the same text have the same port, and addresses that stand for the same peer; without zones. -/
theorem C128_one_text {b c : BytesN 4} {p q : UInt16} (h : tcpText ⟨b.1, "", p⟩ = tcpText ⟨c.1, "", q⟩) : b = c ∧ p = q := by
  have h1 := (C128_connection p).1 b
  rw [h, (C128_connection q).1 c] at h1
  cases h1
  exact ⟨rfl, rfl⟩

example : ∃ b c : BytesN 4, b ≠ c ∧ tcpText ⟨b.1, "", 11⟩ = "1.2.3.41:11".toList ∧ tcpText ⟨c.1, "", 111⟩ = "1.2.3.4:111".toList :=
  ⟨⟨[1, 2, 3, 41], rfl⟩, ⟨[1, 2, 3, 4], rfl⟩, by decide, by decide +kernel, by decide +kernel⟩

/-- A seed of the command line comes into the registry as `seedOf` says: as it was given, except that an IPv6 address that stands for an
IPv4 address becomes that address, or is dropped if it has a zone. -/
theorem C128_seed (ap : AddrPort) : parseAddrPort (tcpText (tcpOf ap)) = seedOf ap := by
  obtain ⟨a, p⟩ := ap
  cases a with
  | zero =>
    show parseAddrPort (tcpText ⟨[], "", p⟩) = none
    have : tcpText ⟨[], "", p⟩ = [] ++ ':' :: portText p := rfl
    rw [this]
    unfold parseAddrPort
    rw [splitLast_append [] (portText_colon p)]
    rfl
  | v4 b => exact (C128_connection p).1 b
  | v6 b z =>
    show parseAddrPort (tcpText ⟨b.1, z, p⟩) = _
    by_cases h6 : in6 b.1 = true
    · have h4 := (in6_as4 b z).1 h6
      simp only [seedOf]
      rw [h4]
      by_cases hz : z = ""
      · subst hz
        simp only [↓reduceIte]
        rw [tcpText_in6 b.2 h6]
        exact parse_v4Port ⟨b.1.drop 12, by simp [b.2]⟩ p
      · simp only [if_neg hz]
        have hne : b.1 ≠ [] := fun e => by have h := b.2; rw [e] at h; simp at h
        have hbad := parse_dotted_bad ⟨b.1.drop 12, by simp [b.2]⟩ (x := '%') (by decide) (r := '%' :: z.toList) (by simp)
        unfold tcpText joinHostPort
        simp only [if_neg hne, if_neg hz, ipText_in6 b.2 h6]
        split
        · rw [parseAddrPort_brackets]
          unfold parseHost
          rw [parsePort_text, hbad]
        · have hd := dotted_first ⟨b.1.drop 12, by simp [b.2]⟩
          rw [parseAddrPort_plain]
          · unfold parseHost
            rw [parsePort_text, hbad]
          · simp
          · cases hc : chars (dotted (b.1.drop 12)) with
            | nil => exact absurd hc hd.1
            | cons c t =>
              have := hd.2
              simp only [hc] at this
              simpa using this
    · have h6 : in6 b.1 = false := by simpa using h6
      obtain ⟨e, he⟩ := (in6_as4 b z).2 h6
      simp only [seedOf]
      rw [he]
      rw [tcpText_v6 b h6]
      exact parse_v6Port b z p

/-- The two special cases: a seed that stands for an IPv4 address, without and with a zone. -/
example : seedOf ⟨.v6 ⟨[0, 0, 0, 0, 0, 0, 0, 0, 0, 0, 0xff, 0xff, 10, 0, 0, 7], rfl⟩ "", 6868⟩ = some ⟨.v4 ⟨[10, 0, 0, 7], rfl⟩, 6868⟩ ∧
    seedOf ⟨.v6 ⟨[0, 0, 0, 0, 0, 0, 0, 0, 0, 0, 0xff, 0xff, 10, 0, 0, 7], rfl⟩ "a", 6868⟩ = none := by decide +kernel

/-- Every address with a port, other than of the zero address, is read from its own text as it is, and whatever is read is not the zero
address. -/
theorem C128_print : (∀ ap : AddrPort, ap.addr ≠ .zero → parseAddrPort (apText ap) = some ap) ∧
    (∀ (s : List Char) (ap : AddrPort), parseAddrPort s = some ap → ap.addr ≠ .zero ∧ parseAddrPort (apText ap) = some ap) :=
  ⟨fun _ h => parse_apText h, fun _ _ h => ⟨parseAddrPort_ne h, parse_apText (parseAddrPort_ne h)⟩⟩

/-- What is refused and what is accepted, some of each kind. -/
example : (["", ":", "1.2.3.4", "1.2.3.4:", ":80", "1.2.3.4:65536", "1.2.3.4:+1", "1.2.3.4:a", "[1.2.3.4]:80", "::1:80", "[::1:80", "[::1]80",
      "[]:80", "host:80", "[::1]]:80"].map (fun s => parseAddrPort s.toList)).all (· == none) = true ∧
    parseAddrPort "1.2.3.4:0080".toList = some ⟨.v4 ⟨[1, 2, 3, 4], rfl⟩, 80⟩ ∧
    parseAddrPort "[::1]:65535".toList = some ⟨.v6 ⟨[0, 0, 0, 0, 0, 0, 0, 0, 0, 0, 0, 0, 0, 0, 0, 1], rfl⟩ "", 65535⟩ ∧
    apText ⟨.v6 ⟨[0, 0, 0, 0, 0, 0, 0, 0, 0, 0, 0, 0, 0, 0, 0, 1], rfl⟩ "", 65535⟩ = "[::1]:65535".toList := by decide +kernel

/-- the library functions used on the parameters, with the functions of net/netip as they are -/
def realOpts (o : Opts) : Opts :=
  { o with parse := parseAddrPort, print := apText, parse_valid := fun s ap h => (C128_print.2 s ap h).1,
           parse_print := fun s ap h => (C128_print.2 s ap h).2 }

/-- The bind addresses are used as they were given: with the functions of net/netip as they are, the address for peers is the IPv4 address
that the flag stands for, and the text for the API is read as the one of its flag. -/
theorem C128_bind {o : Opts} {f : Flags} {p : Params} (h : (realOpts o).newParameters f = .ok p) :
    (∃ ap b, parseAddrPort f.net = some ap ∧ Fits ap.addr b ∧ p.net = some (b, ap.port)) ∧
    (∃ ap, parseAddrPort f.api = some ap ∧ parseAddrPort p.api = some ap) ∧
    (∀ ip port, p.declared = some (ip, port) → ∃ ap, parseAddrPort f.declared = some ap ∧ Fits ap.addr ip ∧ port = ap.port) := by
  have hcb : ∀ {s r : List Char}, (realOpts o).checkBind s = .ok r → ∃ ap, parseAddrPort s = some ap ∧ r = apText ap := by
    intro s r hr
    unfold Opts.checkBind at hr
    split at hr
    · cases hr
    · split at hr
      · cases hr
      · next ap hap => cases hr; exact ⟨ap, hap, rfl⟩
  have hpa : ∀ {s : List Char} {t : TCPAddr}, (realOpts o).parseAddress s = .ok t →
      (parseAddrPort s = none ∧ t = none) ∨ ∃ ap b, parseAddrPort s = some ap ∧ Fits ap.addr b ∧ t = some (b, ap.port) := by
    intro s t ht
    unfold Opts.parseAddress at ht
    split at ht
    · next hn => cases ht; exact Or.inl ⟨hn, rfl⟩
    · next ap hap =>
      obtain ⟨b, hb, ht⟩ := go_bind_eq_ok.mp ht
      cases ht
      exact Or.inr ⟨ap, b, hap, as4_fits.mp hb, rfl⟩
  unfold Opts.newParameters at h
  split at h
  · cases h
  · split at h
    · cases h
    · obtain ⟨_, _, h⟩ := go_bind_eq_ok.mp h
      obtain ⟨_, _, h⟩ := go_bind_eq_ok.mp h
      obtain ⟨aa, ha, h⟩ := go_bind_eq_ok.mp h
      obtain ⟨na, hn, h⟩ := go_bind_eq_ok.mp h
      obtain ⟨_, _, h⟩ := go_bind_eq_ok.mp h
      obtain ⟨net, hnet, h⟩ := go_bind_eq_ok.mp h
      obtain ⟨d, hd, h⟩ := go_bind_eq_ok.mp h
      cases h
      obtain ⟨x, hx, rfl⟩ := hcb ha
      obtain ⟨y, hy, rfl⟩ := hcb hn
      refine ⟨?_, ⟨x, hx, (C128_print.2 _ _ hx).2⟩, ?_⟩
      · rcases hpa hnet with ⟨hnone, _⟩ | ⟨ap, b, h1, h2, h3⟩
        · rw [(C128_print.2 _ _ hy).2] at hnone; cases hnone
        · rw [(C128_print.2 _ _ hy).2] at h1; cases h1
          exact ⟨y, b, hy, h2, h3⟩
      · intro ip port he
        rcases hpa hd with ⟨_, hnone⟩ | ⟨ap, b, h1, h2, h3⟩
        · rw [hnone] at he; cases he
        · rw [h3] at he; cases he
          exact ⟨ap, h1, h2, rfl⟩

/-- the command line of an example -/
def netFlags : Flags :=
  { exFlags with peers := " [::ffff:1.2.3.4]:6868, ".toList, api := "[::1]:8080".toList, net := "0.0.0.0:6868".toList,
                 declared := "[::ffff:10.0.0.7]:6863".toList }

/-- It is accepted, the addresses are those of the flags, and the text for the API is the given one. -/
example : (match (realOpts exOpts).newParameters netFlags with
    | .ok p => (p.net.map (fun x => (x.1.1, x.2)), p.declared.map (fun x => (x.1.1, x.2)), p.api, p.seeds.length)
    | .error _ => (none, none, [], 0)) =
    (some ([0, 0, 0, 0], 6868), some ([10, 0, 0, 7], 6863), "[::1]:8080".toList, 2) := by decide +kernel

/-- Our own declared address in the registry is the one that the text of the declared address stands for. -/
theorem C128_declared (o : Opts) (p : Params) {ip : BytesN 4} {port : UInt16} (h : p.declared = some (ip, port))
    (he : o.emptyIP ip = false) :
    (parseAddrPort (tcpText ⟨ip.1, "", port⟩)).map (fun ap => ap.addr) = some (o.declaredAddr p) ∧
    (parseAddrPort (tcpText ⟨List.replicate 10 0 ++ ([0xFF, 0xFF] ++ ip.1), "", port⟩)).map (fun ap => ap.addr) =
      some (o.declaredAddr p) := by
  rw [(C128_connection port).1 ip, (C128_connection port).2.1 ip]
  simp [Opts.declaredAddr, h, he]

example : ∃ p, (realOpts exOpts).newParameters netFlags = .ok p ∧ ∃ ip port, p.declared = some (ip, port) ∧ exOpts.emptyIP ip = false := by
  have h : (match (realOpts exOpts).newParameters netFlags with
    | .ok p => (match p.declared with | some (ip, _) => !exOpts.emptyIP ip | none => false)
    | .error _ => false) = true := by decide +kernel
  cases hp : (realOpts exOpts).newParameters netFlags with
  | error e => rw [hp] at h; cases h
  | ok p =>
    rw [hp] at h
    cases hd : p.declared with
    | none => simp only [hd] at h; cases h
    | some x =>
      simp only [hd] at h
      exact ⟨p, rfl, x.1, x.2, hd, by simpa using h⟩

/-- The addresses that are told to other peers are those on record: the text of the address of a peer with an IPv4 address is read as its
address and port. -/
theorem C128_peer (p : Peer) {b : BytesN 4} (h : p.addr = .v4 b) :
    ∃ t, peerTCP p = .ok t ∧ Peers.tcpAddr p = .ok (b, t.port) ∧ t.ip.drop 12 = b.1 ∧
      parseAddrPort (tcpText t) = some ⟨p.addr, p.port⟩ := by
  refine ⟨⟨mapped b, "", p.port⟩, ?_, ?_, mapped_drop b, ?_⟩
  · unfold peerTCP; rw [h]; rfl
  · unfold Peers.tcpAddr; rw [h]; rfl
  · rw [h]; exact (C128_connection p.port).2.1 b

example : tcpText ⟨mapped ⟨[1, 2, 3, 4], rfl⟩, "", 6868⟩ = "1.2.3.4:6868".toList := by decide +kernel

/-- Every address that the registry gives out to be dialled is dialled: through its text it comes to the dialler with the same IP and port,
and the version for the connection is asked for with the same address. -/
theorem C128_dial {lib : Peers.Lib} {r r' : Registry} (R : Peers.Reachable lib r) {now : Int} {l : List AddrPort}
    (h : Peers.TakeAvailableAddresses now r = (r', .ok l)) {ap : AddrPort} (hm : ap ∈ l) :
    ∃ b : BytesN 4, ap.addr = .v4 b ∧ newTCPAddr (apText ap) = some (List.replicate 10 0 ++ ([0xFF, 0xFF] ++ b.1), ap.port) ∧
      parseAddrPort (tcpText ⟨List.replicate 10 0 ++ ([0xFF, 0xFF] ++ b.1), "", ap.port⟩) = some ap := by
  obtain ⟨l', _, e, hl, _⟩ := R.inv.take now
  rw [e] at h
  cases h
  obtain ⟨b, v, _, _, _, rfl⟩ := (hl ap).mp hm
  refine ⟨b, rfl, ?_, (C128_connection v.port).2.1 b⟩
  have hno : ∀ c, c ∉ "0123456789.".toList → (chars (dotted b.1)).contains c = false := by
    intro c hc
    cases hq : (chars (dotted b.1)).contains c with
    | false => rfl
    | true => exact absurd (dotted_chars b.1 c (List.contains_iff_mem.mp hq)) hc
  show newTCPAddr (chars (dotted b.1) ++ ':' :: portText v.port) = _
  unfold newTCPAddr
  rw [splitLast_append _ (portText_colon v.port)]
  simp only [hno ':' (by decide), hno '[' (by decide), hno ']' (by decide), parse_dotted, parsePort_text]
  rfl

/-- A registry with an address to dial. -/
example : Peers.Reachable Peers.Ex.lib (Peers.Ex.run [Peers.Ex.seeds]) ∧
    (Peers.TakeAvailableAddresses (100 * Peers.second) (Peers.Ex.run [Peers.Ex.seeds])).2 =
      .ok [⟨Peers.Ex.ip 1 1 1 1, 6868⟩, ⟨Peers.Ex.ip 2 2 2 2, 6868⟩] ∧
    newTCPAddr "1.1.1.1:6868".toList = some ([0, 0, 0, 0, 0, 0, 0, 0, 0, 0, 0xff, 0xff, 1, 1, 1, 1], 6868) :=
  ⟨Peers.Ex.reach _, by decide +kernel, by decide +kernel⟩

/-- `MarkAsHostile` (called nowhere) does not work: the text of a TCP address, with an IP of four or sixteen bytes and any zone, is never read
as an address without a port, so that nothing is changed and an error is returned. -/
theorem C128_hostile (f : KV.Fate) (r : Registry) (t : TCP) (h : t.ip.length = 4 ∨ t.ip.length = 16) :
    ∃ e, Peers.MarkAsHostile f r (parseAddr (tcpText t)) = (r, .error e) := by
  rw [parse_tcpText h]
  exact ⟨_, rfl⟩

/-- The text of an address with a port and without one. -/
example : parseAddr (tcpText ⟨[1, 2, 3, 4], "", 6868⟩) = none ∧ parseAddr "1.2.3.4".toList = some (.v4 ⟨[1, 2, 3, 4], rfl⟩) := by
  decide +kernel

end Verif.Props
