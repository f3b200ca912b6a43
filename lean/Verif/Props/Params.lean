import Verif.Services.ParamsLemmas
import Verif.Services.Examples
import Verif.Props.Dialing
/-
Properties C58 and C74: the parameters of the program.
-/

set_option autoImplicit false

namespace Verif.Props

open Verif
open Verif.Chains (Addr BytesN Linkage)
open Verif.Peers (AddrPort Version Registry Lib PeerOf is4 isLoopback)
open Verif.KV (Fate)
open Verif.Services

/-! ### C58 -/

/-- Parameters that pass the checks are accepted if the bind address is IPv4 and the declared address is IPv4 or cannot be parsed.  The
program gets exactly these addresses, the built-in and the given seed peers, and the versions in the given order, at least one.  Missing: IPv6
addresses (`C58_panics`). -/
theorem C58_accepts_partial {o : Opts} {f : Flags} {ps vs : List (List Char)} (hp : MadeOf f.peers ps) (hv : MadeOf f.versions vs)
    (V : ValidFlags o f ps vs) {na : AddrPort} {b : BytesN 4} (hn : o.parse f.net = some na) (hb : Fits na.addr b)
    (hd : ∀ da, o.parse f.declared = some da → ∃ c, Fits da.addr c) :
    ∃ p built, o.newParameters f = .ok p ∧ p.net = some (b, na.port) ∧
      (∀ da c, o.parse f.declared = some da → Fits da.addr c → p.declared = some (c, da.port)) ∧
      (o.parse f.declared = none → p.declared = none) ∧ p.name = f.name ∧ p.versions ≠ [] ∧ p.versions.map some = vs.map o.version ∧
      (∃ n, o.network f.network = some n ∧ n.seeds = some built ∧ p.scheme = n.scheme) ∧
      ∀ ap, ap ∈ p.seeds ↔ ap ∈ built ∨ ∃ s c, s ∈ ps ∧ Bare o.space s c ∧ c ≠ [] ∧ o.parse c = some ap := by
  have key : ∀ r, (∃ s, s ∈ ps ∧ o.trim s ≠ [] ∧ o.parse (o.trim s) = r) ↔
      ∃ s c, s ∈ ps ∧ Bare o.space s c ∧ c ≠ [] ∧ o.parse c = r := by
    intro r
    constructor
    · rintro ⟨p, h1, h2, h3⟩
      exact ⟨p, _, h1, (bare_iff _ _ _).mpr rfl, h2, h3⟩
    · rintro ⟨p, c, h1, h2, h3, h4⟩
      have e : o.trim p = c := (bare_iff _ _ _).mp h2
      exact ⟨p, h1, by rw [e]; exact h3, by rw [e]; exact h4⟩
  obtain ⟨n, built, given, versions, na', aa, h1, h2, h3, h4, h5, h6, h7⟩ := upToAddresses hp hv V
  rw [hn] at h5; cases h5
  have hne : versions ≠ [] := by
    intro h; rw [h] at h4; exact hv.1 (by simpa using h4.symm)
  have e1 : o.parseAddress (o.print na) = .ok (some (b, na.port)) := by
    unfold Opts.parseAddress
    rw [o.parse_print _ _ hn]
    dsimp only
    rw [as4_fits.mpr hb]; rfl
  rw [e1, go_bind_ok] at h7
  cases hdp : o.parse f.declared with
  | none =>
    have e2 : o.parseAddress f.declared = .ok none := by unfold Opts.parseAddress; rw [hdp]
    rw [e2, go_bind_ok] at h7
    refine ⟨_, built, h7, rfl, (by intro da c h; cases h), fun _ => rfl, rfl, hne, h4, ⟨n, h1, h2, rfl⟩, fun ap => ?_⟩
    rw [List.mem_append, h3, key]
  | some da =>
    obtain ⟨c, hc⟩ := hd da hdp
    have e2 : o.parseAddress f.declared = .ok (some (c, da.port)) := by
      unfold Opts.parseAddress
      rw [hdp]
      dsimp only
      rw [as4_fits.mpr hc]; rfl
    rw [e2, go_bind_ok] at h7
    refine ⟨_, built, h7, rfl, ?_, (by intro h; cases h), rfl, hne, h4, ⟨n, h1, h2, rfl⟩, fun ap => ?_⟩
    · intro da' c' h hc'
      cases h
      have := as4_fits.mpr hc
      rw [as4_fits.mpr hc'] at this
      cases this; rfl
    · rw [List.mem_append, h3, key]

/-- Parameters that do not pass the checks are refused with an error. -/
theorem C58_refuses {o : Opts} {f : Flags} {ps vs : List (List Char)} (hp : MadeOf f.peers ps) (hv : MadeOf f.versions vs)
    (V : ¬ ValidFlags o f ps vs) : ∃ e, o.newParameters f = fail e := by
  unfold Opts.newParameters
  cases hfo : o.folder f.db with
  | false => exact ⟨_, rfl⟩
  | true =>
    simp only [Bool.not_true, Bool.false_eq_true, if_false]
    cases hn : o.network f.network with
    | none => exact ⟨_, rfl⟩
    | some n =>
      dsimp only
      unfold Opts.parseSeedPeers Opts.parseVersions
      rw [hp.2.2, split_joined hp.1 hp.2.1, hv.2.2, split_joined hv.1 hv.2.1]
      cases hb : n.seeds with
      | none => exact ⟨_, rfl⟩
      | some built =>
        dsimp only
        by_cases h1 : ∃ s, s ∈ ps ∧ o.trim s ≠ [] ∧ o.parse (o.trim s) = none
        · obtain ⟨e, he⟩ := o.seedLoop_bad o.trim_trim h1
          exact ⟨e, by rw [he]; rfl⟩
        have h1' : ∀ p, p ∈ ps → o.trim p = [] ∨ ∃ ap, o.parse (o.trim p) = some ap := by
          intro p hm
          by_cases ht : o.trim p = []
          · exact Or.inl ht
          · cases hq : o.parse (o.trim p) with
            | none => exact absurd ⟨p, hm, ht, hq⟩ h1
            | some ap => exact Or.inr ⟨ap, rfl⟩
        obtain ⟨given, hg, _⟩ := o.seedLoop_ok o.trim_trim h1'
        rw [hg, go_bind_ok, go_bind_ok]
        by_cases h2 : ∃ s, s ∈ vs ∧ o.version s = none
        · obtain ⟨e, he⟩ := o.versionLoop_bad h2
          exact ⟨e, by rw [he]; rfl⟩
        have h2' : ∀ v, v ∈ vs → ∃ x, o.version v = some x := by
          intro v hm
          cases hq : o.version v with
          | none => exact absurd ⟨v, hm, hq⟩ h2
          | some x => exact ⟨x, rfl⟩
        obtain ⟨versions, hvs, _⟩ := o.versionLoop_ok h2'
        rw [hvs, go_bind_ok]
        have bind : ∀ s, (∃ ap, s ≠ [] ∧ o.parse s = some ap ∧ o.checkBind s = .ok (o.print ap)) ∨ ∃ e, o.checkBind s = fail e := by
          intro s
          unfold Opts.checkBind
          by_cases hs : s = []
          · exact Or.inr ⟨_, by rw [if_pos hs]⟩
          · rw [if_neg hs]
            cases hq : o.parse s with
            | none => exact Or.inr ⟨_, rfl⟩
            | some ap => exact Or.inl ⟨ap, hs, rfl, rfl⟩
        rcases bind f.api with ⟨aa, ha0, ha1, ha2⟩ | ⟨e, he⟩
        · rw [ha2, go_bind_ok]
          rcases bind f.net with ⟨na, hn0, hn1, hn2⟩ | ⟨e, he⟩
          · rw [hn2, go_bind_ok]
            unfold checkName
            by_cases hnm : f.name = []
            · exact ⟨_, by rw [if_pos hnm]; rfl⟩
            · by_cases hlen : f.name.length > 255
              · exact ⟨_, by rw [if_neg hnm, if_pos hlen]; rfl⟩
              · exact absurd ⟨hfo, ⟨n, built, hn, hb⟩,
                  fun p hm => ⟨_, (bare_iff _ _ _).mpr rfl, h1' p hm⟩, h2', ⟨ha0, aa, ha1⟩, ⟨hn0, na, hn1⟩,
                  List.length_pos_iff.mpr hnm, by omega⟩ V
          · exact ⟨e, by rw [he]; rfl⟩
        · exact ⟨e, by rw [he]; rfl⟩

/-- Every other set of parameters panics: those that pass the checks with an IPv6 bind address or an IPv6 declared address. -/
theorem C58_panics {o : Opts} {f : Flags} {ps vs : List (List Char)} (hp : MadeOf f.peers ps) (hv : MadeOf f.versions vs)
    (V : ValidFlags o f ps vs)
    (h6 : ∃ s ap, (s = f.net ∨ s = f.declared) ∧ o.parse s = some ap ∧ ∀ b, ¬ Fits ap.addr b) : o.newParameters f = goPanic := by
  obtain ⟨n, built, given, versions, na, aa, _, _, _, _, hna, _, h7⟩ := upToAddresses hp hv V
  rw [h7]
  have key : ∀ s ap, o.parse s = some ap → (∀ b, ¬ Fits ap.addr b) → o.parseAddress s = goPanic := by
    intro s ap h1 h2
    unfold Opts.parseAddress
    rw [h1]
    dsimp only
    rw [as4_panics h2]; rfl
  have hcases : ∀ s, (∃ t, o.parseAddress s = .ok t) ∨ o.parseAddress s = goPanic := by
    intro s
    cases hq : o.parse s with
    | none => exact Or.inl ⟨none, by unfold Opts.parseAddress; rw [hq]⟩
    | some ap =>
      by_cases hf : ∃ b, Fits ap.addr b
      · obtain ⟨b, hb⟩ := hf
        refine Or.inl ⟨some (b, ap.port), ?_⟩
        unfold Opts.parseAddress
        rw [hq]
        dsimp only
        rw [as4_fits.mpr hb]; rfl
      · exact Or.inr (key s ap hq (fun b hb => hf ⟨b, hb⟩))
  obtain ⟨s, ap, hs, h1, h2⟩ := h6
  rcases hs with rfl | rfl
  · rw [hna] at h1; cases h1
    rw [key _ _ (o.parse_print _ _ hna) h2]; rfl
  · rcases hcases (o.print na) with ⟨t, ht⟩ | ht
    · rw [ht, go_bind_ok, key _ _ h1 h2]; rfl
    · rw [ht]; rfl

/-- A declared address that cannot be parsed is not reported: the program starts as if no address had been declared, without a listener. -/
theorem C58_silent {o : Opts} {f : Flags} (hd : o.parse f.declared = none) {p : Params} (hp : o.newParameters f = .ok p) :
    p.declared = none ∧ o.declaredAddr p = .zero ∧ o.listens p = false := by
  have hd' : o.parseAddress f.declared = .ok none := by unfold Opts.parseAddress; rw [hd]
  have : p.declared = none := by
    unfold Opts.newParameters at hp
    split at hp
    · cases hp
    · split at hp
      · cases hp
      · obtain ⟨_, _, hp⟩ := go_bind_eq_ok.mp hp
        obtain ⟨_, _, hp⟩ := go_bind_eq_ok.mp hp
        obtain ⟨_, _, hp⟩ := go_bind_eq_ok.mp hp
        obtain ⟨_, _, hp⟩ := go_bind_eq_ok.mp hp
        obtain ⟨_, _, hp⟩ := go_bind_eq_ok.mp hp
        obtain ⟨_, _, hp⟩ := go_bind_eq_ok.mp hp
        obtain ⟨d, hd2, hp⟩ := go_bind_eq_ok.mp hp
        rw [hd'] at hd2
        cases hd2
        cases hp; rfl
  simp [this, Opts.declaredAddr, Opts.listens, Opts.empty]

/-- a library for the examples: `a` is 10.0.0.1:6868, `m` the same mapped, `s` is [2001:db8::1]:6868, anything else cannot be parsed -/
def exOpts : Opts where
  parse s := match s with
    | ['a'] => some ⟨.v4 ⟨[10, 0, 0, 1], rfl⟩, 6868⟩
    | ['m'] => some ⟨.v6 ⟨List.replicate 10 0 ++ [255, 255, 10, 0, 0, 1], rfl⟩ "", 6868⟩
    | ['s'] => some ⟨.v6 ⟨[32, 1, 13, 184] ++ List.replicate 11 0 ++ [1], rfl⟩ "", 6868⟩
    | _ => none
  parse_valid s ap h := by
    split at h <;> first | (cases h; simp) | cases h
  print ap := match ap.addr with
    | .v4 _ => ['a']
    | .v6 b _ => if b.1.take 12 = List.replicate 10 0 ++ [255, 255] then ['m'] else ['s']
    | .zero => []
  parse_print s ap h := by
    split at h <;> first | (cases h; rfl) | cases h
  space c := c = ' '
  version s := if s = "1.5".toList then some ⟨1, 5, 0⟩ else none
  network s := if s = "mainnet".toList then some ⟨87, some [⟨.v4 ⟨[34, 253, 153, 4], rfl⟩, 6868⟩]⟩
    else if s = "custom".toList then some ⟨69, none⟩ else none
  folder s := !s.isEmpty
  emptyIP b := b.1 == [0, 0, 0, 0]

def exFlags : Flags :=
  { db := "db".toList, network := "mainnet".toList, peers := [' ', 'a', ',', ' '], api := ['a'], net := ['a'], declared := ['a'],
    name := [1], versions := "1.5".toList }

/-- the first case is accepted, with a mapped address too; an IPv6 address panics for both addresses; nonsense is refused for the bind address and
silently accepted for the declared one -/
example : (exOpts.newParameters exFlags).isOk = true ∧
    (match exOpts.newParameters { exFlags with declared := ['m'] } with
      | .ok p => (p.declared.map (·.1.1), exOpts.listens p)
      | .error _ => (none, false)) = (some [10, 0, 0, 1], true) ∧
    (match exOpts.newParameters { exFlags with net := ['s'] } with | .error e => decide (e = .panic) | _ => false) = true ∧
    (match exOpts.newParameters { exFlags with declared := ['s'] } with | .error e => decide (e = .panic) | _ => false) = true ∧
    (exOpts.newParameters { exFlags with declared := ['?'] }).isOk = true ∧
    (exOpts.newParameters { exFlags with net := ['?'] }).isOk = false := by
  decide +kernel

/-- `exFlags` and its variants meet the hypotheses of the theorems. -/
example : MadeOf exFlags.peers [[' ', 'a'], [' ']] ∧ MadeOf exFlags.versions ["1.5".toList] ∧
    ValidFlags exOpts exFlags [[' ', 'a'], [' ']] ["1.5".toList] ∧
    ValidFlags exOpts { exFlags with net := ['s'] } [[' ', 'a'], [' ']] ["1.5".toList] ∧
    ¬ ValidFlags exOpts { exFlags with net := ['?'] } [[' ', 'a'], [' ']] ["1.5".toList] := by
  have hps : ∀ p, p ∈ [[' ', 'a'], [' ']] → ∃ c, Bare exOpts.space p c ∧ (c = [] ∨ ∃ ap, exOpts.parse c = some ap) := by
    intro p hp
    rcases List.mem_cons.mp hp with rfl | hp
    · exact ⟨['a'], (bare_iff _ _ _).mpr rfl, Or.inr ⟨_, rfl⟩⟩
    · rcases List.mem_cons.mp hp with rfl | hp
      · exact ⟨[], (bare_iff _ _ _).mpr rfl, Or.inl rfl⟩
      · cases hp
  have hvs : ∀ v, v ∈ ["1.5".toList] → ∃ x, exOpts.version v = some x := by
    intro v hv
    rcases List.mem_cons.mp hv with rfl | hv
    · exact ⟨_, rfl⟩
    · cases hv
  refine ⟨⟨by simp, by decide, rfl⟩, ⟨by simp, by decide, rfl⟩,
    ⟨rfl, ⟨_, _, rfl, rfl⟩, hps, hvs, ⟨by decide, _, rfl⟩, ⟨by decide, _, rfl⟩, by decide⟩,
    ⟨rfl, ⟨_, _, rfl, rfl⟩, hps, hvs, ⟨by decide, _, rfl⟩, ⟨by decide, _, rfl⟩, by decide⟩, ?_⟩
  intro V
  obtain ⟨_, ap, h⟩ := V.net
  cases h

/-! ### C74 -/

/-- `a` is the IPv4 address `b`, plain or IPv4-mapped, without a zone -/
def Denotes (a : Addr) (b : BytesN 4) : Prop := Fits a b ∧ ∀ b6 z, a = .v6 b6 z → z = ""

/-- When the program has started and the database works, every seed peer, built-in or given, is on record, unless its address is a true IPv6 one, has a zone, or is a
loopback address or our own; and an address that was not on record before has got the port of the first seed peer with it and can be dialled
at once.  `r` is the registry when the program last ran. -/
theorem C74_seeds_partial {lib : Lib} {r : Registry} (R : Peers.Reachable lib r) {o : Opts} {f : Flags} {lk : Linkage} {fs : Nat → Fate}
    (hfs : ∀ i, fs i = .ok) {s : Prog} (hs : o.run f r.db fs lk = .ok s) :
    ∃ p, o.newParameters f = .ok p ∧
      (∀ ap b, ap ∈ p.seeds → Denotes ap.addr b → isLoopback (.v4 b) = false → .v4 b ≠ o.declaredAddr p →
        ∃ q, PeerOf s.l.reg (.v4 b) = .ok q) ∧
      ∀ l1 l2 ap b, p.seeds = l1 ++ ap :: l2 → Denotes ap.addr b → (∀ x, x ∈ l1 → ¬ Denotes x.addr b) → isLoopback (.v4 b) = false →
        .v4 b ≠ o.declaredAddr p → PeerOf r (.v4 b) = fail .notFound →
        ∃ q, PeerOf s.l.reg (.v4 b) = .ok q ∧ q.port = ap.port ∧ q.state = .unknown ∧ q.nextAttempt = Peers.zeroTime := by
  unfold Opts.run at hs
  obtain ⟨p, hp, hs⟩ := go_bind_eq_ok.mp hs
  have hs := Except.ok.inj hs
  have R2 : Peers.Reachable lib (Peers.NewRegistry (o.config p) r.db) := by
    obtain ⟨c, es, rfl⟩ := R
    exact ⟨c, es ++ [⟨0, .reopen (o.config p)⟩], by rw [Peers.exec, Peers.exec, List.foldl_append]; rfl⟩
  have hold : ∀ a, PeerOf (Peers.NewRegistry (o.config p) r.db) a = PeerOf r a := fun _ => rfl
  obtain ⟨db', added, n, happ, _, hadd, hkeep, _, _, hall⟩ := Peers.C32_append R2 fs (p.seeds.map seedOf)
  have hreg : s.l.reg = { Peers.NewRegistry (o.config p) r.db with db := db' } := by
    rw [← hs]
    show (Peers.AppendAddresses fs (Peers.NewRegistry (o.config p) r.db) (p.seeds.map seedOf)).1 = _
    rw [happ]
  have hseed4 : ∀ (ap : AddrPort) b, Denotes ap.addr b → seedOf ap = some ⟨.v4 b, ap.port⟩ := by
    rintro ⟨a, port⟩ b ⟨h, hz⟩
    have h4 := as4_fits.mpr h
    cases a with
    | zero => cases h4
    | v4 c => cases h4; rfl
    | v6 c z =>
      have hz := hz c z rfl
      simp only [seedOf]
      rw [h4]
      simp [hz]
  have hseedFits : ∀ (x y : AddrPort) b, seedOf x = some y → y.addr = .v4 b → Denotes x.addr b := by
    rintro ⟨a, port⟩ y b h hy
    cases a with
    | zero => cases h
    | v4 c => cases h; cases hy; exact ⟨Or.inl rfl, fun _ _ e => by cases e⟩
    | v6 c z =>
      simp only [seedOf] at h
      cases hq : Peers.as4 (.v6 c z) with
      | ok b4 =>
        rw [hq] at h
        dsimp only at h
        split at h
        · next hz => cases h; cases hy; exact ⟨as4_fits.mp hq, fun _ _ e => by cases e; exact hz⟩
        · cases h
      | error e => rw [hq] at h; cases h; cases hy
  have first : ∀ l1 l2 (ap : AddrPort) b, p.seeds = l1 ++ ap :: l2 → Denotes ap.addr b → (∀ x, x ∈ l1 → ¬ Denotes x.addr b) →
      Peers.First (p.seeds.map seedOf) ⟨.v4 b, ap.port⟩ := by
    intro l1 l2 ap b h hb hl
    refine ⟨l1.map seedOf, l2.map seedOf, by rw [h, List.map_append, List.map_cons, hseed4 ap b hb], ?_⟩
    intro ap' hm e
    obtain ⟨x, hx, hxe⟩ := List.mem_map.mp hm
    exact hl x hx (hseedFits x ap' b hxe e)
  refine ⟨p, hp, ?_, ?_⟩
  · intro ap b hm hb hlo hde
    have h4 : is4 (.v4 b) = true := rfl
    rw [hreg]
    by_cases hex : ∃ x, x ∈ added ∧ x.addr = (.v4 b)
    · obtain ⟨x, hx, hxe⟩ := hex
      have := (hadd x hx).2.2.2.2.2
      rw [hxe] at this
      exact ⟨_, this⟩
    · rw [hkeep (.v4 b) h4 (fun x hx e => hex ⟨x, hx, e⟩)]
      have hcases : PeerOf (Peers.NewRegistry (o.config p) r.db) (.v4 b) = fail .notFound ∨
          ∃ q, PeerOf (Peers.NewRegistry (o.config p) r.db) (.v4 b) = .ok q := by
        cases hv : Peers.view (Peers.NewRegistry (o.config p) r.db).db b with
        | none => exact Or.inl (R2.inv.peerOf_none.mpr hv)
        | some v => exact Or.inr ⟨_, R2.inv.peerOf.mpr ⟨v, hv, rfl⟩⟩
      rcases hcases with hnf | hq
      · exfalso
        -- the first seed with this address is added
        have : ∃ l1 y l2, p.seeds.map seedOf = l1 ++ some y :: l2 ∧ y.addr = (.v4 b) ∧
            ∀ z, some z ∈ l1 → z.addr ≠ (.v4 b) := by
          have hin : some ⟨.v4 b, ap.port⟩ ∈ p.seeds.map seedOf := List.mem_map.mpr ⟨ap, hm, hseed4 ap b hb⟩
          generalize p.seeds.map seedOf = l at hin
          clear hall hkeep hadd happ
          induction l with
          | nil => cases hin
          | cons x l ih =>
            by_cases hx : ∃ y, x = some y ∧ y.addr = (.v4 b)
            · obtain ⟨y, rfl, hy⟩ := hx
              exact ⟨[], y, l, rfl, hy, by simp⟩
            · rcases List.mem_cons.mp hin with e | hin
              · exact absurd ⟨_, e.symm, rfl⟩ hx
              · obtain ⟨l1, y, l2, h1, h2, h3⟩ := ih hin
                refine ⟨x :: l1, y, l2, by rw [h1]; rfl, h2, ?_⟩
                intro z hz e
                rcases List.mem_cons.mp hz with hz | hz
                · exact hx ⟨z, hz.symm, e⟩
                · exact h3 z hz e
        obtain ⟨l1, y, l2, h1, h2, h3⟩ := this
        exact hex ⟨y, hall hfs y ⟨l1, l2, h1, fun z hz => by rw [h2]; exact h3 z hz⟩ (by rw [h2]; exact h4) (by rw [h2]; exact hlo)
          (by rw [h2]; exact hde) (by rw [h2]; exact hnf), h2⟩
      · exact hq
  · intro l1 l2 ap b h hb hl hlo hde hnf
    have h4 : is4 (.v4 b) = true := rfl
    have hin := hall hfs ⟨.v4 b, ap.port⟩ (first l1 l2 ap b h hb hl) h4 hlo hde hnf
    rw [hreg]
    exact ⟨_, (hadd _ hin).2.2.2.2.2, rfl, rfl, rfl⟩

/-- A seed peer with an IPv6 address is accepted on the command line and then forgotten. -/
theorem C74_ipv6 : ∃ s p, exOpts.run { exFlags with peers := ['s'] } [] Peers.Ex.ok Chains.Ex.l0 = .ok s ∧
    exOpts.newParameters { exFlags with peers := ['s'] } = .ok p ∧
    p.seeds.map (fun ap => decide (ap.addr = .v6 ⟨[32, 1, 13, 184] ++ List.replicate 11 0 ++ [1], rfl⟩ "")) = [false, true] ∧
    (Peers.Peers Peers.Ex.lib Chains.Ex.env s.l.reg).map (fun l => l.map (fun q => q.addr)) = .ok [.v4 ⟨[34, 253, 153, 4], rfl⟩] :=
  ⟨_, _, rfl, rfl, by decide +kernel, by decide +kernel⟩

/-- A seed peer that is written as an IPv4-mapped address is on record as an IPv4 one. -/
example : ∃ s p, exOpts.run { exFlags with peers := ['m'], declared := [] } [] Peers.Ex.ok Chains.Ex.l0 = .ok s ∧
    exOpts.newParameters { exFlags with peers := ['m'], declared := [] } = .ok p ∧
    (∃ ap, ap ∈ p.seeds ∧ Denotes ap.addr ⟨[10, 0, 0, 1], rfl⟩ ∧ is4 ap.addr = false) ∧
    isLoopback (.v4 ⟨[10, 0, 0, 1], rfl⟩) = false ∧ .v4 ⟨[10, 0, 0, 1], rfl⟩ ≠ exOpts.declaredAddr p ∧
    (PeerOf s.l.reg (.v4 ⟨[10, 0, 0, 1], rfl⟩)).isOk = true :=
  ⟨_, _, rfl, rfl, ⟨⟨.v6 ⟨List.replicate 10 0 ++ [255, 255, 10, 0, 0, 1], rfl⟩ "", 6868⟩, by decide +kernel,
    ⟨Or.inr ⟨_, _, rfl, rfl⟩, fun _ _ e => by cases e; rfl⟩, rfl⟩, by decide +kernel, by decide +kernel, by decide +kernel⟩

end Verif.Props
