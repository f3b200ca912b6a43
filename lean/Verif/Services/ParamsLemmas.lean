import Verif.Services.Params
import Verif.Services.ApiLemmas
/-
Specification of valid parameters, and lemmas about the parsing loops.
-/

set_option autoImplicit false

namespace Verif.Services

open Verif
open Verif.Chains (Addr BytesN)
open Verif.Peers (AddrPort Version)

/-- `a` is the IPv4 address `b`, plain or IPv4-mapped -/
def Fits (a : Addr) (b : BytesN 4) : Prop :=
  a = .v4 b ∨ ∃ b6 z, a = .v6 b6 z ∧ b6.1 = List.replicate 10 0 ++ [255, 255] ++ b.1

/-- every text is made of pieces without commas -/
theorem pieces_exist (s : List Char) : ∃ ps : List (List Char), ps ≠ [] ∧ (∀ p, p ∈ ps → ',' ∉ p) ∧ s = joined ps := by
  induction s with
  | nil => exact ⟨[[]], by simp, by simp, rfl⟩
  | cons c s ih =>
    obtain ⟨ps, hne, hp, rfl⟩ := ih
    by_cases hc : c = ','
    · subst hc
      refine ⟨[] :: ps, by simp, ?_, ?_⟩
      · intro p hm
        rcases List.mem_cons.mp hm with rfl | hm
        · simp
        · exact hp p hm
      · cases ps with
        | nil => exact absurd rfl hne
        | cons q qs => simp [joined]
    · cases ps with
      | nil => exact absurd rfl hne
      | cons q qs =>
        refine ⟨(c :: q) :: qs, by simp, ?_, ?_⟩
        · intro p hm
          rcases List.mem_cons.mp hm with rfl | hm
          · intro h
            rcases List.mem_cons.mp h with h | h
            · exact hc h.symm
            · exact hp q (by simp) h
          · exact hp p (List.mem_cons_of_mem _ hm)
        · cases qs <;> simp [joined]

theorem as4_fits {a : Addr} {b : BytesN 4} : Peers.as4 a = .ok b ↔ Fits a b := by
  unfold Fits
  cases a with
  | zero => simp [Peers.as4, goPanic]
  | v4 c => simp [Peers.as4]
  | v6 c z =>
    simp only [Peers.as4]
    constructor
    · intro h
      split at h
      · next h12 =>
        refine Or.inr ⟨c, z, rfl, ?_⟩
        have e := Except.ok.inj h
        rw [← e, ← h12]
        exact (List.take_append_drop 12 c.1).symm
      · cases h
    · rintro (h | ⟨c', z', h, e⟩)
      · cases h
      · cases h
        have h12 : c.1.take 12 = List.replicate 10 0 ++ [255, 255] := by rw [e]; rfl
        rw [if_pos h12]
        congr 1
        apply Subtype.ext
        show c.1.drop 12 = b.1
        rw [e]; rfl

theorem as4_panics {a : Addr} (h : ∀ b, ¬ Fits a b) : Peers.as4 a = goPanic := by
  cases hb : Peers.as4 a with
  | ok b => exact absurd (as4_fits.mp hb) (h b)
  | error e =>
    cases a with
    | zero => exact hb.symm
    | v4 c => cases hb
    | v6 c z =>
      simp only [Peers.as4] at hb
      split at hb
      · cases hb
      · exact hb.symm

theorem Opts.seedLoop_ok (o : Opts) (hs : ∀ s, o.trim (o.trim s) = o.trim s) {l : List (List Char)}
    (h : ∀ s, s ∈ l → o.trim s = [] ∨ ∃ ap, o.parse (o.trim s) = some ap) :
    ∃ r, o.seedLoop l = .ok r ∧ ∀ ap, ap ∈ r ↔ ∃ s, s ∈ l ∧ o.trim s ≠ [] ∧ o.parse (o.trim s) = some ap := by
  induction l with
  | nil => exact ⟨[], rfl, by simp⟩
  | cons s l ih =>
    obtain ⟨r, hr, hm⟩ := ih (fun s' h' => h s' (List.mem_cons_of_mem _ h'))
    by_cases ht : o.trim s = []
    · refine ⟨r, by simp only [Opts.seedLoop, if_pos ht, hr], fun ap => ?_⟩
      rw [hm]; simp [ht]
    · rcases h s (by simp) with h0 | ⟨ap, hap⟩
      · exact absurd h0 ht
      · refine ⟨ap :: r, ?_, fun ap' => ?_⟩
        · simp only [Opts.seedLoop, if_neg ht, hs, hap, hr]; rfl
        · simp only [List.mem_cons, hm]
          constructor
          · rintro (rfl | ⟨s', h1, h2⟩)
            · exact ⟨s, Or.inl rfl, ht, hap⟩
            · exact ⟨s', Or.inr h1, h2⟩
          · rintro ⟨s', (rfl | h1), h2, h3⟩
            · rw [hap] at h3; exact Or.inl (Option.some.inj h3).symm
            · exact Or.inr ⟨s', h1, h2, h3⟩

theorem Opts.seedLoop_bad (o : Opts) (hs : ∀ s, o.trim (o.trim s) = o.trim s) {l : List (List Char)}
    (h : ∃ s, s ∈ l ∧ o.trim s ≠ [] ∧ o.parse (o.trim s) = none) : ∃ e, o.seedLoop l = fail e := by
  induction l with
  | nil => obtain ⟨s, h, _⟩ := h; cases h
  | cons s l ih =>
    by_cases ht : o.trim s = []
    · obtain ⟨s', h1, h2, h3⟩ := h
      rcases List.mem_cons.mp h1 with rfl | h1
      · exact absurd ht h2
      · obtain ⟨e, he⟩ := ih ⟨s', h1, h2, h3⟩
        exact ⟨e, by simp only [Opts.seedLoop, if_pos ht, he]⟩
    · cases hp : o.parse (o.trim s) with
      | none => exact ⟨_, by simp only [Opts.seedLoop, if_neg ht, hs, hp]; rfl⟩
      | some ap =>
        obtain ⟨s', h1, h2, h3⟩ := h
        rcases List.mem_cons.mp h1 with rfl | h1
        · rw [hp] at h3; cases h3
        · obtain ⟨e, he⟩ := ih ⟨s', h1, h2, h3⟩
          exact ⟨e, by simp only [Opts.seedLoop, if_neg ht, hs, hp, he]; rfl⟩

theorem Opts.versionLoop_ok (o : Opts) {l : List (List Char)} (h : ∀ s, s ∈ l → ∃ v, o.version s = some v) :
    ∃ r, o.versionLoop l = .ok r ∧ r.map some = l.map o.version := by
  induction l with
  | nil => exact ⟨[], rfl, rfl⟩
  | cons s l ih =>
    obtain ⟨r, hr, hm⟩ := ih (fun s' h' => h s' (List.mem_cons_of_mem _ h'))
    obtain ⟨v, hv⟩ := h s (by simp)
    exact ⟨v :: r, by simp only [Opts.versionLoop, hv, hr]; rfl, by simp [hv, hm]⟩

theorem Opts.versionLoop_bad (o : Opts) {l : List (List Char)} (h : ∃ s, s ∈ l ∧ o.version s = none) :
    ∃ e, o.versionLoop l = fail e := by
  induction l with
  | nil => obtain ⟨s, h, _⟩ := h; cases h
  | cons s l ih =>
    cases hv : o.version s with
    | none => exact ⟨_, by simp only [Opts.versionLoop, hv]; rfl⟩
    | some v =>
      obtain ⟨s', h1, h2⟩ := h
      rcases List.mem_cons.mp h1 with rfl | h1
      · rw [hv] at h2; cases h2
      · obtain ⟨e, he⟩ := ih ⟨s', h1, h2⟩
        exact ⟨e, by simp only [Opts.versionLoop, hv, he]; rfl⟩

theorem dropWhile_none {α : Type} {p : α → Bool} {l : List α} (h : ∀ x, l.head? = some x → p x = false) : l.dropWhile p = l := by
  cases l with
  | nil => rfl
  | cons x l => rw [List.dropWhile_cons, h x rfl]; rfl

theorem head_dropWhile {α : Type} {p : α → Bool} {l : List α} {x : α} (h : (l.dropWhile p).head? = some x) : p x = false := by
  induction l with
  | nil => cases h
  | cons y l ih =>
    rw [List.dropWhile_cons] at h
    split at h
    · exact ih h
    · next hy => cases h; simpa using hy

/-- `TrimSpace` twice is `TrimSpace` once -/
theorem Opts.trim_trim (o : Opts) (s : List Char) : o.trim (o.trim s) = o.trim s := by
  unfold Opts.trim
  have key : ∀ (u : List Char), (∀ x, u.head? = some x → o.space x = false) →
      ∀ x, ((u.reverse.dropWhile o.space).reverse).head? = some x → o.space x = false := by
    intro u hu x hx
    apply hu
    obtain ⟨pre, hpre⟩ := List.dropWhile_suffix (l := u.reverse) o.space
    have : u = (u.reverse.dropWhile o.space).reverse ++ pre.reverse := by
      rw [← List.reverse_append, hpre, List.reverse_reverse]
    rw [this, List.head?_append, hx]; rfl
  have h1 := key (s.dropWhile o.space) (fun x hx => head_dropWhile hx)
  rw [dropWhile_none h1, List.reverse_reverse]
  rw [dropWhile_none (p := o.space) (l := (s.dropWhile o.space).reverse.dropWhile o.space) (fun x hx => head_dropWhile hx)]

/-- The parameters that pass the checks of the program, the list of peers being made of the pieces `ps` and the list of versions of the pieces
`vs`.  By `pieces_exist` every list is made of pieces. -/
structure ValidFlags (o : Opts) (f : Flags) (ps vs : List (List Char)) : Prop where
  folder : o.folder f.db = true
  network : ∃ n s, o.network f.network = some n ∧ n.seeds = some s
  peers : ∀ p, p ∈ ps → ∃ c, Bare o.space p c ∧ (c = [] ∨ ∃ ap, o.parse c = some ap)
  versions : ∀ v, v ∈ vs → ∃ x, o.version v = some x
  api : f.api ≠ [] ∧ ∃ ap, o.parse f.api = some ap
  net : f.net ≠ [] ∧ ∃ ap, o.parse f.net = some ap
  name : 1 ≤ f.name.length ∧ f.name.length ≤ 255

/-- the list is made of the pieces -/
def MadeOf (s : List Char) (ps : List (List Char)) : Prop := ps ≠ [] ∧ (∀ p, p ∈ ps → ',' ∉ p) ∧ s = joined ps

/-- what is known of accepted parameters before the addresses are converted -/
theorem upToAddresses {o : Opts} {f : Flags} {ps vs : List (List Char)} (hp : MadeOf f.peers ps) (hv : MadeOf f.versions vs)
    (V : ValidFlags o f ps vs) :
    ∃ (n : Network) (built given : List AddrPort) (versions : List Version) (na aa : AddrPort),
      o.network f.network = some n ∧ n.seeds = some built ∧
      (∀ ap, ap ∈ given ↔ ∃ s, s ∈ ps ∧ o.trim s ≠ [] ∧ o.parse (o.trim s) = some ap) ∧
      versions.map some = vs.map o.version ∧ o.parse f.net = some na ∧ o.parse f.api = some aa ∧
      o.newParameters f = (do
        let net ← o.parseAddress (o.print na)
        let declared ← o.parseAddress f.declared
        .ok { scheme := n.scheme, seeds := built ++ given, api := o.print aa, net := net, declared := declared, name := f.name,
              versions := versions }) := by
  obtain ⟨n, built, hn, hb⟩ := V.network
  obtain ⟨given, hg, hgm⟩ := o.seedLoop_ok o.trim_trim (fun p hm => by
    obtain ⟨c, hc, h⟩ := V.peers p hm
    have e : o.trim p = c := (bare_iff _ _ _).mp hc
    rw [e]; exact h)
  obtain ⟨versions, hvs, hvm⟩ := o.versionLoop_ok V.versions
  obtain ⟨ha0, aa, haa⟩ := V.api
  obtain ⟨hn0, na, hna⟩ := V.net
  have hs : o.parseSeedPeers f.peers n = .ok (built ++ given) := by
    unfold Opts.parseSeedPeers
    rw [hb, hp.2.2, split_joined hp.1 hp.2.1]
    dsimp only
    rw [hg]; rfl
  have hver : o.parseVersions f.versions = .ok versions := by
    unfold Opts.parseVersions; rw [hv.2.2, split_joined hv.1 hv.2.1, hvs]
  have h1 : o.checkBind f.api = .ok (o.print aa) := by unfold Opts.checkBind; rw [if_neg ha0, haa]
  have h2 : o.checkBind f.net = .ok (o.print na) := by unfold Opts.checkBind; rw [if_neg hn0, hna]
  have h3 : checkName f.name = .ok f.name := by
    have := V.name
    unfold checkName
    rw [if_neg (by intro h; rw [h] at this; simp at this), if_neg (by omega)]
  refine ⟨n, built, given, versions, na, aa, hn, hb, hgm, hvm, hna, haa, ?_⟩
  unfold Opts.newParameters
  rw [V.folder, hn]
  simp only [Bool.not_true, Bool.false_eq_true, if_false, hs, hver, h1, h2, h3, go_bind_ok]

end Verif.Services
