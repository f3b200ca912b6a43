import Verif.Services.RoutesLemmas
/-
What clients of the API go by: the paths of the reports and the encoding of texts, stated without the model of the router, with lemmas that
relate them to the model.
-/

set_option autoImplicit false

namespace Verif.Services.Routing

open Verif
open Verif.Chains (Addr)
open Verif.Services

/-! ### the paths, as a client knows them -/

/-- The path asks for a report, with these parameters. -/
inductive Asks : List Char → Handler → List (List Char) → Prop where
  | peers : Asks "/api/peers/all".toList .peers []
  | friendly : Asks "/api/peers/friendly".toList .friendly []
  | connections : Asks "/api/connections".toList .connections []
  | heads : Asks "/api/heads".toList .heads []
  | leashes : Asks "/api/leashes".toList .leashes []
  | status : Asks "/api/status".toList .status []
  | forks : Asks "/api/forks".toList .forks []
  | activeForks : Asks "/api/active-forks".toList .activeForks []
  | fork (a : List Char) : a ≠ [] → '/' ∉ a → Asks ("/api/fork/".toList ++ a) .fork [a]
  | generators (a n : List Char) : '/' ∉ a → '/' ∉ n → n ≠ [] →
      Asks ("/api/fork/".toList ++ a ++ "/generators/".toList ++ n) .forkGenerators [a, n]

/-- the digits of hexadecimal numbers -/
def hexDigits : List Char := "0123456789ABCDEF".toList

/-- a byte written with a percent sign, RFC 3986 section 2.1 -/
def pct (c : Char) : List Char := ['%', hexDigits.getD (c.toNat / 16) '0', hexDigits.getD (c.toNat % 16) '0']

/-- the characters that `encodeURIComponent` of browsers leaves as they are, ECMA-262 section 19.2.6.4 -/
def componentKeeps (c : Char) : Bool := alnum c || "-_.!~*'()".toList.contains c

/-- `encodeURIComponent`, for a text given as its bytes -/
def component (s : List Char) : List Char := s.flatMap (fun c => if componentKeeps c then [c] else pct c)

/-- What `netip.ParseAddr` does before it looks at anything else: a percent sign before the first dot and the first colon is an error. -/
def RefusesBareZone (parse : List Char → Option Addr) : Prop := ∀ p r, '.' ∉ p → ':' ∉ p → parse (p ++ '%' :: r) = none

/-- the status code of an answer -/
def replyStatus : Reply → Option Nat
  | .report r => r.status
  | .noRoute => some 404
  | .notAllowed => some 405
  | .malformed => some 400

/-! ### lemmas -/

theorem asks_prefix {path : List Char} {h : Handler} {ps : List (List Char)} (a : Asks path h ps) : ∃ t, path = "/api/".toList ++ t := by
  cases a with
  | fork a => exact ⟨"fork/".toList ++ a, rfl⟩
  | generators a n => exact ⟨"fork/".toList ++ a ++ "/generators/".toList ++ n, by simp⟩
  | _ => exact ⟨_, rfl⟩

/-- the pattern has no parameters -/
def literal (lit : List Char) : Bool := (splitAt '/' lit).all (fun s => s.head? ≠ some '{')

theorem literal_route {lit path : List Char} {ps : List (List Char)} (hl : literal lit = true) (h : matchRoute lit path = some ps) :
    path = lit ∧ ps = [] := by
  unfold matchRoute at h
  obtain ⟨hm, rfl⟩ := matchSegs_literal (by simpa [literal] using hl) h
  exact ⟨splitAt_inj hm, rfl⟩

theorem fork_route {path : List Char} {ps : List (List Char)} (h : matchRoute "/fork/{address}".toList path = some ps) :
    ∃ a, a ≠ [] ∧ '/' ∉ a ∧ path = "/fork/".toList ++ a ∧ ps = [a] := by
  unfold matchRoute at h
  rw [show splitAt '/' "/fork/{address}".toList = [[], "fork".toList, "{address}".toList] by decide] at h
  obtain ⟨x1, h1, k1⟩ := matchSegs_lit (by decide) h
  obtain ⟨x2, rfl, k2⟩ := matchSegs_lit (by decide) k1
  obtain ⟨a, x3, rs, rfl, ha, rfl, k3⟩ := matchSegs_param (by decide) k2
  obtain ⟨rfl, rfl⟩ := matchSegs_nil k3
  obtain ⟨-, t1, rfl, h2⟩ := splitAt_more h1
  obtain ⟨-, t2, rfl, h3⟩ := splitAt_more h2
  obtain ⟨rfl, hn⟩ := splitAt_one h3
  exact ⟨t2, ha rfl, hn, rfl, rfl⟩

theorem generators_route {path : List Char} {ps : List (List Char)}
    (h : matchRoute "/fork/{address}/generators/{blocks}".toList path = some ps) :
    ∃ a n, '/' ∉ a ∧ '/' ∉ n ∧ n ≠ [] ∧ path = "/fork/".toList ++ a ++ "/generators/".toList ++ n ∧ ps = [a, n] := by
  unfold matchRoute at h
  rw [show splitAt '/' "/fork/{address}/generators/{blocks}".toList =
    [[], "fork".toList, "{address}".toList, "generators".toList, "{blocks}".toList] by decide] at h
  obtain ⟨x1, h1, k1⟩ := matchSegs_lit (by decide) h
  obtain ⟨x2, rfl, k2⟩ := matchSegs_lit (by decide) k1
  obtain ⟨a, x3, rs, rfl, -, rfl, k3⟩ := matchSegs_param (by decide) k2
  obtain ⟨x4, rfl, k4⟩ := matchSegs_lit (by decide) k3
  obtain ⟨n, x5, rs', rfl, hn, rfl, k5⟩ := matchSegs_param (by decide) k4
  obtain ⟨rfl, rfl⟩ := matchSegs_nil k5
  obtain ⟨-, t1, rfl, h2⟩ := splitAt_more h1
  obtain ⟨-, t2, rfl, h3⟩ := splitAt_more h2
  obtain ⟨ha, t3, rfl, h4⟩ := splitAt_more h3
  obtain ⟨-, t4, rfl, h5⟩ := splitAt_more h4
  obtain ⟨rfl, hs⟩ := splitAt_one h5
  exact ⟨a, t4, ha, hs, hn rfl, by simp, rfl⟩

theorem mounted_some {path sub : List Char} (h : mounted path = some sub) : (path = "/api".toList ∧ sub = ['/']) ∨ path = "/api".toList ++ sub := by
  unfold mounted at h
  split at h
  · rename_i hp
    exact .inl ⟨hp, by simpa using h.symm⟩
  · split at h
    · rename_i hp
      obtain ⟨t, ht⟩ := List.isPrefixOf_iff_prefix.mp hp
      subst ht
      simp only [Option.some.injEq] at h
      subst h
      exact .inr rfl
    · exact absurd h (by simp)

theorem asks_of_found {path : List Char} {h : Handler} {ps : List (List Char)}
    (hf : (mounted path).bind (findRoute · routes) = some (h, ps)) : Asks path h ps := by
  cases hm : mounted path with
  | none => simp [hm] at hf
  | some sub =>
    rw [hm, Option.bind_some] at hf
    rcases mounted_some hm with ⟨rfl, rfl⟩ | rfl
    · exact absurd hf (by rw [show findRoute ['/'] routes = none by decide]; simp)
    · obtain ⟨r, hr, rfl, hmt⟩ := findRoute_mem hf
      simp only [routes, List.mem_cons, List.not_mem_nil, or_false] at hr
      rcases hr with rfl | rfl | rfl | rfl | rfl | rfl | rfl | rfl | rfl | rfl
      · obtain ⟨rfl, rfl⟩ := literal_route (by decide) hmt; exact .peers
      · obtain ⟨rfl, rfl⟩ := literal_route (by decide) hmt; exact .friendly
      · obtain ⟨rfl, rfl⟩ := literal_route (by decide) hmt; exact .connections
      · obtain ⟨rfl, rfl⟩ := literal_route (by decide) hmt; exact .heads
      · obtain ⟨rfl, rfl⟩ := literal_route (by decide) hmt; exact .leashes
      · obtain ⟨rfl, rfl⟩ := literal_route (by decide) hmt; exact .status
      · obtain ⟨rfl, rfl⟩ := literal_route (by decide) hmt; exact .forks
      · obtain ⟨rfl, rfl⟩ := literal_route (by decide) hmt; exact .activeForks
      · obtain ⟨a, h1, h2, rfl, rfl⟩ := fork_route hmt
        exact .fork a h1 h2
      · obtain ⟨a, n, h1, h2, h3, rfl, rfl⟩ := generators_route hmt
        have := Asks.generators a n h1 h2 h3
        simpa [List.append_assoc] using this

theorem mounted_prefix (t : List Char) : mounted ("/api/".toList ++ t) = some ('/' :: t) := by
  unfold mounted
  rw [if_neg (by simp), if_pos (List.isPrefixOf_iff_prefix.mpr ⟨t, rfl⟩)]
  rfl

theorem found_of_asks {path : List Char} {h : Handler} {ps : List (List Char)} (a : Asks path h ps) :
    (mounted path).bind (findRoute · routes) = some (h, ps) := by
  cases a with
  | fork a ha hs =>
    rw [show "/api/fork/".toList ++ a = "/api/".toList ++ ("fork/".toList ++ a) from rfl, mounted_prefix, Option.bind_some]
    have e : splitAt '/' ('/' :: ("fork/".toList ++ a)) = [[], "fork".toList, a] := by
      rw [show '/' :: ("fork/".toList ++ a) = [] ++ '/' :: ("fork".toList ++ '/' :: a) from rfl, splitAt_cons _ (by simp),
        splitAt_cons _ (by decide), splitAt_none hs]
    simp only [routes, findRoute, matchRoute, e]
    simp [matchSegs, splitAt, ha]
  | generators a n ha hs hn =>
    rw [show "/api/fork/".toList ++ a ++ "/generators/".toList ++ n =
      "/api/".toList ++ ("fork".toList ++ '/' :: (a ++ '/' :: ("generators".toList ++ '/' :: n))) by simp, mounted_prefix, Option.bind_some]
    have e : splitAt '/' ('/' :: ("fork".toList ++ '/' :: (a ++ '/' :: ("generators".toList ++ '/' :: n)))) =
        [[], "fork".toList, a, "generators".toList, n] := by
      rw [show '/' :: ("fork".toList ++ '/' :: (a ++ '/' :: ("generators".toList ++ '/' :: n))) =
          [] ++ '/' :: ("fork".toList ++ '/' :: (a ++ '/' :: ("generators".toList ++ '/' :: n))) from rfl, splitAt_cons _ (by simp),
        splitAt_cons _ (by decide), splitAt_cons _ ha, splitAt_cons _ (by decide), splitAt_none hs]
    simp only [routes, findRoute, matchRoute, e]
    simp [matchSegs, splitAt, hn]
  | _ => decide

/-! ### encoding -/

theorem pct_eq {c : Char} (h : c.toNat < 256) : pct c = percent c := by
  have key : ∀ n : Fin 16, hexDigits.getD n.1 '0' = upperhex n.1 := by decide
  have k : ∀ n, n < 16 → hexDigits.getD n '0' = upperhex n := fun n hn => key ⟨n, hn⟩
  unfold pct percent
  rw [k _ (by omega), k _ (by omega)]

theorem component_eq : ∀ {s : List Char}, (∀ c ∈ s, c.toNat < 256) →
    component s = s.flatMap (fun c => if componentKeeps c then [c] else percent c)
  | [], _ => rfl
  | c :: s, h => by
    have ih := component_eq (s := s) (fun x hx => h x (by simp [hx]))
    unfold component at ih ⊢
    rw [List.flatMap_cons, List.flatMap_cons, ih, pct_eq (h c (by simp))]

theorem keeps_ne {c : Char} (h : componentKeeps c = true) : c ≠ '%' ∧ c ≠ '+' ∧ c ≠ '?' ∧ c ≠ '/' ∧ c ≠ '&' ∧ c ≠ '=' ∧ c ≠ ';' := by
  refine ⟨?_, ?_, ?_, ?_, ?_, ?_, ?_⟩ <;> rintro rfl <;> exact absurd h (by decide)

theorem keeps_ctl {c : Char} (h : componentKeeps c = true) : isCtl c = false := by
  cases hc : isCtl c with
  | false => rfl
  | true =>
    exfalso
    have hn : c.toNat < 32 ∨ c.toNat = 127 := by simpa [isCtl] using hc
    have e : c = Char.ofNat c.toNat := (Char.ofNat_toNat c).symm
    have all : ∀ n : Fin 128, (n.1 < 32 ∨ n.1 = 127) → componentKeeps (Char.ofNat n.1) = false := by decide
    have := all ⟨c.toNat, by omega⟩ hn
    rw [← e, h] at this
    exact absurd this (by simp)

theorem hexDigits_fine : ∀ n : Nat, componentKeeps (hexDigits.getD n '0') = true := by
  intro n
  by_cases h : n < 16
  · have key : ∀ n : Fin 16, componentKeeps (hexDigits.getD n.1 '0') = true := by decide
    exact key ⟨n, h⟩
  · have : hexDigits.getD n '0' = '0' := by
      rw [List.getD_eq_getElem?_getD, List.getElem?_eq_none (by show 16 ≤ n; omega)]
      rfl
    rw [this]
    decide

/-- the characters of an encoded text -/
theorem component_chars : ∀ {s : List Char} {c : Char}, c ∈ component s → componentKeeps c = true ∨ c = '%'
  | [], c, h => by simp [component] at h
  | x :: s, c, h => by
    unfold component at h
    rw [List.flatMap_cons, List.mem_append] at h
    rcases h with h | h
    · split at h
      · rename_i hx
        simp only [List.mem_singleton] at h
        exact .inl (h ▸ hx)
      · simp only [pct, List.mem_cons, List.not_mem_nil, or_false] at h
        rcases h with h | h | h
        · exact .inr h
        · exact .inl (h ▸ hexDigits_fine _)
        · exact .inl (h ▸ hexDigits_fine _)
    · exact component_chars h

theorem component_free {s : List Char} : '?' ∉ component s ∧ '/' ∉ component s ∧ '&' ∉ component s ∧ '=' ∉ component s ∧
    ';' ∉ component s ∧ ∀ c ∈ component s, isCtl c = false := by
  have h : ∀ d, componentKeeps d = false → d ≠ '%' → d ∉ component s := by
    intro d hd hp hm
    rcases component_chars hm with hk | hk
    · rw [hd] at hk; exact absurd hk (by simp)
    · exact hp hk
  refine ⟨h _ (by decide) (by decide), h _ (by decide) (by decide), h _ (by decide) (by decide), h _ (by decide) (by decide),
    h _ (by decide) (by decide), ?_⟩
  intro c hc
  rcases component_chars hc with hk | rfl
  · exact keeps_ctl hk
  · decide

theorem component_ne_nil {s : List Char} (h : s ≠ []) : component s ≠ [] := by
  cases s with
  | nil => exact absurd rfl h
  | cons c s =>
    unfold component
    rw [List.flatMap_cons]
    split <;> simp [pct]

theorem unescape_component {plus : Char} {s : List Char} (h : ∀ c ∈ s, c.toNat < 256) : unescape plus (component s) = some s := by
  rw [component_eq h]
  exact unescape_enc _ (fun c hc => ⟨(keeps_ne hc).1, fun e => absurd e (keeps_ne hc).2.1⟩) h

theorem unescape_append {plus : Char} : ∀ {p : List Char} (s : List Char), '%' ∉ p → '+' ∉ p →
    unescape plus (p ++ s) = (unescape plus s).map (p ++ ·)
  | [], s, _, _ => by simp
  | c :: p, s, h, h' => by
    have hc : c ≠ '%' := fun e => h (by simp [e])
    have hc' : c ≠ '+' := fun e => h' (by simp [e])
    show unescape plus (c :: (p ++ s)) = _
    rw [unescape_char hc (fun e => absurd e hc'), unescape_append s (fun e => h (by simp [e])) (fun e => h' (by simp [e]))]
    cases unescape plus s <;> rfl

theorem unescape_free {plus : Char} : ∀ {p : List Char}, '%' ∉ p → unescape plus p = some (p.map (fun c => if c = '+' then plus else c))
  | [], _ => rfl
  | c :: p, h => by
    have hc : c ≠ '%' := fun e => h (by simp [e])
    have ih := unescape_free (plus := plus) (fun e => h (by simp [e]) : '%' ∉ p)
    unfold unescape
    rw [if_neg hc, ih]
    rfl

theorem escapePath_append (p s : List Char) : escapePath (p ++ s) = escapePath p ++ escapePath s := by
  unfold escapePath
  rw [List.flatMap_append]

theorem escapePath_kept : ∀ {p : List Char}, p.all pathKeeps = true → escapePath p = p
  | [], _ => rfl
  | c :: p, h => by
    simp only [List.all_cons, Bool.and_eq_true] at h
    have ih := escapePath_kept h.2
    unfold escapePath at ih ⊢
    rw [List.flatMap_cons, ih, if_pos h.1]
    rfl

/-- the encoding of paths by `net/url` and that of browsers agree exactly on texts in which they keep the same characters -/
theorem escapes_alike : ∀ {s : List Char}, (∀ c ∈ s, c.toNat < 256) → (escapePath s = component s ↔ ∀ c ∈ s, pathKeeps c = componentKeeps c)
  | [], _ => by simp [escapePath, component]
  | c :: s, h => by
    have ih := escapes_alike (s := s) (fun x hx => h x (by simp [hx]))
    have hp := pct_eq (h c (by simp))
    unfold escapePath component at ih ⊢
    rw [List.flatMap_cons, List.flatMap_cons, hp]
    simp only [List.mem_cons, forall_eq_or_imp]
    cases h1 : pathKeeps c <;> cases h2 : componentKeeps c
    · simp only [Bool.false_eq_true, if_false, List.append_cancel_left_eq, true_and]
      exact ih
    · have : c ≠ '%' := (keeps_ne h2).1
      simp [percent, Ne.symm this]
    · have : c ≠ '%' := by rintro rfl; exact absurd h1 (by decide)
      simp [percent, this]
    · simp only [if_true, List.append_cancel_left_eq, true_and]
      exact ih

/-- the path that is routed, for an encoded text at the end of a plain path -/
theorem routePath_component {pre s : List Char} (hp : pre.all pathKeeps = true) (h2 : '+' ∉ pre) (hs : ∀ c ∈ s, c.toNat < 256) :
    routePath (pre ++ component s) = some (pre ++ if ∀ c ∈ s, pathKeeps c = componentKeeps c then s else component s) := by
  have h1 : '%' ∉ pre := by
    intro hm
    have := List.all_eq_true.mp hp _ hm
    exact absurd this (by decide)
  unfold routePath
  rw [unescape_append _ h1 h2, unescape_component hs]
  simp only [Option.map_some, escapePath_append, escapePath_kept hp, List.append_cancel_left_eq, escapes_alike hs]
  split <;> rfl

end Verif.Services.Routing
