import Verif.Services.RoutesSpec
import Verif.Props.Api
/-
Properties C116 and C117: which report a request leads to, and how addresses in requests may be encoded.
-/

set_option autoImplicit false

namespace Verif.Props

open Verif
open Verif.Chains (Addr DB Env Linkage)
open Verif.Peers (Registry Lib)
open Verif.Services
open Verif.Services.Routing

/-- a text that may stand in a request as it is -/
def Plain (s : List Char) : Prop := '%' ∉ s ∧ '?' ∉ s ∧ ∀ c ∈ s, isCtl c = false

/-- a library for the examples: it parses one address, in the way of `netip.ParseAddr` -/
def colonWeb : Web :=
  { exWeb with
    parse := fun s => if s = "::1".toList then some (Chains.Ex.ip 2) else none
    parse_valid := by intro s a h; split at h <;> cases h; simp [Chains.Ex.ip] }

/-- a view for the examples: a store with the positions of two peers, an empty registry, no failing reads -/
def exView : View where
  w := colonWeb
  d := ⟨fun t => decide (t < 253402300800), fun t _ h => by simp; omega, fun t h => by simp; omega⟩
  lib := Peers.Ex.lib
  cond _ := .good
  env _ := Chains.Ex.env
  db _ := Chains.Ex.l1.db
  reg _ := Peers.Ex.run []

/-! ### C116 -/

/-- The router hands a path over to a handler exactly if the path asks for its report, with the parameters as they stand in the path. -/
theorem C116_routes (path : List Char) (h : Handler) (ps : List (List Char)) :
    route "GET" path = .handler h ps ↔ Asks path h ps := by
  have e : route "GET" path = match (mounted path).bind (findRoute · routes) with
      | none => .notFound
      | some (h, ps) => .handler h ps := by
    unfold route
    rw [if_neg (by decide)]
    split
    · rename_i h0
      rw [h0]
    · rename_i h0
      rw [h0, if_pos rfl]
  rw [e]
  constructor
  · intro hr
    cases hf : (mounted path).bind (findRoute · routes) with
    | none => rw [hf] at hr; exact absurd hr (by simp)
    | some r =>
      rw [hf] at hr
      obtain ⟨h', ps'⟩ := r
      simp only [Routed.handler.injEq] at hr
      obtain ⟨rfl, rfl⟩ := hr
      exact asks_of_found hf
  · intro a
    rw [found_of_asks a]

/-- No path asks for two reports, nor for one report with different parameters. -/
theorem C116_unique {path : List Char} {h h' : Handler} {ps ps' : List (List Char)} (a : Asks path h ps) (b : Asks path h' ps') :
    h = h' ∧ ps = ps' := by
  have e := ((C116_routes path h ps).mpr a).symm.trans ((C116_routes path h' ps').mpr b)
  simpa using e

/-- What other methods lead to: never a report.  A method that is known is answered with 405 exactly if the path asks for a report. -/
theorem C116_methods (m : String) (hm : m ≠ "GET") (path : List Char) :
    (∀ h ps, route m path ≠ .handler h ps) ∧
    (m ∈ ["CONNECT", "DELETE", "HEAD", "OPTIONS", "PATCH", "POST", "PUT", "TRACE"] →
      (route m path = .notAllowed ↔ ∃ h ps, Asks path h ps) ∧ (route m path = .notFound ↔ ¬ ∃ h ps, Asks path h ps)) ∧
    (m ∉ ["CONNECT", "DELETE", "HEAD", "OPTIONS", "PATCH", "POST", "PUT", "TRACE"] → route m path = .notAllowed) := by
  have e : knownMethods.contains m = true → route m path = match (mounted path).bind (findRoute · routes) with
      | none => .notFound
      | some _ => .notAllowed := by
    intro hk
    unfold route
    rw [if_neg (by rw [hk]; decide)]
    split
    · rename_i h0
      rw [h0]
    · rename_i h0
      rw [h0, if_neg hm]
  refine ⟨?_, ?_, ?_⟩
  · intro h ps hr
    cases hk : knownMethods.contains m with
    | false =>
      unfold route at hr
      rw [if_pos (by rw [hk]; rfl)] at hr
      exact absurd hr (by simp)
    | true =>
      rw [e hk] at hr
      split at hr <;> exact absurd hr (by simp)
  · intro hin
    have hk : knownMethods.contains m = true := by
      simp only [List.mem_cons, List.not_mem_nil, or_false] at hin
      rcases hin with rfl | rfl | rfl | rfl | rfl | rfl | rfl | rfl <;> decide
    rw [e hk]
    cases hf : (mounted path).bind (findRoute · routes) with
    | none =>
      have hn : ¬ ∃ h ps, Asks path h ps := by
        rintro ⟨h, ps, a⟩
        rw [found_of_asks a] at hf
        exact absurd hf (by simp)
      simp [hn]
    | some r =>
      have hy : ∃ h ps, Asks path h ps := ⟨r.1, r.2, asks_of_found hf⟩
      simp [hy]
  · intro hout
    unfold route
    rw [if_pos]
    simp only [knownMethods, Bool.not_eq_true', List.contains_eq_mem, decide_eq_false_iff_not]
    simp only [List.mem_cons, List.not_mem_nil, or_false, not_or] at hout ⊢
    exact ⟨hout.1, hout.2.1, hm, hout.2.2⟩

/-- A request for a plain path, with or without a query, is answered by the handler that the path asks for. -/
theorem C116_asked (v : View) {path q : List Char} {h : Handler} {ps : List (List Char)} (a : Asks path h ps) (hp : Plain path)
    (hq : ∀ c ∈ q, isCtl c = false) :
    v.serve "GET" path = .report (v.call h ps []) ∧ v.serve "GET" (path ++ '?' :: q) = .report (v.call h ps q) := by
  obtain ⟨t, ht⟩ := asks_prefix a
  have hh : path.head? = some '/' := by rw [ht]; rfl
  have hr := (C116_routes path h ps).mpr a
  constructor
  · unfold View.serve
    rw [if_neg, cutAt_none hp.2.1]
    · simp only [routePath_plain hp.1, hr]
    · simp only [hh, ne_eq, not_true_eq_false, decide_false, Bool.or_false, List.any_eq_true, not_exists, not_and]
      intro c hc
      simp [hp.2.2 c hc]
  · unfold View.serve
    rw [if_neg, cutAt_cons _ hp.2.1]
    · simp only [routePath_plain hp.1, hr]
    · have hh' : (path ++ '?' :: q).head? = some '/' := by rw [ht]; rfl
      simp only [hh', ne_eq, not_true_eq_false, decide_false, Bool.or_false, List.any_eq_true, not_exists, not_and]
      intro c hc
      simp only [List.mem_append, List.mem_cons] at hc
      rcases hc with hc | rfl | hc
      · simp [hp.2.2 c hc]
      · decide
      · simp [hq c hc]

/-- The ten reports.  Parameters that are not of the form of an address or a number are refused by the handlers, C56. -/
theorem C116_paths (v : View) :
    v.serve "GET" "/api/peers/all".toList = .report ((v.d.peersRd (v.cond 0) v.lib (v.env 0) (v.reg 0)).map .peers) ∧
    v.serve "GET" "/api/peers/friendly".toList = .report ((v.d.friendlyRd (v.cond 0) v.lib (v.env 0) (v.reg 0)).map .peers) ∧
    v.serve "GET" "/api/connections".toList = .report ((v.d.connectionsRd (v.cond 0) v.lib (v.env 0) (v.reg 0)).map .peers) ∧
    v.serve "GET" "/api/heads".toList =
      .report ((v.w.headsRd (v.cond 0) (fun i => v.cond (i + 1)) (v.db 0) (fun i => v.db (i + 1))).map .heads) ∧
    v.serve "GET" "/api/leashes".toList =
      .report ((v.w.leashesRd (v.cond 0) (fun i => v.cond (i + 1)) (v.env 0) (v.db 0) (fun i => v.db (i + 1))).map .leashes) ∧
    v.serve "GET" "/api/status".toList =
      .report ((statusRd (v.cond 0) (v.cond 1) (v.cond 2) (v.cond 3) v.lib (v.env 0) (v.env 1) (v.env 2) (v.env 3) (v.db 0) (v.reg 1)
        (v.reg 2) (v.reg 3)).map .status) ∧
    v.serve "GET" "/api/forks".toList = .report ((v.w.forksRd (v.cond 0) (v.env 0) (v.db 0) []).map .forks) ∧
    v.serve "GET" "/api/active-forks".toList =
      .report ((v.w.activeForksRd (v.cond 0) (v.cond 1) v.lib (v.env 0) (v.env 1) (v.reg 0) (v.db 1) []).map .forks) ∧
    (∀ a, Plain a → '/' ∉ a → a ≠ [] → v.serve "GET" ("/api/fork/".toList ++ a) =
      .report ((v.w.forkRd (v.cond 0) (v.cond 1) (v.env 1) (v.db 0) (v.db 1) a).map .fork)) ∧
    (∀ a n, Plain a → Plain n → '/' ∉ a → '/' ∉ n → n ≠ [] →
      v.serve "GET" ("/api/fork/".toList ++ a ++ "/generators/".toList ++ n) =
        .report ((v.w.forkGeneratorsRd (v.cond 0) (v.cond 1) (v.cond 2) (v.env 1) (v.env 2) (v.db 0) (v.db 1) (v.db 2) a n).map
          .generators)) := by
  have pl : ∀ s : List Char, (decide ('%' ∉ s) && decide ('?' ∉ s) && s.all (fun c => !isCtl c)) = true → Plain s := by
    intro s h
    simp only [Bool.and_eq_true, decide_eq_true_eq, List.all_eq_true, Bool.not_eq_true'] at h
    exact ⟨h.1.1, h.1.2, h.2⟩
  have app : ∀ {s t : List Char}, Plain s → Plain t → Plain (s ++ t) := by
    intro s t hs ht
    refine ⟨?_, ?_, ?_⟩
    · simp [hs.1, ht.1]
    · simp [hs.2.1, ht.2.1]
    · intro c hc
      rcases List.mem_append.mp hc with h | h
      · exact hs.2.2 c h
      · exact ht.2.2 c h
  have nil : ∀ c ∈ ([] : List Char), isCtl c = false := by simp
  refine ⟨(C116_asked v .peers (pl _ (by decide)) nil).1, (C116_asked v .friendly (pl _ (by decide)) nil).1,
    (C116_asked v .connections (pl _ (by decide)) nil).1, (C116_asked v .heads (pl _ (by decide)) nil).1,
    (C116_asked v .leashes (pl _ (by decide)) nil).1, (C116_asked v .status (pl _ (by decide)) nil).1,
    (C116_asked v .forks (pl _ (by decide)) nil).1, (C116_asked v .activeForks (pl _ (by decide)) nil).1, ?_, ?_⟩
  · intro a ha hs hn
    exact (C116_asked v (.fork a hn hs) (app (pl _ (by decide)) ha) nil).1
  · intro a n ha hn hs hs' h0
    exact (C116_asked v (.generators a n hs hs' h0) (app (app (app (pl _ (by decide)) ha) (pl _ (by decide))) hn) nil).1

/-- Only such requests get a report: the method is GET, and the path, as it stands or decoded, asks for it. -/
theorem C116_only (v : View) (m : String) (target : List Char) (r : Resp Report) (h : v.serve m target = .report r) :
    m = "GET" ∧ ∃ path hd ps, Asks path hd ps ∧ r = v.call hd ps (cutAt '?' target).2 ∧
      (path = (cutAt '?' target).1 ∨ unescape '+' (cutAt '?' target).1 = some path) := by
  unfold View.serve at h
  split at h
  · exact absurd h (by simp)
  · split at h
    · exact absurd h (by simp)
    · rename_i path hp
      have hm : m = "GET" := by
        apply Classical.byContradiction
        intro hne
        have := (C116_methods m hne path).1
        cases hr : route m path with
        | handler hd ps => exact this _ _ hr
        | notFound => rw [hr] at h; exact absurd h (by simp)
        | notAllowed => rw [hr] at h; exact absurd h (by simp)
      subst hm
      refine ⟨rfl, ?_⟩
      cases hr : route "GET" path with
      | handler hd ps =>
        rw [hr] at h
        simp only [Reply.report.injEq] at h
        refine ⟨path, hd, ps, (C116_routes _ _ _).mp hr, h.symm, ?_⟩
        unfold routePath at hp
        cases hu : unescape '+' (cutAt '?' target).1 with
        | none => simp [hu] at hp
        | some p =>
          simp only [hu, Option.map_some, Option.some.injEq] at hp
          split at hp
          · exact .inr (by rw [hp])
          · exact .inl hp.symm
      | notFound => rw [hr] at h; exact absurd h (by simp)
      | notAllowed => rw [hr] at h; exact absurd h (by simp)

/-- Requests that get a report, and some that do not. -/
example : replyStatus (exView.serve "GET" "/api/status".toList) = some 200 ∧
    replyStatus (exView.serve "GET" "/api/fork/::1".toList) = some 200 ∧
    replyStatus (exView.serve "GET" "/api/fork/::1/generators/3".toList) = some 200 ∧
    replyStatus (exView.serve "GET" "/api/forks?peers=::1".toList) = some 200 ∧
    replyStatus (exView.serve "GET" "/api/forks?peers=nobody".toList) = some 400 ∧
    replyStatus (exView.serve "GET" "/api/fork/".toList) = some 404 ∧
    replyStatus (exView.serve "GET" "/api/status/".toList) = some 404 ∧
    replyStatus (exView.serve "GET" "/status".toList) = some 404 ∧
    replyStatus (exView.serve "GET" "/api".toList) = some 404 ∧
    replyStatus (exView.serve "POST" "/api/status".toList) = some 405 ∧
    replyStatus (exView.serve "HEAD" "/api/status".toList) = some 405 ∧
    replyStatus (exView.serve "GET" "/api/%zz".toList) = some 400 := by decide +kernel

/-! ### C117 -/

/-- What the handler of a fork gets as the address, if the client encodes the address: the address, if it has none of the characters on which
the two encodings differ, and else the encoded text. -/
theorem C117_exact (v : View) {s : List Char} (hs : ∀ c ∈ s, c.toNat < 256) (h0 : s ≠ []) :
    v.serve "GET" ("/api/fork/".toList ++ component s) =
      .report (v.call .fork [if ∀ c ∈ s, c ∉ "$&+,/:;=@!*'()".toList then s else component s] []) := by
  have alike : (∀ c ∈ s, pathKeeps c = componentKeeps c) ↔ ∀ c ∈ s, c ∉ "$&+,/:;=@!*'()".toList := by
    have key : ∀ n : Fin 256, pathKeeps (Char.ofNat n.1) = componentKeeps (Char.ofNat n.1) ↔
        Char.ofNat n.1 ∉ "$&+,/:;=@!*'()".toList := by decide +kernel
    have k : ∀ c ∈ s, pathKeeps c = componentKeeps c ↔ c ∉ "$&+,/:;=@!*'()".toList := by
      intro c hc
      have := key ⟨c.toNat, hs c hc⟩
      rwa [show Char.ofNat c.toNat = c from Char.ofNat_toNat c] at this
    exact ⟨fun h c hc => (k c hc).mp (h c hc), fun h c hc => (k c hc).mpr (h c hc)⟩
  have hf := component_free (s := s)
  have hq : '?' ∉ "/api/fork/".toList ++ component s := by
    intro hm
    rcases List.mem_append.mp hm with h | h
    · exact absurd h (by decide)
    · exact hf.1 h
  have asks : Asks ("/api/fork/".toList ++ if ∀ c ∈ s, c ∉ "$&+,/:;=@!*'()".toList then s else component s) .fork
      [if ∀ c ∈ s, c ∉ "$&+,/:;=@!*'()".toList then s else component s] := by
    split
    · rename_i h
      exact .fork s h0 (fun hm => h _ hm (by decide))
    · exact .fork _ (component_ne_nil h0) hf.2.1
  unfold View.serve
  rw [if_neg, cutAt_none hq, routePath_component (by decide) (by decide) hs]
  · simp only [alike]
    rw [(C116_routes _ _ _).mpr asks]
  · rw [Bool.not_eq_true, Bool.or_eq_false_iff]
    refine ⟨?_, by simp⟩
    rw [List.any_eq_false]
    intro c hc
    rcases List.mem_append.mp hc with h | h
    · have : ∀ c ∈ "/api/fork/".toList, isCtl c = false := by decide
      simp [this c h]
    · simp [hf.2.2.2.2.2 c h]

/-- An address that is encoded leads to the same answer as the address as it stands, if it has no colon nor other characters on which the
encodings differ.  Addresses of version 4 are of this kind.  Missing: addresses of version 6. -/
theorem C117_encoded_partial (v : View) {s : List Char} (hs : ∀ c ∈ s, c.toNat < 256) (h0 : s ≠ [])
    (hc : ∀ c ∈ s, c ∉ "$&+,/:;=@!*'()".toList) :
    v.serve "GET" ("/api/fork/".toList ++ component s) =
      .report ((v.w.forkRd (v.cond 0) (v.cond 1) (v.env 1) (v.db 0) (v.db 1) s).map .fork) := by
  rw [C117_exact v hs h0, if_pos hc]
  rfl

/-- An encoded address of version 6 is refused, whatever the program knows about it. -/
theorem C117_refused (v : View) (hr : RefusesBareZone v.w.parse) {p r : List Char} (hp : ∀ c ∈ p, alnum c = true)
    (hs : ∀ c ∈ r, c.toNat < 256) :
    v.serve "GET" ("/api/fork/".toList ++ component (p ++ ':' :: r)) = .report .badRequest := by
  have hb : ∀ c ∈ p, c.toNat < 256 := by
    intro c hc
    have h1 := hp c hc
    simp only [alnum, Bool.or_eq_true, Bool.and_eq_true, decide_eq_true_eq] at h1
    have le : ∀ {a b : Char}, a ≤ b → a.toNat ≤ b.toNat := fun h => h
    have a1 : 'z'.toNat = 122 := rfl
    have a2 : 'Z'.toNat = 90 := rfl
    have a3 : '9'.toNat = 57 := rfl
    rcases h1 with (h1 | h1) | h1 <;> have := le h1.2 <;> omega
  have hall : ∀ c ∈ p ++ ':' :: r, c.toNat < 256 := by
    intro c hc
    simp only [List.mem_append, List.mem_cons] at hc
    rcases hc with h | rfl | h
    · exact hb c h
    · decide
    · exact hs c h
  rw [C117_exact v hall (by simp), if_neg (fun h => absurd (h ':' (by simp)) (by decide))]
  have e : component (p ++ ':' :: r) = p ++ '%' :: ("3A".toList ++ component r) := by
    have kp : ∀ {p : List Char}, (∀ c ∈ p, alnum c = true) → component p = p := by
      intro p
      induction p with
      | nil => intro _; rfl
      | cons c p ih =>
        intro h
        have hc : componentKeeps c = true := by unfold componentKeeps; rw [h c (by simp)]; rfl
        have hi := ih (fun x hx => h x (by simp [hx]))
        unfold component at hi ⊢
        rw [List.flatMap_cons, if_pos hc, hi]
        rfl
    have ap : component (p ++ ':' :: r) = component p ++ component (':' :: r) := by unfold component; rw [List.flatMap_append]
    rw [ap, kp hp]
    rfl
  have np : ∀ d, alnum d = false → d ∉ p := by
    intro d hd hm
    rw [hp d hm] at hd
    exact absurd hd (by simp)
  show Reply.report ((v.w.forkRd _ _ _ _ _ (component (p ++ ':' :: r))).map .fork) = _
  unfold Web.forkRd
  rw [e, hr p _ (np '.' (by decide)) (np ':' (by decide))]
  rfl

/-- The disagreement: a known peer, whose fork is reported if its address is written as it is, and refused if the address is encoded. -/
theorem C117_witness : RefusesBareZone exView.w.parse ∧
    replyStatus (exView.serve "GET" "/api/fork/::1".toList) = some 200 ∧
    component "::1".toList = "%3A%3A1".toList ∧
    exView.serve "GET" ("/api/fork/".toList ++ component "::1".toList) = .report .badRequest := by
  have h : RefusesBareZone exView.w.parse := by
    intro p r hd hc
    show (if p ++ '%' :: r = "::1".toList then _ else none) = none
    rw [if_neg]
    intro e
    have : '%' ∈ "::1".toList := by rw [← e]; simp
    exact absurd this (by decide)
  exact ⟨h, by decide +kernel, by decide, C117_refused exView h (p := []) (by simp) (by decide)⟩

/-- the text of a query with these keys and values -/
def queryText : List (List Char × List Char) → List Char
  | [] => []
  | [p] => component p.1 ++ '=' :: component p.2
  | p :: ps => component p.1 ++ '=' :: component p.2 ++ '&' :: queryText ps

/-- Values in a query may be encoded: a key has the first of its values, as the client meant it. -/
theorem C117_query (ps : List (List Char × List Char)) (hb : ∀ p ∈ ps, (∀ c ∈ p.1, c.toNat < 256) ∧ ∀ c ∈ p.2, c.toNat < 256)
    (key : List Char) : queryGet key (queryText ps) = ((ps.find? (fun p => p.1 = key)).map (·.2)).getD [] := by
  have one : ∀ p : List Char × List Char, ((∀ c ∈ p.1, c.toNat < 256) ∧ ∀ c ∈ p.2, c.toNat < 256) →
      queryPair (component p.1 ++ '=' :: component p.2) = some p := by
    intro p h
    unfold queryPair
    have f1 := component_free (s := p.1)
    have f2 := component_free (s := p.2)
    rw [if_neg, if_neg (by simp), cutAt_cons _ f1.2.2.2.1, unescape_component h.1, unescape_component h.2]
    · rfl
    · simp [f1.2.2.2.2.1, f2.2.2.2.2.1]
  have amp : ∀ p : List Char × List Char, '&' ∉ component p.1 ++ '=' :: component p.2 := by
    intro p
    have f1 := component_free (s := p.1)
    have f2 := component_free (s := p.2)
    simp [f1.2.2.1, f2.2.2.1]
  have pairs : ∀ ps : List (List Char × List Char), (∀ p ∈ ps, (∀ c ∈ p.1, c.toNat < 256) ∧ ∀ c ∈ p.2, c.toNat < 256) →
      queryPairs (queryText ps) = ps := by
    intro ps
    induction ps with
    | nil => intro _; rfl
    | cons p ps ih =>
      intro h
      cases ps with
      | nil =>
        unfold queryPairs queryText
        rw [splitAt_none (amp p), List.filterMap_cons, one p (h p (by simp))]
        rfl
      | cons p' ps =>
        have hi := ih (fun x hx => h x (by simp [hx]))
        unfold queryPairs at hi ⊢
        rw [queryText, splitAt_cons _ (amp p), List.filterMap_cons, one p (h p (by simp)), hi]
        simp
  unfold queryGet
  rw [pairs ps hb]
  cases List.find? (fun p => decide (p.1 = key)) ps <;> rfl

/-- The reports about forks are about the peers in the query parameter `peers`, as the client meant them; other parameters are ignored. -/
theorem C117_forks (v : View) (ps : List (List Char × List Char)) (hb : ∀ p ∈ ps, (∀ c ∈ p.1, c.toNat < 256) ∧ ∀ c ∈ p.2, c.toNat < 256) :
    v.serve "GET" ("/api/forks".toList ++ '?' :: queryText ps) =
      .report ((v.w.forksRd (v.cond 0) (v.env 0) (v.db 0) (((ps.find? (fun p => p.1 = "peers".toList)).map (·.2)).getD [])).map .forks) ∧
    v.serve "GET" ("/api/active-forks".toList ++ '?' :: queryText ps) =
      .report ((v.w.activeForksRd (v.cond 0) (v.cond 1) v.lib (v.env 0) (v.env 1) (v.reg 0) (v.db 1)
        (((ps.find? (fun p => p.1 = "peers".toList)).map (·.2)).getD [])).map .forks) := by
  have hq : ∀ ps : List (List Char × List Char), ∀ c ∈ queryText ps, isCtl c = false := by
    intro ps
    have one : ∀ p : List Char × List Char, ∀ c ∈ component p.1 ++ '=' :: component p.2, isCtl c = false := by
      intro p c hc
      rcases List.mem_append.mp hc with h | h
      · exact (component_free (s := p.1)).2.2.2.2.2 c h
      · rcases List.mem_cons.mp h with rfl | h
        · decide
        · exact (component_free (s := p.2)).2.2.2.2.2 c h
    induction ps with
    | nil => intro c hc; cases hc
    | cons p ps ih =>
      cases ps with
      | nil => exact one p
      | cons p' ps =>
        intro c hc
        rw [queryText] at hc
        · rcases List.mem_append.mp hc with h | h
          · exact one p c h
          · rcases List.mem_cons.mp h with rfl | h
            · decide
            · exact ih c h
        · simp
  have pl : ∀ s : List Char, (decide ('%' ∉ s) && decide ('?' ∉ s) && s.all (fun c => !isCtl c)) = true → Plain s := by
    intro s h
    simp only [Bool.and_eq_true, decide_eq_true_eq, List.all_eq_true, Bool.not_eq_true'] at h
    exact ⟨h.1.1, h.1.2, h.2⟩
  rw [← C117_query ps hb "peers".toList]
  exact ⟨(C116_asked v .forks (pl _ (by decide)) (hq ps)).2, (C116_asked v .activeForks (pl _ (by decide)) (hq ps)).2⟩

/-- Values without the characters that have a meaning in a query may stand as they are; a plus sign stands for a space. -/
theorem C117_query_plain (v : List Char) (h : ∀ c ∈ v, c ∉ "&;%".toList) :
    queryGet "peers".toList ("peers=".toList ++ v) = v.map (fun c => if c = '+' then ' ' else c) := by
  have no : ∀ d, d ∈ "&;%".toList → d ∉ v := fun d hd hm => h d hm hd
  have hu : unescape ' ' v = some (v.map (fun c => if c = '+' then ' ' else c)) := unescape_free (no _ (by decide))
  have hp : queryPair ("peers=".toList ++ v) = some ("peers".toList, v.map (fun c => if c = '+' then ' ' else c)) := by
    unfold queryPair
    rw [if_neg, if_neg (by simp), show "peers=".toList ++ v = "peers".toList ++ '=' :: v from rfl, cutAt_cons _ (by decide), hu]
    · rfl
    · have := no ';' (by decide)
      simp [this]
  unfold queryGet queryPairs
  rw [splitAt_none (by have := no '&' (by decide); simp [this]), List.filterMap_cons, hp]
  rfl

example : queryGet "peers".toList "peers=::1,+::2".toList = "::1, ::2".toList := C117_query_plain "::1,+::2".toList (by decide)

/-- an encoded list of addresses in a query, behind another parameter -/
example : queryGet "peers".toList "verbose=1&peers=%3A%3A1%2C%2010.0.0.1&peers=::2".toList = "::1, 10.0.0.1".toList := by decide +kernel

end Verif.Props
