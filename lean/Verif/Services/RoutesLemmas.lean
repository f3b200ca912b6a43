import Verif.Services.Routes
/-
Lemmas about the routing of HTTP requests.
-/

set_option autoImplicit false

namespace Verif.Services

open Verif

/-! ### splitting -/

theorem splitAt_ne_nil (d : Char) (s : List Char) : splitAt d s ≠ [] := by
  cases s with
  | nil => simp [splitAt]
  | cons c s =>
    unfold splitAt
    split
    · simp
    · split <;> simp

theorem splitAt_none {d : Char} : ∀ {x : List Char}, d ∉ x → splitAt d x = [x]
  | [], _ => rfl
  | c :: x, h => by
    have hc : c ≠ d := fun e => h (by simp [e])
    have hx : d ∉ x := fun e => h (by simp [e])
    unfold splitAt
    rw [if_neg hc, splitAt_none hx]

theorem splitAt_cons {d : Char} : ∀ {x : List Char} (s : List Char), d ∉ x → splitAt d (x ++ d :: s) = x :: splitAt d s
  | [], s, _ => by simp [splitAt]
  | c :: x, s, h => by
    have hc : c ≠ d := fun e => h (by simp [e])
    have hx : d ∉ x := fun e => h (by simp [e])
    show splitAt d (c :: (x ++ d :: s)) = _
    rw [splitAt, if_neg hc, splitAt_cons s hx]

/-- what the pieces say about the text -/
theorem splitAt_inv {d : Char} : ∀ {s x : List Char} {xs : List (List Char)}, splitAt d s = x :: xs →
    d ∉ x ∧ ((xs = [] ∧ s = x) ∨ ∃ t, s = x ++ d :: t ∧ splitAt d t = xs)
  | [], x, xs, h => by
    simp only [splitAt, List.cons.injEq] at h
    obtain ⟨rfl, rfl⟩ := h
    exact ⟨by simp, .inl ⟨rfl, rfl⟩⟩
  | c :: s, x, xs, h => by
    unfold splitAt at h
    by_cases hc : c = d
    · rw [if_pos hc] at h
      simp only [List.cons.injEq] at h
      obtain ⟨rfl, h⟩ := h
      exact ⟨by simp, .inr ⟨s, by simp [hc], h⟩⟩
    · rw [if_neg hc] at h
      cases hs : splitAt d s with
      | nil => exact absurd hs (splitAt_ne_nil d s)
      | cons y ys =>
        rw [hs] at h
        simp only [List.cons.injEq] at h
        obtain ⟨rfl, rfl⟩ := h
        obtain ⟨hn, hr⟩ := splitAt_inv hs
        refine ⟨?_, ?_⟩
        · simp only [List.mem_cons, not_or]
          exact ⟨fun e => hc e.symm, hn⟩
        · rcases hr with ⟨rfl, rfl⟩ | ⟨t, rfl, ht⟩
          · exact .inl ⟨rfl, rfl⟩
          · exact .inr ⟨t, rfl, ht⟩

theorem splitAt_one {d : Char} {s x : List Char} (h : splitAt d s = [x]) : s = x ∧ d ∉ x := by
  obtain ⟨hn, ⟨-, rfl⟩ | ⟨t, rfl, ht⟩⟩ := splitAt_inv h
  · exact ⟨rfl, hn⟩
  · exact absurd ht (splitAt_ne_nil d t)

theorem splitAt_more {d : Char} {s x y : List Char} {ys : List (List Char)} (h : splitAt d s = x :: y :: ys) :
    d ∉ x ∧ ∃ t, s = x ++ d :: t ∧ splitAt d t = y :: ys := by
  obtain ⟨hn, ⟨h0, -⟩ | h1⟩ := splitAt_inv h
  · exact absurd h0 (by simp)
  · exact ⟨hn, h1⟩

theorem splitAt_join {d : Char} : ∀ s : List Char, (splitAt d s).intersperse [d] |>.flatten |> (· = s)
  | [] => by simp [splitAt]
  | c :: s => by
    have ih := splitAt_join (d := d) s
    simp only at ih ⊢
    rw [splitAt]
    cases hs : splitAt d s with
    | nil => exact absurd hs (splitAt_ne_nil d s)
    | cons y ys =>
      rw [hs] at ih
      split
      · rename_i hc
        subst hc
        rw [List.intersperse_cons_cons]
        simp [ih]
      · cases ys with
        | nil => simpa using ih
        | cons z zs => simpa using ih

theorem splitAt_inj {d : Char} {s t : List Char} (h : splitAt d s = splitAt d t) : s = t := by
  have h1 := splitAt_join (d := d) s
  have h2 := splitAt_join (d := d) t
  simp only at h1 h2
  rw [← h1, ← h2, h]

theorem cutAt_none {d : Char} : ∀ {x : List Char}, d ∉ x → cutAt d x = (x, [])
  | [], _ => rfl
  | c :: x, h => by
    have hc : c ≠ d := fun e => h (by simp [e])
    have hx : d ∉ x := fun e => h (by simp [e])
    unfold cutAt
    rw [if_neg hc, cutAt_none hx]

theorem cutAt_cons {d : Char} : ∀ {x : List Char} (s : List Char), d ∉ x → cutAt d (x ++ d :: s) = (x, s)
  | [], s, _ => by simp [cutAt]
  | c :: x, s, h => by
    have hc : c ≠ d := fun e => h (by simp [e])
    have hx : d ∉ x := fun e => h (by simp [e])
    show cutAt d (c :: (x ++ d :: s)) = _
    rw [cutAt, if_neg hc, cutAt_cons s hx]

/-! ### matching -/

theorem matchSegs_literal : ∀ {p x : List (List Char)} {r : List (List Char)}, (∀ s ∈ p, s.head? ≠ some '{') →
    matchSegs p x = some r → x = p ∧ r = []
  | [], [], r, _, h => ⟨rfl, by simpa [matchSegs] using h.symm⟩
  | [], _ :: _, r, _, h => by simp [matchSegs] at h
  | _ :: _, [], r, _, h => by simp [matchSegs] at h
  | p :: ps, x :: xs, r, hp, h => by
    rw [matchSegs, if_neg (hp p (by simp))] at h
    split at h
    · rename_i he
      obtain ⟨rfl, rfl⟩ := matchSegs_literal (fun s hs => hp s (by simp [hs])) h
      exact ⟨by rw [he], rfl⟩
    · exact absurd h (by simp)

theorem matchSegs_lit {p : List Char} {ps x r : List (List Char)} (hp : p.head? ≠ some '{') (h : matchSegs (p :: ps) x = some r) :
    ∃ xs, x = p :: xs ∧ matchSegs ps xs = some r := by
  cases x with
  | nil => simp [matchSegs] at h
  | cons x xs =>
    rw [matchSegs, if_neg hp] at h
    split at h
    · rename_i he
      exact ⟨xs, by rw [he], h⟩
    · exact absurd h (by simp)

theorem matchSegs_param {p : List Char} {ps x r : List (List Char)} (hp : p.head? = some '{') (h : matchSegs (p :: ps) x = some r) :
    ∃ a xs rs, x = a :: xs ∧ (xs = [] → a ≠ []) ∧ r = a :: rs ∧ matchSegs ps xs = some rs := by
  cases x with
  | nil => simp [matchSegs] at h
  | cons x xs =>
    rw [matchSegs, if_pos hp] at h
    split at h
    · exact absurd h (by simp)
    · rename_i hn
      cases hm : matchSegs ps xs with
      | none => simp [hm] at h
      | some rs =>
        simp only [hm, Option.map_some, Option.some.injEq] at h
        exact ⟨x, xs, rs, rfl, fun hx ha => hn ⟨ha, hx⟩, h.symm, hm⟩

theorem matchSegs_nil {x r : List (List Char)} (h : matchSegs [] x = some r) : x = [] ∧ r = [] := by
  cases x with
  | nil => exact ⟨rfl, by simpa [matchSegs] using h.symm⟩
  | cons => simp [matchSegs] at h

theorem findRoute_mem {path : List Char} {h : Handler} {ps : List (List Char)} : ∀ {rs : List (String × Handler)},
    findRoute path rs = some (h, ps) → ∃ r ∈ rs, r.2 = h ∧ matchRoute r.1.toList path = some ps
  | [], e => by simp [findRoute] at e
  | r :: rs, e => by
    unfold findRoute at e
    cases hm : matchRoute r.1.toList path with
    | some qs =>
      rw [hm] at e
      simp only [Option.some.injEq, Prod.mk.injEq] at e
      exact ⟨r, by simp, e.1, by rw [hm, e.2]⟩
    | none =>
      rw [hm] at e
      obtain ⟨r', h', g⟩ := findRoute_mem e
      exact ⟨r', by simp [h'], g⟩

/-! ### escaping -/

theorem unhex_upperhex : ∀ n : Fin 16, unhex (upperhex n.1) = some n.1 := by decide

theorem unhex_upperhex' {n : Nat} (h : n < 16) : unhex (upperhex n) = some n := unhex_upperhex ⟨n, h⟩

/-- one byte given as three characters -/
theorem unescape_percent {plus c : Char} (hc : c.toNat < 256) (s : List Char) :
    unescape plus (percent c ++ s) = (unescape plus s).map (c :: ·) := by
  show unescape plus ('%' :: upperhex (c.toNat / 16) :: upperhex (c.toNat % 16) :: s) = _
  rw [unescape, if_pos rfl]
  rw [unhex_upperhex' (by omega), unhex_upperhex' (by omega)]
  simp only
  have : 16 * (c.toNat / 16) + c.toNat % 16 = c.toNat := by omega
  rw [this, Char.ofNat_toNat]

theorem unescape_char {plus c : Char} (h1 : c ≠ '%') (h2 : c = '+' → plus = '+') (s : List Char) :
    unescape plus (c :: s) = (unescape plus s).map (c :: ·) := by
  have e : unescape plus (c :: s) = (unescape plus s).map ((if c = '+' then plus else c) :: ·) := by
    cases s with
    | nil => simp [unescape, h1]
    | cons a t =>
      cases t with
      | nil => simp [unescape, h1]
      | cons b t => rw [unescape, if_neg h1]
  rw [e]
  by_cases h : c = '+'
  · rw [if_pos h, h2 h, h]
  · rw [if_neg h]

/-- Any encoding that leaves some bytes as they are and writes all others as three characters is undone. -/
theorem unescape_enc {plus : Char} (keep : Char → Bool) (hk : ∀ c, keep c = true → c ≠ '%' ∧ (c = '+' → plus = '+')) :
    ∀ {s : List Char}, (∀ c ∈ s, c.toNat < 256) →
      unescape plus (s.flatMap (fun c => if keep c then [c] else percent c)) = some s
  | [], _ => rfl
  | c :: s, h => by
    have ih := unescape_enc keep hk (s := s) (fun x hx => h x (by simp [hx]))
    rw [List.flatMap_cons]
    cases hc : keep c with
    | true =>
      rw [if_pos rfl, List.singleton_append]
      rw [unescape_char (hk c hc).1 (hk c hc).2, ih]
      rfl
    | false =>
      rw [if_neg (by simp), unescape_percent (h c (by simp)), ih]
      rfl

/-- a text without percent signs decodes to itself in a path -/
theorem unescape_plain : ∀ {s : List Char}, '%' ∉ s → unescape '+' s = some s
  | [], _ => rfl
  | c :: s, h => by
    have hc : c ≠ '%' := fun e => h (by simp [e])
    have hs : '%' ∉ s := fun e => h (by simp [e])
    rw [unescape_char hc (fun _ => rfl), unescape_plain hs]
    rfl

theorem routePath_plain {s : List Char} (h : '%' ∉ s) : routePath s = some s := by
  unfold routePath
  rw [unescape_plain h]
  simp

end Verif.Services
