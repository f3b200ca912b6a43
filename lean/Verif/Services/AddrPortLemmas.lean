import Verif.Services.AddrPort
import Verif.Services.NetipLemmas
/-
Addresses with ports are read back from their texts.
-/

set_option autoImplicit false

namespace Verif.Services.Netip

open Verif
open Verif.Chains (Addr BytesN)
open Verif.Peers (AddrPort is4)
open Verif.Services.Json (digits dotted hex decVal decVal_digits isDig digits_isDig forall_byte)

theorem splitLast_none {d : Char} : ∀ {s : List Char}, d ∉ s → splitLast d s = none
  | [], _ => rfl
  | c :: s, h => by
    rw [splitLast, splitLast_none (fun hm => h (List.mem_cons_of_mem _ hm))]
    simp only
    rw [if_neg (fun e => h (by simp [e]))]

theorem splitLast_append {d : Char} : ∀ (a : List Char) {t : List Char}, d ∉ t → splitLast d (a ++ d :: t) = some (a, t)
  | [], t, h => by
    show splitLast d (d :: t) = _
    rw [splitLast, splitLast_none h]
    simp
  | c :: a, t, h => by
    show splitLast d (c :: (a ++ d :: t)) = _
    rw [splitLast, splitLast_append a h]

theorem digit_char {x : UInt8} (h : isDig x = true) : (undec (Char.ofNat x.toNat)).isSome = true ∧ Char.ofNat x.toNat ≠ ':' ∧
    (Char.ofNat x.toNat).toNat = x.toNat :=
  forall_byte (p := fun x => isDig x = true → (undec (Char.ofNat x.toNat)).isSome = true ∧ Char.ofNat x.toNat ≠ ':' ∧
    (Char.ofNat x.toNat).toNat = x.toNat) (by decide +kernel) x h

theorem portText_colon (p : UInt16) : ':' ∉ portText p := by
  intro h
  obtain ⟨x, hx, e⟩ := List.mem_map.mp h
  exact (digit_char (digits_isDig _ x hx)).2.1 e

theorem portText_ne (p : UInt16) : portText p ≠ [] := by
  intro h
  exact digits_ne _ (List.map_eq_nil_iff.mp h)

theorem fold_chars : ∀ (l : Bytes) (n : Nat), (∀ x, x ∈ l → isDig x = true) →
    (chars l).foldl (fun n c => n * 10 + (c.toNat - 48)) n = l.foldl (fun n b => n * 10 + (b.toNat - 48)) n
  | [], _, _ => rfl
  | x :: l, n, h => by
    have e := (digit_char (h x (by simp))).2.2
    rw [chars_cons, List.foldl_cons, List.foldl_cons, e]
    exact fold_chars l _ (fun y hy => h y (List.mem_cons_of_mem _ hy))

theorem parsePort_text (p : UInt16) : parsePort (portText p) = some p := by
  have hf : (portText p).foldl (fun n c => n * 10 + (c.toNat - 48)) 0 = p.toNat := by
    unfold portText
    rw [fold_chars _ _ (digits_isDig _)]
    exact decVal_digits _
  have ha : (portText p).all (fun c => (undec c).isSome) = true := by
    rw [List.all_eq_true]
    intro c hc
    obtain ⟨x, hx, rfl⟩ := List.mem_map.mp hc
    exact (digit_char (digits_isDig _ x hx)).1
  have hl := p.toNat_lt
  unfold parsePort
  rw [if_neg (portText_ne p), if_pos ha, hf, if_pos (by omega)]
  simp

/-! ### zones -/

/-- the address with the zone -/
def withZone (z : List Char) : Addr → Addr
  | .v6 b _ => .v6 b (String.ofList z)
  | a => a

theorem addr6_zone (z : List Char) (b : Bytes) : addr6 z b = (addr6 [] b).map (withZone z) := by
  unfold addr6
  split
  · rfl
  · rfl

theorem parse6In_zone (z s : List Char) : parse6In z s = (parse6In [] s).map (withZone z) := by
  have key : ∀ o : Option (Bytes × Option Nat × List Char), o.bind (fun r => (expand r.1 r.2.1 r.2.2).bind (addr6 z)) =
      (o.bind (fun r => (expand r.1 r.2.1 r.2.2).bind (addr6 []))).map (withZone z) := by
    intro o
    cases o with
    | none => rfl
    | some r =>
      simp only [Option.bind_some]
      cases expand r.1 r.2.1 r.2.2 with
      | none => rfl
      | some b => simp only [Option.bind_some]; exact addr6_zone z b
  unfold parse6In
  split
  · exact addr6_zone z _
  · exact key _
  · exact key _

/-- the text of an IPv6 address begins with hexadecimal digits and a colon -/
theorem v6Text_shape (b : BytesN 16) : ∃ p s, chars (v6Text b "") = p ++ ':' :: s ∧ ∀ c, c ∈ p → neutral c := by
  unfold v6Text
  rw [if_pos (rfl : ("" : String) = ""), List.append_nil]
  split
  · exact ⟨[], _, rfl, fun c hc => by cases hc⟩
  · exact (text6_shape b).1

theorem v6Text_pct (b : BytesN 16) : '%' ∉ chars (v6Text b "") := fun h => absurd (v6Text_chars b _ h) (by decide)

theorem parse6In_v6Text (b : BytesN 16) : parse6In [] (chars (v6Text b "")) = some (.v6 b "") := by
  have h := parse_v6Text b
  obtain ⟨p, s, e, hp⟩ := v6Text_shape b
  have : parseAddr (chars (v6Text b "")) = parse6 (chars (v6Text b "")) := by
    unfold parseAddr
    conv => lhs; arg 2; rw [e]
    rw [parseFrom_skip hp, parseFrom, if_neg (by decide), if_pos rfl]
  rw [this, parse6_free (v6Text_pct b)] at h
  exact h

theorem parse_addrText_v6 (b : BytesN 16) (z : String) : parseAddr (addrText (.v6 b z)) = some (.v6 b z) := by
  show parseAddr (chars (v6Text b "") ++ (if z = "" then [] else '%' :: z.toList)) = _
  by_cases hz : z = ""
  · rw [if_pos hz, List.append_nil, hz]; exact parse_v6Text b
  · rw [if_neg hz]
    obtain ⟨p, s, e, hp⟩ := v6Text_shape b
    have h1 : parseAddr (chars (v6Text b "") ++ '%' :: z.toList) = parse6 (chars (v6Text b "") ++ '%' :: z.toList) := by
      unfold parseAddr
      conv => lhs; arg 2; rw [e, List.append_assoc]
      rw [parseFrom_skip hp, List.cons_append, parseFrom, if_neg (by decide), if_pos rfl]
    rw [h1]
    unfold parse6
    rw [if_pos (by simp), cutAt_cons _ (v6Text_pct b)]
    have hne : z.toList ≠ [] := by
      intro h
      apply hz
      rw [← String.ofList_toList (s := z), h]
    rw [if_neg hne, parse6In_zone, parse6In_v6Text]
    simp [withZone, String.ofList_toList]

theorem parse_addrText {a : Addr} (h : a ≠ .zero) : parseAddr (addrText a) = some a := by
  cases a with
  | zero => exact absurd rfl h
  | v4 b => exact parse_dotted b
  | v6 b z => exact parse_addrText_v6 b z

/-! ### addresses with ports -/

theorem parseAddrPort_plain {h : List Char} {p : UInt16} (h0 : h ≠ []) (h1 : h.head? ≠ some '[') :
    parseAddrPort (h ++ ':' :: portText p) = parseHost false h (portText p) := by
  unfold parseAddrPort
  rw [splitLast_append h (portText_colon p)]
  simp only [if_neg h0, if_neg (portText_ne p), if_neg h1]

theorem parseAddrPort_brackets {h : List Char} {p : UInt16} :
    parseAddrPort ('[' :: (h ++ ']' :: ':' :: portText p)) = parseHost true h (portText p) := by
  have e : '[' :: (h ++ ']' :: ':' :: portText p) = ('[' :: (h ++ [']'])) ++ ':' :: portText p := by simp
  unfold parseAddrPort
  rw [e, splitLast_append _ (portText_colon p)]
  simp only [reduceCtorEq, ↓reduceIte, if_neg (portText_ne p), List.head?_cons, List.length_cons, List.length_append, List.length_nil,
    List.tail_cons]
  rw [if_neg]
  · rw [List.dropLast_concat]
  · have : ('[' :: (h ++ [']'])).getLast? = some ']' := by
      rw [← List.cons_append, List.getLast?_concat]
    rw [this]
    simp

theorem parseHost_some {br : Bool} {h : List Char} {p : UInt16} {a : Addr} (ha : parseAddr h = some a) (hb : br ≠ is4 a) :
    parseHost br h (portText p) = some ⟨a, p⟩ := by
  unfold parseHost
  rw [parsePort_text, ha]
  simp only [if_neg hb]

theorem dotted_first (b : BytesN 4) : chars (dotted b.1) ≠ [] ∧ (chars (dotted b.1)).head? ≠ some '[' := by
  constructor
  · intro h
    have := parse_dotted b
    rw [h] at this
    cases this
  · intro h
    cases hd : chars (dotted b.1) with
    | nil => rw [hd] at h; cases h
    | cons c t =>
      rw [hd] at h
      cases h
      exact absurd (dotted_chars b.1 '[' (by rw [hd]; simp)) (by decide)

theorem parse_v4Port (b : BytesN 4) (p : UInt16) : parseAddrPort (chars (dotted b.1) ++ ':' :: portText p) = some ⟨.v4 b, p⟩ := by
  rw [parseAddrPort_plain (dotted_first b).1 (dotted_first b).2]
  exact parseHost_some (parse_dotted b) (by simp [is4])

theorem parse_v6Port (b : BytesN 16) (z : String) (p : UInt16) :
    parseAddrPort ('[' :: (addrText (.v6 b z) ++ ']' :: ':' :: portText p)) = some ⟨.v6 b z, p⟩ := by
  rw [parseAddrPort_brackets]
  exact parseHost_some (parse_addrText_v6 b z) (by simp [is4])

theorem parse_apText {ap : AddrPort} (h : ap.addr ≠ .zero) : parseAddrPort (apText ap) = some ap := by
  obtain ⟨a, p⟩ := ap
  cases a with
  | zero => exact absurd rfl h
  | v4 b => exact parse_v4Port b p
  | v6 b z => exact parse_v6Port b z p

theorem parseAddrPort_ne {s : List Char} {ap : AddrPort} (h : parseAddrPort s = some ap) : ap.addr ≠ .zero := by
  have key : ∀ {br : Bool} {h p : List Char} {ap : AddrPort}, parseHost br h p = some ap → ap.addr ≠ .zero := by
    intro br h p ap e
    unfold parseHost at e
    split at e
    · cases e
    · split at e
      · cases e
      · next a ha =>
        split at e
        · cases e
        · cases e; exact parse_ne ha
  unfold parseAddrPort at h
  repeat' split at h
  all_goals first | cases h | exact key h

theorem dotted_colon (b : Bytes) : ':' ∉ chars (dotted b) := fun h => absurd (dotted_chars b _ h) (by decide)

theorem v6_contains_colon (b : BytesN 16) (r : List Char) : (chars (v6Text b "") ++ r).contains ':' = true := by
  obtain ⟨p, s, e, _⟩ := v6Text_shape b
  rw [List.contains_iff_mem, e]
  simp

theorem tcpText_v4 (b : BytesN 4) (p : UInt16) : tcpText ⟨b.1, "", p⟩ = chars (dotted b.1) ++ ':' :: portText p := by
  have hne : b.1 ≠ [] := fun h => by have := b.2; rw [h] at this; simp at this
  unfold tcpText joinHostPort ipText
  simp only [if_neg hne, dif_pos b.2, ↓reduceIte, List.append_nil]
  rw [if_neg]
  simp only [List.contains_iff_mem]
  exact dotted_colon _

theorem mapped_length (b : BytesN 4) : (mapped b).length = 16 := by simp [mapped, b.2]

theorem mapped_in6 (b : BytesN 4) : in6 (mapped b) = true := by
  unfold in6 mapped
  rw [decide_eq_true_eq, ← List.append_assoc, List.take_left' (by simp)]

theorem mapped_drop (b : BytesN 4) : (mapped b).drop 12 = b.1 := by
  unfold mapped
  rw [← List.append_assoc, List.drop_left' (by simp)]

theorem ipText_in6 {ip : Bytes} (h : ip.length = 16) (h6 : in6 ip = true) : ipText ip = chars (dotted (ip.drop 12)) := by
  unfold ipText
  rw [dif_neg (by omega), dif_pos h, if_pos h6]

theorem ipText_v6 {ip : Bytes} (h : ip.length = 16) (h6 : in6 ip = false) : ipText ip = chars (v6Text ⟨ip, h⟩ "") := by
  unfold ipText
  rw [dif_neg (by omega), dif_pos h, h6]
  rfl

theorem tcpText_in6 {ip : Bytes} (h : ip.length = 16) (h6 : in6 ip = true) (p : UInt16) :
    tcpText ⟨ip, "", p⟩ = chars (dotted (ip.drop 12)) ++ ':' :: portText p := by
  have hne : ip ≠ [] := fun e => by rw [e] at h; simp at h
  unfold tcpText joinHostPort
  simp only [if_neg hne, ipText_in6 h h6, ↓reduceIte, List.append_nil]
  rw [if_neg]
  simp only [List.contains_iff_mem]
  exact dotted_colon _

theorem tcpText_v6 (b : BytesN 16) (h6 : in6 b.1 = false) (z : String) (p : UInt16) :
    tcpText ⟨b.1, z, p⟩ = '[' :: (addrText (.v6 b z) ++ ']' :: ':' :: portText p) := by
  have hne : b.1 ≠ [] := fun e => by have h := b.2; rw [e] at h; simp at h
  unfold tcpText joinHostPort
  simp only [if_neg hne]
  rw [ipText_v6 b.2 h6, if_pos (v6_contains_colon _ _)]
  rfl

theorem in6_as4 (b : BytesN 16) (z : String) :
    (in6 b.1 = true → Peers.as4 (.v6 b z) = .ok ⟨b.1.drop 12, by simp [b.2]⟩) ∧ (in6 b.1 = false → ∃ e, Peers.as4 (.v6 b z) = .error e) := by
  unfold in6
  constructor
  · intro h
    simp only [Peers.as4]
    rw [if_pos (of_decide_eq_true h)]
  · intro h
    simp only [Peers.as4]
    rw [if_neg (of_decide_eq_false h)]
    exact ⟨_, rfl⟩

/-! ### no port without `ParseAddrPort` -/

theorem parse_bracket (s : List Char) : parseAddr ('[' :: s) = none := by
  have h4 : parse4 ('[' :: s) = none := rfl
  have hin : ∀ z s, parse6In z ('[' :: s) = none := fun _ _ => rfl
  have h6 : parse6 ('[' :: s) = none := by
    unfold parse6
    split
    · split
      · rfl
      · exact hin _ _
    · exact hin _ _
  have key : ∀ l, parseFrom ('[' :: s) l = none := by
    intro l
    induction l with
    | nil => rfl
    | cons c l ih =>
      rw [parseFrom]
      split
      · exact h4
      · split
        · exact h6
        · split
          · rfl
          · exact ih
  exact key _

theorem v4Loop_bad {x : Char} (hx : undec x = none ∧ x ≠ '.') : ∀ (s : List Char) (done : Bytes) (val dig : Nat), x ∈ s →
    v4Loop done val dig s = none
  | [], _, _, _, h => by cases h
  | c :: s, done, val, dig, h => by
    rw [v4Loop]
    by_cases hc : c = x
    · subst hc
      rw [hx.1]
      simp only [if_neg hx.2]
    · have hs : x ∈ s := by
        rcases List.mem_cons.mp h with e | h
        · exact absurd e.symm hc
        · exact h
      cases undec c with
      | some d =>
        simp only
        split
        · rfl
        · split
          · rfl
          · exact v4Loop_bad hx s _ _ _ hs
      | none =>
        simp only
        split
        · split
          · rfl
          · split
            · rfl
            · exact v4Loop_bad hx s _ _ _ hs
        · rfl

/-- an IPv4 address is refused if there is anything else after it -/
theorem parse_dotted_bad (b : BytesN 4) {x : Char} (hx : undec x = none ∧ x ≠ '.') {r : List Char} (hr : x ∈ r) :
    parseAddr (chars (dotted b.1) ++ r) = none := by
  obtain ⟨p, s, e, hp⟩ : ∃ p s, chars (dotted b.1) ++ r = p ++ '.' :: s ∧ ∀ c, c ∈ p → neutral c := by
    have h4 := b.2
    generalize b.1 = l at h4
    match l, h4 with
    | [x1, x2, x3, x4], _ =>
      refine ⟨chars (digits x1.toNat), chars (dotted [x2, x3, x4]) ++ r, ?_, fun c hc => digits_neutral x1 c hc⟩
      have : dotted [x1, x2, x3, x4] = digits x1.toNat ++ 46 :: dotted [x2, x3, x4] := rfl
      rw [this, chars_append, chars_cons]
      simp
  have h1 : parseAddr (chars (dotted b.1) ++ r) = parse4 (chars (dotted b.1) ++ r) := by
    unfold parseAddr
    conv => lhs; arg 2; rw [e]
    rw [parseFrom_skip hp, parseFrom, if_pos rfl]
  rw [h1]
  unfold parse4
  rw [v4Loop_bad hx _ _ _ _ (by simp [hr])]
  rfl

theorem parse_tcpText {t : TCP} (h : t.ip.length = 4 ∨ t.ip.length = 16) : parseAddr (tcpText t) = none := by
  obtain ⟨ip, z, p⟩ := t
  have hne : ip ≠ [] := by
    intro e
    subst e
    rcases h with h | h <;> simp at h
  have key : ∀ (b : BytesN 4), parseAddr (joinHostPort (chars (dotted b.1) ++ (if z = "" then [] else '%' :: z.toList)) (portText p)) = none := by
    intro b
    unfold joinHostPort
    generalize (if z = "" then [] else '%' :: z.toList) = q
    split
    · exact parse_bracket _
    · rw [List.append_assoc]
      exact parse_dotted_bad b (x := ':') (by decide) (by simp)
  unfold tcpText
  simp only [if_neg hne]
  rcases h with h | h
  · have : ipText ip = chars (dotted ip) := by unfold ipText; rw [dif_pos h]
    rw [this]
    exact key ⟨ip, h⟩
  · cases h6 : in6 ip with
    | true =>
      rw [ipText_in6 h h6]
      exact key ⟨ip.drop 12, by have : ip.length = 16 := h; simp [this]⟩
    | false =>
      rw [ipText_v6 h h6]
      unfold joinHostPort
      rw [if_pos (v6_contains_colon _ _)]
      exact parse_bracket _

end Verif.Services.Netip
