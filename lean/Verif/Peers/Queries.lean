import Verif.Peers.History
/-
Results of the registry queries.
-/

set_option autoImplicit false

namespace Verif.Peers

open Verif
open Verif.Chains (Addr BytesN Env)
open Verif.KV (Fate)

theorem is4_iff {a : Addr} : is4 a = true ↔ ∃ b, a = .v4 b := by
  cases a <;> simp [is4]

theorem Inv.peerOf {r : Registry} (I : Inv r) {b : BytesN 4} {p : Peer} :
    PeerOf r (.v4 b) = .ok p ↔ ∃ v, view r.db b = some v ∧ p = v.toPeer (.v4 b) := by
  unfold PeerOf
  constructor
  · exact I.good.peer_v4_ok
  · rintro ⟨v, hv, rfl⟩
    rw [I.good.peer_v4, hv]

theorem Inv.peerOf_none {r : Registry} (I : Inv r) {b : BytesN 4} :
    PeerOf r (.v4 b) = fail .notFound ↔ view r.db b = none := by
  unfold PeerOf
  rw [I.good.peer_v4]
  cases view r.db b <;> simp [fail]

/-- what makes a stored peer available, pending set apart -/
def ready (r : Registry) (now : Int) (p : Peer) : Prop :=
  p.state ≠ .hostile ∧ p.port ≠ 0 ∧ p.addr ≠ r.declared ∧ p.nextAttempt * second ≤ now ∧ ¬ ∃ c, (p.addr, c) ∈ r.connections

theorem available_iff {r : Registry} {now : Int} {pend : List Addr} {p : Peer} :
    available r now pend p = true ↔ ready r now p ∧ p.addr ∉ pend := by
  unfold available ready
  rw [← hasConn_iff]
  simp only [Bool.and_eq_true, decide_eq_true_eq, Bool.not_eq_true', decide_eq_false_iff_not, List.contains_eq_mem,
    Bool.not_eq_true]
  constructor
  · rintro ⟨⟨⟨⟨⟨h1, h2⟩, h3⟩, h4⟩, h5⟩, h6⟩
    exact ⟨⟨h1, h2, h3, by omega, h5⟩, h6⟩
  · rintro ⟨⟨h1, h2, h3, h4, h5⟩, h6⟩
    exact ⟨⟨⟨⟨⟨h1, h2⟩, h3⟩, by omega⟩, h5⟩, h6⟩

theorem takeLoop_spec (r : Registry) (now : Int) : ∀ (ps : List Peer) (pend : List Addr), (ps.map (·.addr)).Nodup →
    ∃ l pend', takeLoop r now ps pend = (l, pend') ∧
      (∀ ap, ap ∈ l ↔ ∃ p, p ∈ ps ∧ ready r now p ∧ p.addr ∉ pend ∧ ap = p.addressPort) ∧
      (l.map (·.addr)).Nodup ∧ (∀ a, a ∈ pend' ↔ a ∈ pend ∨ ∃ ap, ap ∈ l ∧ ap.addr = a) := by
  intro ps
  induction ps with
  | nil => intro pend _; exact ⟨[], pend, rfl, by simp, by simp, by simp⟩
  | cons p ps ih =>
    intro pend hn
    rw [List.map_cons, List.nodup_cons] at hn
    have hnot : ∀ q, q ∈ ps → q.addr ≠ p.addr := fun q hq e => hn.1 (List.mem_map.mpr ⟨q, hq, e⟩)
    rw [takeLoop]
    by_cases ha : available r now pend p = true
    · obtain ⟨l, pend', h1, h2, h3, h4⟩ := ih (p.addr :: pend) hn.2
      rw [if_pos ha, h1]
      have hav := available_iff.mp ha
      refine ⟨p.addressPort :: l, pend', rfl, ?_, ?_, ?_⟩
      · intro ap
        rw [List.mem_cons, h2]
        constructor
        · rintro (rfl | ⟨q, hq, hr, hp, rfl⟩)
          · exact ⟨p, by simp, hav.1, hav.2, rfl⟩
          · exact ⟨q, List.mem_cons_of_mem _ hq, hr, fun hm => hp (List.mem_cons_of_mem _ hm), rfl⟩
        · rintro ⟨q, hq, hr, hp, rfl⟩
          rcases List.mem_cons.mp hq with rfl | hq
          · exact Or.inl rfl
          · refine Or.inr ⟨q, hq, hr, ?_, rfl⟩
            intro hm
            rcases List.mem_cons.mp hm with e | hm
            · exact hnot q hq e
            · exact hp hm
      · rw [List.map_cons, List.nodup_cons]
        refine ⟨?_, h3⟩
        intro hm
        obtain ⟨ap, hap, e⟩ := List.mem_map.mp hm
        obtain ⟨q, hq, _, _, rfl⟩ := (h2 ap).mp hap
        exact hnot q hq e
      · intro a
        rw [h4]
        simp only [List.mem_cons]
        constructor
        · rintro ((rfl | h) | ⟨ap, h, rfl⟩)
          · exact Or.inr ⟨p.addressPort, Or.inl rfl, rfl⟩
          · exact Or.inl h
          · exact Or.inr ⟨ap, Or.inr h, rfl⟩
        · rintro (h | ⟨ap, (rfl | h), rfl⟩)
          · exact Or.inl (Or.inr h)
          · exact Or.inl (Or.inl rfl)
          · exact Or.inr ⟨ap, h, rfl⟩
    · obtain ⟨l, pend', h1, h2, h3, h4⟩ := ih pend hn.2
      rw [if_neg ha, h1]
      refine ⟨l, pend', rfl, ?_, h3, h4⟩
      intro ap
      rw [h2]
      constructor
      · rintro ⟨q, hq, h⟩; exact ⟨q, List.mem_cons_of_mem _ hq, h⟩
      · rintro ⟨q, hq, hr, hp, rfl⟩
        rcases List.mem_cons.mp hq with rfl | hq
        · exact absurd (available_iff.mpr ⟨hr, hp⟩) ha
        · exact ⟨q, hq, hr, hp, rfl⟩

/-- `TakeAvailableAddresses` in full -/
theorem Inv.take {r : Registry} (I : Inv r) (now : Int) :
    ∃ l pend', TakeAvailableAddresses now r = ({ r with pending := pend' }, .ok l) ∧
      (∀ ap, ap ∈ l ↔ ∃ b v, view r.db b = some v ∧ ready r now (v.toPeer (.v4 b)) ∧ Addr.v4 b ∉ r.pending ∧
        ap = ⟨.v4 b, v.port⟩) ∧
      (l.map (·.addr)).Nodup ∧ (∀ a, a ∈ pend' ↔ a ∈ r.pending ∨ ∃ ap, ap ∈ l ∧ ap.addr = a) := by
  obtain ⟨ps, h1, _, h3, h4⟩ := peers_good I.good
  obtain ⟨l, pend', h5, h6, h7, h8⟩ := takeLoop_spec r now ps r.pending h4
  refine ⟨l, pend', ?_, ?_, h7, h8⟩
  · simp [TakeAvailableAddresses, h1, h5]
  · intro ap
    rw [h6]
    constructor
    · rintro ⟨p, hp, hr, hn, rfl⟩
      obtain ⟨b, v, hv, rfl⟩ := (h3 p).mp hp
      exact ⟨b, v, hv, hr, hn, rfl⟩
    · rintro ⟨b, v, hv, hr, hn, rfl⟩
      exact ⟨_, (h3 _).mpr ⟨b, v, hv, rfl⟩, hr, hn, rfl⟩

/-- every connection has a stored record -/
def Covered (r : Registry) : Prop := ∀ b c, (Addr.v4 b, c) ∈ r.connections → view r.db b ≠ none

theorem connectionsLoop_ok {r : Registry} (I : Inv r) : ∀ (l : List (Addr × Conn)), (∀ x, x ∈ l → x ∈ r.connections) →
    Covered r →
    ∃ ps, connectionsLoop r.db l = .ok ps ∧ ps.map (fun p => (p.addr, p.conn)) = l.map (fun x => (x.1, some x.2)) ∧
      ∀ p, p ∈ ps → PeerOf r p.addr = .ok { p with conn := none } := by
  intro l
  induction l with
  | nil => intro _ _; exact ⟨[], rfl, rfl, by simp⟩
  | cons x l ih =>
    intro hsub C
    obtain ⟨a, c⟩ := x
    obtain ⟨ps, h1, h2, h3⟩ := ih (fun x hx => hsub x (List.mem_cons_of_mem _ hx)) C
    have hm := hsub (a, c) (by simp)
    obtain ⟨b, rfl⟩ := is4_iff.mp (I.ipv4 a c hm).1
    cases hv : view r.db b with
    | none => exact absurd hv (C b c hm)
    | some v =>
      have hp : peer r.db (.v4 b) = .ok (v.toPeer (.v4 b)) := by rw [I.good.peer_v4, hv]
      refine ⟨{ v.toPeer (.v4 b) with conn := some c } :: ps, ?_, ?_, ?_⟩
      · rw [connectionsLoop, hp]; simp [h1]
      · rw [List.map_cons, List.map_cons, h2]; rfl
      · intro p hp'
        rcases List.mem_cons.mp hp' with rfl | hp'
        · exact hp
        · exact h3 p hp'

theorem connectionsLoop_fails {r : Registry} (I : Inv r) : ∀ (l : List (Addr × Conn)), (∀ x, x ∈ l → x ∈ r.connections) →
    (∃ b c, (Addr.v4 b, c) ∈ l ∧ view r.db b = none) → connectionsLoop r.db l = fail .notFound := by
  intro l
  induction l with
  | nil => rintro _ ⟨b, c, h, _⟩; simp at h
  | cons x l ih =>
    rintro hsub ⟨b, c, hm, hv⟩
    obtain ⟨a, c'⟩ := x
    obtain ⟨b', rfl⟩ := is4_iff.mp (I.ipv4 a c' (hsub _ (by simp))).1
    rw [connectionsLoop]
    cases hv' : view r.db b' with
    | none =>
      have hp : peer r.db (.v4 b') = fail .notFound := by rw [I.good.peer_v4, hv']
      rw [hp]; rfl
    | some v =>
      have hp : peer r.db (.v4 b') = .ok (v.toPeer (.v4 b')) := by rw [I.good.peer_v4, hv']
      rw [hp]
      have : (Addr.v4 b, c) ∈ l := by
        rcases List.mem_cons.mp hm with e | hm
        · cases e; rw [hv] at hv'; cases hv'
        · exact hm
      rw [ih (fun x hx => hsub x (List.mem_cons_of_mem _ hx)) ⟨b, c, this, hv⟩]
      rfl

/-- the comparison of `ByName` is a strict weak order -/
theorem byName_strictWeak (lib : Lib) : Chains.StrictWeak (byName lib) := by
  refine ⟨fun a => bytesLt_irrefl _, fun a b c h1 h2 => bytesLt_trans h1 h2, ?_⟩
  intro a b c h1 h2 h3 h4
  unfold byName at *
  have e1 : lib.upper a.name = lib.upper b.name := by
    by_cases e : lib.upper a.name = lib.upper b.name
    · exact e
    · exact absurd (bytesLt_total e h1) (by rw [h2]; simp)
  have e2 : lib.upper b.name = lib.upper c.name := by
    by_cases e : lib.upper b.name = lib.upper c.name
    · exact e
    · exact absurd (bytesLt_total e h3) (by rw [h4]; simp)
  rw [e1, e2]
  exact ⟨bytesLt_irrefl _, bytesLt_irrefl _⟩

theorem tcpAddr_ok {p : Peer} (h : is4 p.addr = true) : ∃ x, tcpAddr p = .ok x := by
  obtain ⟨b, hb⟩ := is4_iff.mp h
  exact ⟨(b, p.port), by simp [tcpAddr, hb, as4]⟩

theorem tcpAddrs_ok : ∀ (l : List Peer), (∀ p, p ∈ l → is4 p.addr = true) →
    ∃ xs, tcpAddrs l = .ok xs ∧ xs.map some = l.map (fun p => (tcpAddr p).toOption) := by
  intro l
  induction l with
  | nil => intro _; exact ⟨[], rfl, rfl⟩
  | cons p l ih =>
    intro h
    obtain ⟨x, hx⟩ := tcpAddr_ok (h p (by simp))
    obtain ⟨xs, h1, h2⟩ := ih (fun q hq => h q (List.mem_cons_of_mem _ hq))
    exact ⟨x :: xs, by simp [tcpAddrs, hx, h1], by simp [hx, h2, Except.toOption]⟩

/-- `Peers` in full -/
theorem Inv.peersList {r : Registry} (I : Inv r) (lib : Lib) (env : Env) :
    ∃ l, Peers lib env r = .ok l ∧ (∀ p, p ∈ l ↔ ∃ b v, view r.db b = some v ∧ p = v.toPeer (.v4 b)) ∧
      (l.map (·.addr)).Nodup ∧ l.Pairwise (fun p q => byName lib q p = false) := by
  obtain ⟨ps, h1, _, h3, h4⟩ := peers_good I.good
  have hs := env.sort_perm (byName lib) ps
  refine ⟨env.sort (byName lib) ps, by simp [Peers, h1], fun p => hs.mem_iff.trans (h3 p), ?_, env.sort_sorted _ _ (byName_strictWeak lib)⟩
  rw [(hs.map _).nodup_iff]; exact h4

/-- `FriendlyPeers` in full -/
theorem Inv.friendlyList {r : Registry} (I : Inv r) (lib : Lib) (env : Env) :
    ∃ l, FriendlyPeers lib env r = .ok l ∧
      (∀ p, p ∈ l ↔ ∃ b v, view r.db b = some v ∧ v.state = .connected ∧ p = v.toPeer (.v4 b)) ∧
      (l.map (·.addr)).Nodup ∧ l.Pairwise (fun p q => byName lib q p = false) := by
  obtain ⟨ps, h1, _, h3, h4⟩ := peers_good I.good
  have hs := env.sort_perm (byName lib) (ps.filter (fun p => decide (p.state = .connected)))
  refine ⟨env.sort (byName lib) (ps.filter (fun p => decide (p.state = .connected))), by simp [FriendlyPeers, h1],
    fun p => ?_, ?_, env.sort_sorted _ _ (byName_strictWeak lib)⟩
  · rw [hs.mem_iff, List.mem_filter, h3]
    constructor
    · rintro ⟨⟨b, v, h, rfl⟩, hst⟩
      exact ⟨b, v, h, of_decide_eq_true hst, rfl⟩
    · rintro ⟨b, v, h, hst, rfl⟩
      exact ⟨⟨b, v, h, rfl⟩, decide_eq_true (p := v.state = .connected) hst⟩
  · rw [(hs.map _).nodup_iff]
    exact List.Nodup.sublist (List.Sublist.map _ List.filter_sublist) h4

theorem connectionsLoop_addr {db : DB} : ∀ (l : List (Addr × Conn)) (ps : List Peer), connectionsLoop db l = .ok ps →
    (∀ x, x ∈ l → ∃ b, x.1 = .v4 b) → Good db → ∀ p, p ∈ ps → is4 p.addr = true := by
  intro l
  induction l with
  | nil => intro ps h _ _; simp [connectionsLoop] at h; subst h; simp
  | cons x l ih =>
    intro ps h hx G
    obtain ⟨a, c⟩ := x
    rw [connectionsLoop] at h
    cases hp : peer db a with
    | error e => rw [hp] at h; simp at h
    | ok sp =>
      rw [hp] at h
      cases hr : connectionsLoop db l with
      | error e => rw [hr] at h; simp at h
      | ok rest =>
        rw [hr] at h; simp at h; subst h
        intro p hm
        rcases List.mem_cons.mp hm with rfl | hm
        · obtain ⟨b, hb⟩ := hx (a, c) (by simp)
          have := (G.peer_ok hp).1
          simp only at hb ⊢
          rw [this, hb]; rfl
        · exact ih rest hr (fun x hx' => hx x (List.mem_cons_of_mem _ hx')) G p hm

end Verif.Peers
