import Verif.Peers.Size
import Verif.Peers.Queries
import Verif.Peers.Examples
import Verif.Chains.Size
/-
Property C121: how large the database of peers is.
-/
set_option autoImplicit false

namespace Verif.Peers

open Verif
open Verif.Chains (Addr BytesN Env length_le_of_nodup_subset)
open Verif.KV (Fate)

variable {lib : Lib} {r : Registry}

/-! ## C121: the database of peers has one record for every peer heard of -/

/-- `Peers` lists all there is: the database has one record for every peer of the list and nothing else. -/
theorem C121_size (R : Reachable lib r) (env : Env) :
    ∃ l, Peers lib env r = .ok l ∧ l.length = r.db.length ∧ (l.map (·.addr)).Nodup := by
  obtain ⟨ps, h1, h2, h3, h4⟩ := peers_good R.inv.good
  have hs := env.sort_perm (byName lib) ps
  refine ⟨env.sort (byName lib) ps, by simp [Peers, h1], hs.length_eq.trans h2, ?_⟩
  rw [(hs.map _).nodup_iff]; exact h4

/-- However often they are repeated, the size is bounded by the addresses ever named. -/
theorem C121_bound (c : Config) (es : List Event) (P : List Addr) (hP : ∀ e a, e ∈ es → a ∈ named e.op → a ∈ P) :
    (exec lib (NewRegistry c []) es).db.length ≤ P.length := by
  have I : Inv (exec lib (NewRegistry c []) es) := (Inv.start c).exec es
  obtain ⟨ps, _, h2, h3, h4⟩ := peers_good I.good
  have := length_le_of_nodup_subset (l2 := P) h4 (by
    intro a ha
    obtain ⟨p, hp, rfl⟩ := List.mem_map.mp ha
    obtain ⟨b, v, hv, rfl⟩ := (h3 p).mp hp
    rcases exec_named (lib := lib) es (Inv.start c) (b := b) (by rw [hv]; simp) with h | ⟨e, he, h⟩
    · exact absurd rfl h
    · exact hP e _ he h)
  simp only [List.length_map] at this
  omega

/-- One call: no record is lost, and at most one is added for every address that it names. -/
theorem C121_call (R : Reachable lib r) (e : Event) :
    r.db.length ≤ (step lib r e).db.length ∧ (step lib r e).db.length ≤ r.db.length + (named e.op).length := by
  have I := R.inv
  have I' : Inv (step lib r e) := I.step
  obtain ⟨ps, _, h2, h3, h4⟩ := peers_good I.good
  obtain ⟨ps', _, h2', h3', h4'⟩ := peers_good I'.good
  constructor
  · have := length_le_of_nodup_subset (l2 := ps'.map (·.addr)) h4 (by
      intro a ha
      obtain ⟨p, hp, rfl⟩ := List.mem_map.mp ha
      obtain ⟨b, v, hv, rfl⟩ := (h3 p).mp hp
      have := step_known (lib := lib) (e := e) I.good (b := b) (by rw [hv]; simp)
      obtain ⟨v', hv'⟩ := Option.ne_none_iff_exists'.mp this
      exact List.mem_map.mpr ⟨_, (h3' _).mpr ⟨b, v', hv', rfl⟩, rfl⟩)
    simp only [List.length_map] at this
    omega
  · have := length_le_of_nodup_subset (l2 := ps.map (·.addr) ++ named e.op) h4' (by
      intro a ha
      obtain ⟨p, hp, rfl⟩ := List.mem_map.mp ha
      obtain ⟨b, v, hv, rfl⟩ := (h3' p).mp hp
      rw [List.mem_append]
      cases h0 : view r.db b with
      | none => exact Or.inr (step_named I.good h0 (by rw [hv]; simp))
      | some v0 => exact Or.inl (List.mem_map.mpr ⟨_, (h3 _).mpr ⟨b, v0, h0, rfl⟩, rfl⟩))
    simp only [List.length_map, List.length_append] at this
    omega

/-- There is no other limit: a list of addresses of any length, all of them new and acceptable, is stored in full. -/
theorem C121_unlimited (R : Reachable lib r) (l : List AddrPort) (hn : (l.map (·.addr)).Nodup)
    (ha : ∀ ap, ap ∈ l → is4 ap.addr = true ∧ isLoopback ap.addr = false ∧ ap.addr ≠ r.declared ∧ PeerOf r ap.addr = fail .notFound)
    {fs : Nat → Fate} (hf : ∀ i, fs i = .ok) :
    (AppendAddresses fs r (l.map some)).1.db.length = r.db.length + l.length := by
  obtain ⟨db', added, k, h, A⟩ := append_spec fs (l.map some) r 0 R.inv.good
  unfold AppendAddresses
  rw [h]
  show db'.length = _
  rw [A.size]
  have hle : l.length ≤ added.length := by
    have := length_le_of_nodup_subset (l2 := added.map (·.addr)) hn (by
      intro a hm
      obtain ⟨ap, hap, rfl⟩ := List.mem_map.mp hm
      obtain ⟨h1, h2, h3, h4⟩ := ha ap hap
      refine List.mem_map.mpr ⟨ap, A.complete hf ap ?_ ?_ ?_, rfl⟩
      · obtain ⟨l1, l2, rfl⟩ := List.append_of_mem hap
        refine ⟨l1.map some, l2.map some, by simp, ?_⟩
        intro ap' hm' e
        have hm' : ap' ∈ l1 := by simpa using hm'
        rw [List.map_append, List.map_cons, List.nodup_append] at hn
        exact hn.2.2 _ (List.mem_map_of_mem hm') _ List.mem_cons_self e
      · simp only [acceptable, Bool.and_eq_true, Bool.not_eq_true', decide_eq_true_eq]
        exact ⟨⟨h1, h2⟩, h3⟩
      · intro b e
        rw [e] at h4
        exact R.inv.peerOf_none.mp h4)
    simpa using this
  have hge : added.length ≤ l.length := by
    have := length_le_of_nodup_subset (l2 := l.map (·.addr)) A.nodup (by
      intro a hm
      obtain ⟨ap, hap, rfl⟩ := List.mem_map.mp hm
      obtain ⟨⟨l1, l2, e, _⟩, _⟩ := A.sound ap hap
      have : some ap ∈ l.map some := by rw [e]; simp
      exact List.mem_map_of_mem (by simpa using this))
    simpa using this
  omega

/-- the address number `i` of the network 11.0.0.0/8 -/
def many (i : Nat) : AddrPort := ⟨Ex.ip 11 (UInt8.ofNat (i / 65536)) (UInt8.ofNat (i / 256)) (UInt8.ofNat i), 6868⟩

/-- The registry sets no limit of its own: whatever number up to 2^24, there is one list of addresses
after which a fresh registry has that many records.  (How long a list one message can carry is up to the
library that reads the messages.) -/
theorem C121_flood (n : Nat) (hn : n ≤ 2 ^ 24) :
    (AppendAddresses Ex.ok (NewRegistry Ex.cfg []) (((List.range n).map many).map some)).1.db.length = n := by
  have hr : Reachable Ex.lib (NewRegistry Ex.cfg []) := ⟨Ex.cfg, [], rfl⟩
  rw [C121_unlimited hr ((List.range n).map many) ?_ ?_ (fs := Ex.ok) (fun _ => rfl)]
  · simp [NewRegistry]
  · rw [List.map_map]
    refine List.pairwise_map.mpr (List.Pairwise.imp_of_mem ?_ List.nodup_range)
    intro i j hi hj hne he
    simp only [List.mem_range] at hi hj
    simp only [Function.comp, many, Ex.ip, Addr.v4.injEq, Subtype.mk.injEq, List.cons.injEq, and_true, true_and] at he
    obtain ⟨e1, e2, e3⟩ := he
    have e1 := congrArg UInt8.toNat e1
    have e2 := congrArg UInt8.toNat e2
    have e3 := congrArg UInt8.toNat e3
    simp only [UInt8.toNat_ofNat'] at e1 e2 e3
    omega
  · intro ap hap
    obtain ⟨i, _, rfl⟩ := List.mem_map.mp hap
    exact ⟨rfl, rfl, by simp [many, NewRegistry, Ex.cfg, Ex.ip], rfl⟩

/-- seeds, a duplicate, a hostile peer and a repeated call: three records for three addresses -/
example : let es := [Ex.seeds, Ex.at_ 1 (.suggest .ok (Ex.ip 1 1 1 1)), Ex.seeds, Ex.at_ 2 (.markHostile .ok (some (Ex.ip 3 3 3 3)))]
    (Ex.run es).db.length = 3 ∧ (∀ e a, e ∈ es → a ∈ named e.op → a ∈ [Ex.ip 1 1 1 1, Ex.ip 2 2 2 2, Ex.ip 127 0 0 1, Ex.ip 3 3 3 3]) := by
  refine ⟨by decide +kernel, ?_⟩
  intro e a he ha
  simp only [List.mem_cons, List.not_mem_nil, or_false] at he
  rcases he with rfl | rfl | rfl | rfl <;> simp only [named, Ex.seeds, Ex.at_, List.filterMap_cons, Option.map_some, List.filterMap_nil, List.mem_cons] at ha ⊢
  · rcases ha with h | h | h | h <;> simp_all
  · rcases ha with h | h <;> simp_all
  · rcases ha with h | h | h | h <;> simp_all
  · rcases ha with h | h <;> simp_all

end Verif.Peers
