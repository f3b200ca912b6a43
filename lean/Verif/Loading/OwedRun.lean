import Verif.Loading.OwedLemmas
import Verif.Loading.OwedPeer
/-
The loader waits only for what has been asked for and not been sent: lemmas for property C108.
-/

set_option autoImplicit false

namespace Verif.Loading.Fine

open Verif
open Verif.Chains (Addr BlockID ProtoBlock)
open Verif.Peers (Lib Peer Conn)

variable {lib : Lib}

theorem put_requested (b : ProtoBlock) : ∀ q : List Item, (put q b).map (·.requested) = q.map (·.requested)
  | [] => rfl
  | it :: q => by
    unfold put
    split
    · rfl
    · simp [put_requested b q]

theorem put_unfilled (b : ProtoBlock) : ∀ q : List Item, (q.map (·.requested)).Nodup → ∀ it, it ∈ put q b → it.filled = false →
    it ∈ q ∧ it.requested ≠ b.id
  | [], _, it, h, _ => (List.not_mem_nil h).elim
  | x :: q, hn, it, h, hf => by
    obtain ⟨h1, h2⟩ := List.nodup_cons.mp hn
    unfold put at h
    by_cases e : x.requested = b.id
    · rw [if_pos e] at h
      rcases List.mem_cons.mp h with rfl | h
      · simp [Item.filled, e] at hf
      · refine ⟨List.mem_cons_of_mem _ h, fun e' => h1 ?_⟩
        show x.requested ∈ q.map (·.requested)
        rw [e, ← e']
        exact List.mem_map.mpr ⟨it, h, rfl⟩
    · rw [if_neg e] at h
      rcases List.mem_cons.mp h with rfl | h
      · exact ⟨List.mem_cons_self, e⟩
      · obtain ⟨a, b⟩ := put_unfilled b q h2 it h hf
        exact ⟨List.mem_cons_of_mem _ a, b⟩

/-- what the loader waits for, and who has not sent it -/
inductive Owing (o : Own) (T : List Entry) : Prop where
  | ids (hs : o.obj.state = .waitingForIDs) (h : OwesIDs o.obj.peer T o.obj.timestamp)
  | blocks (hs : o.obj.state = .waitingForBlocks) (hd : (o.obj.queue.map (·.requested)).Nodup) (hf : ready o.obj.queue = false)
      (h : ∀ it, it ∈ o.obj.queue → it.filled = false → OwesBlock o.obj.peer T o.obj.timestamp it.requested)

theorem Owing.owed {o : Own} {T : List Entry} (h : Owing o T) :
    (o.obj.state = .waitingForIDs ∧ OwesIDs o.obj.peer T o.obj.timestamp) ∨
    (o.obj.state = .waitingForBlocks ∧ ∃ id, id ∈ o.obj.queue.map (·.requested) ∧ OwesBlock o.obj.peer T o.obj.timestamp id) := by
  cases h with
  | ids hs h => exact Or.inl ⟨hs, h⟩
  | blocks hs hd hf h =>
    unfold ready at hf
    obtain ⟨it, h1, h2⟩ := List.all_eq_false.mp hf
    exact Or.inr ⟨hs, it.requested, List.mem_map.mpr ⟨it, h1, rfl⟩, h it h1 (by simpa using h2)⟩

theorem owes_said {p : Peer} {T new : List Entry} {m : Sent} {id : BlockID} (hm : .said m ∈ new) (hn : ∀ i, .heard i ∉ new) (hc : p.conn = some m.to)
    (hg : m.msg = .getBlock id) : OwesBlock p (T ++ new) m.time id := by
  obtain ⟨a, b, rfl⟩ := List.append_of_mem hm
  exact ⟨T ++ a, m, b, by simp, rfl, hc, hg, fun x hx => absurd (List.mem_append.mpr (Or.inr (List.mem_cons_of_mem _ hx))) (hn _)⟩

/-- from one event to the next -/
theorem owing_then {tr1 : List Answer} {T : List Entry} {o o' : Own} {i : Input} {c : Ctx} (H : o.active = true → o.obj.triggers = [] ∧ Owing o T)
    (h : Afterwards c o i tr1 (.ok o')) (hn : NoFail tr1)
    (hr : ∀ l, i = .ids o'.obj.peer.addr l → o.obj.state = .waitingForIDs → l.Nodup) (ha : o'.active = true) :
    o'.obj.triggers = [] ∧ Owing o' (T ++ [.heard i] ++ (o'.out.drop o.out.length).map .said) := by
  obtain ⟨_, _, new, ho, hx⟩ := h o' rfl hn
  obtain ⟨hq, ht⟩ := hx ha
  refine ⟨hq, ?_⟩
  have hd : o'.out.drop o.out.length = new := by rw [ho]; simp
  rw [hd]
  have quiet : ∀ i, Entry.heard i ∉ new.map Entry.said := by
    intro i h
    obtain ⟨_, _, h⟩ := List.mem_map.mp h
    cases h
  cases ht with
  | asked m req hm hs hc hk htm =>
    obtain ⟨ys, rfl⟩ : ∃ ys, new = ys ++ [m] := List.getLast?_eq_some_iff.mp hm
    exact .ids hs ⟨T ++ [.heard i] ++ ys.map .said, m, req, [], by simp, htm.symm, hc, hk, fun l h => (List.not_mem_nil h).elim⟩
  | requested l req cn now h0 hi hs hne hl hqu hc hnew htm =>
    obtain ⟨pre, hl⟩ := hl
    have hnd : req.Nodup := by
      have := hr l hi h0
      rw [hl] at this
      exact (List.nodup_append.mp this).2.1
    have hmap : (newQueue req).map (·.requested) = req := by
      unfold newQueue
      rw [List.map_map]
      exact List.map_id req
    refine .blocks hs ?_ ?_ ?_
    · rw [hqu, hmap]; exact hnd
    · rw [hqu]
      cases req with
      | nil => exact absurd rfl hne
      | cons x req => rfl
    · intro it hit _
      rw [hqu] at hit
      have hreq : it.requested ∈ req := by
        rw [← hmap]; exact List.mem_map.mpr ⟨it, hit, rfl⟩
      rw [htm]
      refine owes_said (m := ⟨now, cn, .getBlock it.requested⟩) ?_ quiet hc rfl
      rw [hnew]
      exact List.mem_map.mpr ⟨_, List.mem_map.mpr ⟨it.requested, hreq, rfl⟩, rfl⟩
  | ids ha0 hp h hs hnew hi htm =>
    subst hnew
    obtain ⟨_, hO⟩ := H ha0
    cases hO with
    | blocks h' => rw [h] at h'; cases h'
    | ids _ hO =>
      obtain ⟨T1, m, req, T2, e, a0, a1, a2, a3⟩ := hO
      refine .ids hs ⟨T1, m, req, T2 ++ [.heard i], by rw [e]; simp, by rw [htm]; exact a0, by rw [hp]; exact a1, a2, fun l hl => ?_⟩
      rw [hp] at hl
      rcases List.mem_append.mp hl with hl | hl
      · exact a3 l hl
      · have := List.mem_singleton.mp hl
        cases this
        exact hi l rfl
  | blocks ha0 hp h hs hnew hb hqu htm =>
    subst hnew
    obtain ⟨_, hO⟩ := H ha0
    cases hO with
    | ids h' => rw [h] at h'; cases h'
    | blocks _ hd hf hO =>
      have later : ∀ id, OwesBlock o.obj.peer T o.obj.timestamp id → (∀ b, i = .block o.obj.peer.addr (some b) → b.id ≠ id) →
          OwesBlock o'.obj.peer (T ++ [.heard i] ++ ([] : List Sent).map .said) o'.obj.timestamp id := by
        rintro id ⟨T1, m, T2, e, a0, a1, a2, a3⟩ hne
        refine ⟨T1, m, T2 ++ [.heard i], by rw [e]; simp, by rw [htm]; exact a0, by rw [hp]; exact a1, a2, fun b hx => ?_⟩
        rw [hp] at hx
        rcases List.mem_append.mp hx with hx | hx
        · exact a3 b hx
        · have := List.mem_singleton.mp hx
          cases this
          exact hne b rfl
      by_cases hblk : ∃ b, i = .block o.obj.peer.addr b
      · obtain ⟨b, hi⟩ := hblk
        obtain ⟨hq1, hq2⟩ := hb b hi
        cases b with
        | none =>
          have hq1 : o'.obj.queue = o.obj.queue := hq1
          refine .blocks hs (by rw [hq1]; exact hd) hq2 (fun it hit hun => later _ (hO it (by rw [← hq1]; exact hit) hun) ?_)
          intro b h
          rw [hi] at h; cases h
        | some b =>
          have hq1 : o'.obj.queue = put o.obj.queue b := hq1
          refine .blocks hs (by rw [hq1, put_requested]; exact hd) hq2 (fun it hit hun => ?_)
          rw [hq1] at hit
          obtain ⟨h1, h2⟩ := put_unfilled b _ hd it hit hun
          refine later _ (hO it h1 hun) (fun b' h => ?_)
          rw [hi] at h; cases h
          exact fun e => h2 e.symm
      · have hq1 : o'.obj.queue = o.obj.queue := hqu (fun b h => hblk ⟨b, h⟩)
        refine .blocks hs (by rw [hq1]; exact hd) (by rw [hq1]; exact hf) (fun it hit hun => later _ (hO it (by rw [← hq1]; exact hit) hun) ?_)
        intro b h
        exact absurd ⟨_, h⟩ hblk

/-- between two events -/
def Rests (tr : List Answer) (T : List Entry) (o : Own) : Prop :=
  NoFail tr → o.active = true → NoRepeats o.peerID T → o.obj.triggers = [] ∧ Owing o T

theorem Rests.then {tr0 tr1 : List Answer} {T : List Entry} {o o' : Own} {i : Input} {c : Ctx} (H : Rests tr0 T o)
    (hp : o.active = true → o'.obj.peer = o.obj.peer)
    (h : NoFail tr0 → (o.active = true → NoRepeats o.peerID T) → Afterwards c o i tr1 (.ok o')) :
    Rests (tr0 ++ tr1) (T ++ [.heard i] ++ (o'.out.drop o.out.length).map .said) o' := by
  intro hn ha hr
  have hr0 : o.active = true → NoRepeats o.peerID T := by
    intro h l hx
    have he : o'.peerID = o.peerID := congrArg Peer.addr (hp h)
    exact hr l (by rw [he]; simp [hx])
  exact owing_then (fun h => H hn.before h (hr0 h)) (h hn.before hr0) hn.after (fun l hi _ => hr l (by rw [hi]; simp [Own.peerID])) ha

/-- what holds at every moment -/
structure Watch (tr : List Answer) (T : List Entry) (w : World) : Prop where
  rest : w.todo = none → Rests tr T w.own
  busy : ∀ p, w.todo = some p → ∃ tr0 tr1 T0 c i, tr = tr0 ++ tr1 ∧ T = T0 ++ [.heard i] ∧ Rests tr0 T0 w.own ∧
    (w.own.active = true → All (fun _ r => ∀ o', r = .ok o' → o'.obj.peer = w.own.obj.peer) tr1 p) ∧
    (NoFail tr0 → (w.own.active = true → NoRepeats w.own.peerID T0) → All (Afterwards c w.own i) tr1 p)

theorem watch {w0 w : World} {tr : List Answer} {T : List Entry} (ht0 : w0.todo = none) (ha0 : w0.own.active = false) (h : Talk lib w0 tr T w) :
    Watch tr T w := by
  induction h with
  | start => exact ⟨fun _ _ h _ => (by rw [ha0] at h; cases h), fun p hp => (by rw [ht0] at hp; cases hp)⟩
  | @receive tr T w h c i ht ih =>
    refine ⟨(fun h => by cases h), fun p hp => ?_⟩
    cases hp
    refine ⟨tr, [], T, c, i, by simp, rfl, ih.rest ht, fun ha => all_samePeer c w.own i ha [], fun hn hr => all_afterwards c w.own i (fun ha => ?_)⟩
    obtain ⟨h1, h2⟩ := ih.rest ht hn ha (hr ha)
    refine ⟨h1, ?_⟩
    cases h2 with
    | ids hs => exact Or.inl hs
    | blocks hs => exact Or.inr hs
  | @call tr T w h D c k ht ih =>
    refine ⟨(fun h => by cases h), fun p hp => ?_⟩
    cases hp
    obtain ⟨tr0, tr1, T0, c', i, h1, h2, h3, h5, h4⟩ := ih.busy _ ht
    exact ⟨tr0, tr1 ++ [⟨c, c.resRd D lib w.sh⟩], T0, c', i, by rw [h1]; simp, h2, h3, fun ha => h5 ha _, fun hn hr => h4 hn hr _⟩
  | @finish tr T w h o ht ih =>
    refine ⟨fun _ => ?_, (fun p hp => by cases hp)⟩
    obtain ⟨tr0, tr1, T0, c', i, h1, h2, h3, h5, h4⟩ := ih.busy _ ht
    subst h1 h2
    exact h3.then (fun ha => h5 ha o rfl) h4
  | other h D x ih => exact ⟨ih.rest, ih.busy⟩

end Verif.Loading.Fine
