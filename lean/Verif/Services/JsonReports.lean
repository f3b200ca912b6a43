import Verif.Services.JsonTexts
import Verif.Peers.Queries
/-
What is known of the reports whose text is considered.
-/

set_option autoImplicit false

namespace Verif.Services.Json

open Verif
open Verif.Chains (Addr BytesN BlockID Fork GeneratorStats Leash Env mapGo mapGo_mem)
open Verif.Peers (validUTF8 Peer Registry Lib Reachable view is4)

variable {w : Web} {d : Dates}

theorem leashes_plain {db : Chains.DB} {ls : List Leash} (h : Chains.leashes db = .ok ls) {l : Leash} (hl : l ∈ ls) : Usual l.addr := by
  obtain ⟨⟨k, v⟩, _, he⟩ := mapGo_mem h hl
  unfold Chains.leashOf at he
  obtain ⟨a, ha, he⟩ := go_bind_eq_ok.mp he
  have hp : Usual a := by
    unfold Chains.addrKeyFrom at ha
    cases k with
    | nil => cases ha
    | cons p bs =>
      simp only at ha
      split at ha
      · split at ha
        · cases ha; exact ⟨rfl, fun e => by cases e⟩
        · cases ha
      · split at ha
        · split at ha
          · cases ha; exact ⟨rfl, fun e => by cases e⟩
          · cases ha
        · cases ha
  cases v with
  | raw v =>
    simp only at he
    obtain ⟨id, _, he⟩ := go_bind_eq_ok.mp he
    cases he; exact hp
  | blk _ => cases he
  | lnk _ => cases he

theorem group_plain {ls : List Leash} (h : ∀ l, l ∈ ls → Usual l.addr) {k : BlockID} {v : List Addr}
    (hm : (k, v) ∈ Chains.groupLeashes ls) {a : Addr} (ha : a ∈ v) : Usual a := by
  rw [((Chains.mem_groupLeashes ls k v).mp hm).1, Chains.mem_peersOn] at ha
  exact h _ ha

theorem Forks_plain {env : Env} {db : Chains.DB} {ps : List Addr} {fs : List Fork} (h : Chains.Forks env db ps = .ok fs) :
    ∀ f, f ∈ fs → ∀ a, a ∈ f.peers → Usual a := by
  rw [Chains.Forks_unfold] at h
  obtain ⟨ls, hls, h⟩ := go_bind_eq_ok.mp h
  obtain ⟨r, hr, h⟩ := go_bind_eq_ok.mp h
  have hraw : ∀ f, f ∈ r → ∀ a, a ∈ f.peers → Usual a := by
    intro f hf a ha
    obtain ⟨⟨k, v⟩, hm, he⟩ := mapGo_mem hr hf
    unfold Chains.rawFork at he
    obtain ⟨b, _, he⟩ := go_bind_eq_ok.mp he
    cases he
    refine group_plain (fun l hl => ?_) ((env.mapOrder_perm _).mem_iff.mp hm) ha
    exact leashes_plain hls (List.mem_filter.mp hl).1
  have hperm := env.sort_perm Chains.forkLess r
  cases hs : env.sort Chains.forkLess r with
  | nil => rw [hs] at h; cases h
  | cons x rest =>
    rw [hs] at h hperm
    intro f hf
    obtain ⟨f0, h0, he⟩ := mapGo_mem h hf
    obtain ⟨c, lb, _, _, rfl⟩ := Chains.finishFork_ok he
    rcases List.mem_cons.mp h0 with rfl | h0
    · exact hraw x (hperm.mem_iff.mp List.mem_cons_self)
    · exact hraw f0 (hperm.mem_iff.mp (List.mem_cons_of_mem _ h0))

theorem forkLoop_plain {db : Chains.DB} {peer : Addr} : ∀ {m : List (BlockID × List Addr)} {s s' : Chains.Best} {f f' : Fork},
    (∀ x, x ∈ m → ∀ a, a ∈ x.2 → Usual a) → (∀ a, a ∈ f.peers → Usual a) → Chains.forkLoop db peer s f m = .ok (s', f') →
    ∀ a, a ∈ f'.peers → Usual a
  | [], _, _, _, _, _, hf, h => by cases h; exact hf
  | (k, v) :: m, s, s', f, f', hm, hf, h => by
    unfold Chains.forkLoop at h
    obtain ⟨b, _, h⟩ := go_bind_eq_ok.mp h
    refine forkLoop_plain (fun x hx => hm x (List.mem_cons_of_mem _ hx)) ?_ h
    split
    · exact hm _ List.mem_cons_self
    · exact hf

theorem ForkOf_plain {env : Env} {db : Chains.DB} {p : Addr} {f : Fork} (h : Chains.ForkOf env db p = .ok f) : ∀ a, a ∈ f.peers → Usual a := by
  unfold Chains.ForkOf at h
  obtain ⟨ls, hls, h⟩ := go_bind_eq_ok.mp h
  obtain ⟨⟨best, fork⟩, hl, h⟩ := go_bind_eq_ok.mp h
  have hf : ∀ a, a ∈ fork.peers → Usual a :=
    forkLoop_plain (fun x hx a ha => group_plain (fun l hl => leashes_plain hls hl) ((env.mapOrder_perm _).mem_iff.mp hx) ha)
      (fun a ha => by cases ha) hl
  simp only at h
  split at h
  · cases h; exact hf
  · obtain ⟨c, _, h⟩ := go_bind_eq_ok.mp h
    obtain ⟨lb, _, h⟩ := go_bind_eq_ok.mp h
    cases h; exact hf

theorem Forks_peers {env : Env} {db : Chains.DB} {ps : List Addr} {fs : List Fork} (h : Chains.Forks env db ps = .ok fs) :
    ∀ f, f ∈ fs → f.peers ≠ [] := by
  rw [Chains.Forks_unfold] at h
  obtain ⟨ls, hls, h⟩ := go_bind_eq_ok.mp h
  obtain ⟨r, hr, h⟩ := go_bind_eq_ok.mp h
  have hraw : ∀ f, f ∈ r → f.peers ≠ [] := by
    intro f hf
    obtain ⟨⟨k, v⟩, hm, he⟩ := mapGo_mem hr hf
    unfold Chains.rawFork at he
    obtain ⟨b, _, he⟩ := go_bind_eq_ok.mp he
    cases he
    exact ((Chains.mem_groupLeashes _ k v).mp ((env.mapOrder_perm _).mem_iff.mp hm)).2
  have hperm := env.sort_perm Chains.forkLess r
  cases hs : env.sort Chains.forkLess r with
  | nil => rw [hs] at h; cases h
  | cons x rest =>
    rw [hs] at h hperm
    intro f hf
    obtain ⟨f0, h0, he⟩ := mapGo_mem h hf
    obtain ⟨c, lb, _, _, rfl⟩ := Chains.finishFork_ok he
    rcases List.mem_cons.mp h0 with rfl | h0
    · exact hraw x (hperm.mem_iff.mp List.mem_cons_self)
    · exact hraw f0 (hperm.mem_iff.mp (List.mem_cons_of_mem _ h0))

theorem forkLoop_peers {db : Chains.DB} {peer : Addr} : ∀ {m : List (BlockID × List Addr)} {s s' : Chains.Best} {f f' : Fork},
    (f.peers = [] → f.headTimestamp = 0 ∧ f.score = 0) → Chains.forkLoop db peer s f m = .ok (s', f') →
    f'.peers = [] → f'.headTimestamp = 0 ∧ f'.score = 0
  | [], _, _, _, _, hf, h => by cases h; exact hf
  | (k, v) :: m, s, s', f, f', hf, h => by
    unfold Chains.forkLoop at h
    obtain ⟨b, _, h⟩ := go_bind_eq_ok.mp h
    refine forkLoop_peers ?_ h
    split
    · next hc =>
      intro he
      have he : v = [] := he
      rw [he] at hc
      cases hc
    · exact hf

theorem ForkOf_peers {env : Env} {db : Chains.DB} {p : Addr} {f : Fork} (h : Chains.ForkOf env db p = .ok f) :
    f.peers = [] → f.headTimestamp = 0 ∧ f.score = 0 := by
  unfold Chains.ForkOf at h
  obtain ⟨ls, hls, h⟩ := go_bind_eq_ok.mp h
  obtain ⟨⟨best, fork⟩, hl, h⟩ := go_bind_eq_ok.mp h
  have hf : fork.peers = [] → fork.headTimestamp = 0 ∧ fork.score = 0 := forkLoop_peers (fun _ => ⟨rfl, rfl⟩) hl
  simp only at h
  split at h
  · cases h; exact hf
  · obtain ⟨c, _, h⟩ := go_bind_eq_ok.mp h
    obtain ⟨lb, _, h⟩ := go_bind_eq_ok.mp h
    cases h; exact hf

theorem after_ok {α β : Type} {r : Go α} {k : α → Resp β} {b : β} (h : Resp.after r k = .ok b) : ∃ a, r = .ok a ∧ k a = .ok b := by
  unfold Resp.after at h
  split at h
  · exact ⟨_, rfl, h⟩
  · cases h
  · cases h

theorem encode_ok {α : Type} {x y : α} {ts : List Nat} (h : w.encode x ts = .ok y) : x = y ∧ ∀ m, m ∈ ts → w.encodes m = true := by
  unfold Web.encode at h
  split at h
  · next ha => cases h; exact ⟨rfl, List.all_eq_true.mp ha⟩
  · cases h

theorem forksOK {env : Env} {db : Chains.DB} {ps : List Addr} {fs : List Fork}
    (h : Resp.after (Chains.Forks env db ps) (fun fs => w.encode fs (forkTimes fs)) = .ok fs) : ∀ f, f ∈ fs → ForkOK w f := by
  obtain ⟨gs, hg, he⟩ := after_ok h
  obtain ⟨rfl, ht⟩ := encode_ok he
  exact fun f hf => ⟨ht _ (List.mem_map_of_mem hf), Forks_plain hg f hf, fun h => absurd h (Forks_peers hg f hf)⟩

theorem Web.forks_OK {env : Env} {db : Chains.DB} {q : List Char} {fs : List Fork} (h : w.forks env db q = .ok fs) :
    ∀ f, f ∈ fs → ForkOK w f := by
  unfold Web.forks at h
  split at h
  · cases h
  · exact forksOK h

theorem Web.activeForks_OK {lib : Lib} {env1 env2 : Env} {reg : Registry} {db : Chains.DB} {q : List Char} {fs : List Fork}
    (h : w.activeForks lib env1 env2 reg db q = .ok fs) : ∀ f, f ∈ fs → ForkOK w f := by
  unfold Web.activeForks at h
  split at h
  · cases h
  · obtain ⟨conns, _, h⟩ := after_ok h
    exact forksOK h

theorem Web.fork_OK {env : Env} {db1 db2 : Chains.DB} {addr : List Char} {f : Fork} (h : w.fork env db1 db2 addr = .ok f) : ForkOK w f := by
  unfold Web.fork at h
  split at h
  · cases h
  · obtain ⟨ok, _, h⟩ := after_ok h
    split at h
    · cases h
    · obtain ⟨g, hg, h⟩ := after_ok h
      obtain ⟨rfl, ht⟩ := encode_ok h
      exact ⟨ht _ (by simp), ForkOf_plain hg, ForkOf_peers hg⟩

theorem Web.heads_OK {db : Chains.DB} {dbs : Nat → Chains.DB} {hs : List HeadInfo} (h : w.heads db dbs = .ok hs) :
    ∀ x, x ∈ hs → w.encodes x.timestamp.toNat = true := by
  unfold Web.heads at h
  obtain ⟨_, _, h⟩ := after_ok h
  obtain ⟨r, _, h⟩ := after_ok h
  obtain ⟨rfl, ht⟩ := encode_ok h
  exact fun x hx => ht _ (List.mem_map_of_mem (f := fun x : HeadInfo => x.timestamp.toNat) hx)

theorem leashInfos_plain {dbs : Nat → Chains.DB} : ∀ {i : Nat} {m : List (BlockID × List Addr)} {r : List LeashInfo},
    (∀ x, x ∈ m → ∀ a, a ∈ x.2 → Usual a) → leashInfos dbs i m = .ok r → ∀ l, l ∈ r → ∀ a, a ∈ l.peers → Usual a
  | _, [], r, _, h, l, hl => by cases h; cases hl
  | i, (k, v) :: m, r, hm, h, l, hl => by
    unfold leashInfos at h
    obtain ⟨b, _, h⟩ := go_bind_eq_ok.mp h
    obtain ⟨r', hr, h⟩ := go_bind_eq_ok.mp h
    cases h
    rcases List.mem_cons.mp hl with rfl | hl
    · exact hm _ List.mem_cons_self
    · exact leashInfos_plain (fun x hx => hm x (List.mem_cons_of_mem _ hx)) hr l hl

theorem Web.leashes_OK {env : Env} {db : Chains.DB} {dbs : Nat → Chains.DB} {ls : List LeashInfo} (h : w.leashes env db dbs = .ok ls) :
    ∀ x, x ∈ ls → LeashOK w x := by
  unfold Web.leashes at h
  obtain ⟨l0, hl0, h⟩ := after_ok h
  obtain ⟨r, hr, h⟩ := after_ok h
  obtain ⟨rfl, ht⟩ := encode_ok h
  intro x hx
  have hx := (env.sort_perm leashLess r).mem_iff.mp hx
  refine ⟨ht _ (List.mem_map_of_mem (f := fun x : LeashInfo => x.timestamp.toNat) hx), leashInfos_plain ?_ hr x hx⟩
  exact fun y hy a ha => group_plain (fun l hl => leashes_plain hl0 hl) ((env.mapOrder_perm _).mem_iff.mp hy) ha

/-- what is known of a peer in a report -/
def PeerOK (d : Dates) (p : Peer) : Prop :=
  validUTF8 p.name = true ∧ is4 p.addr = true ∧ d.encodes p.nextAttempt = true ∧ p.conn = none

theorem dates_ok {l l' : List Peer} (h : d.encode l = .ok l') : l = l' ∧ ∀ p, p ∈ l → d.encodes p.nextAttempt = true := by
  unfold Dates.encode at h
  split at h
  · next ha => cases h; exact ⟨rfl, List.all_eq_true.mp ha⟩
  · cases h

theorem Dates.peers_OK {lib : Lib} {env : Env} {r : Registry} (R : Reachable lib r) {l : List Peer} (h : d.peers lib env r = .ok l) :
    ∀ p, p ∈ l → PeerOK d p := by
  obtain ⟨l', h1, h2, _⟩ := R.inv.peersList lib env
  unfold Dates.peers at h
  obtain ⟨l0, h0, h⟩ := after_ok h
  obtain ⟨rfl, ht⟩ := dates_ok h
  rw [h1] at h0; cases h0
  intro p hp
  obtain ⟨b, v, hv, rfl⟩ := (h2 p).mp hp
  exact ⟨R.inv.names b v hv, rfl, ht _ hp, rfl⟩

theorem Dates.friendly_OK {lib : Lib} {env : Env} {r : Registry} (R : Reachable lib r) {l : List Peer} (h : d.friendly lib env r = .ok l) :
    ∀ p, p ∈ l → PeerOK d p := by
  obtain ⟨l', h1, h2, _⟩ := R.inv.friendlyList lib env
  unfold Dates.friendly at h
  obtain ⟨l0, h0, h⟩ := after_ok h
  obtain ⟨rfl, ht⟩ := dates_ok h
  rw [h1] at h0; cases h0
  intro p hp
  obtain ⟨b, v, hv, _, rfl⟩ := (h2 p).mp hp
  exact ⟨R.inv.names b v hv, rfl, ht _ hp, rfl⟩

theorem connectionsLoop_mem {db : Peers.DB} : ∀ {l : List (Addr × Peers.Conn)} {ps : List Peer}, Peers.connectionsLoop db l = .ok ps →
    ∀ p, p ∈ ps → ∃ a c q, (a, c) ∈ l ∧ Peers.peer db a = .ok q ∧ p = { q with conn := some c }
  | [], ps, h, p, hp => by cases h; cases hp
  | (a, c) :: l, ps, h, p, hp => by
    unfold Peers.connectionsLoop at h
    obtain ⟨q, hq, h⟩ := go_bind_eq_ok.mp h
    obtain ⟨r, hr, h⟩ := go_bind_eq_ok.mp h
    cases h
    rcases List.mem_cons.mp hp with rfl | hp
    · exact ⟨a, c, q, List.mem_cons_self, hq, rfl⟩
    · obtain ⟨a', c', q', h1, h2⟩ := connectionsLoop_mem hr p hp
      exact ⟨a', c', q', List.mem_cons_of_mem _ h1, h2⟩

theorem Dates.connections_OK {lib : Lib} {env : Env} {r : Registry} (R : Reachable lib r) {l : List Peer} (h : d.connections lib env r = .ok l) :
    ∀ p, p ∈ l → PeerOK d p := by
  unfold Dates.connections at h
  obtain ⟨l0, h0, h⟩ := after_ok h
  obtain ⟨rfl, ht⟩ := dates_ok h
  intro p hp
  have hd := ht p hp
  obtain ⟨p0, hp0, rfl⟩ := List.mem_map.mp hp
  unfold Peers.Connections at h0
  obtain ⟨ps, hps, h0⟩ := go_bind_eq_ok.mp h0
  cases h0
  have hp0 := (env.sort_perm _ ps).mem_iff.mp hp0
  obtain ⟨a, c, q, ha, hq, rfl⟩ := connectionsLoop_mem hps p0 hp0
  obtain ⟨b, hb⟩ := Peers.is4_iff.mp (R.inv.ipv4 _ _ ((env.mapOrder_perm _).mem_iff.mp ha)).1
  rw [hb] at hq
  obtain ⟨v, hv, rfl⟩ := R.inv.peerOf.mp hq
  exact ⟨R.inv.names b v hv, rfl, hd, rfl⟩

end Verif.Services.Json
