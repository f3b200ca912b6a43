import Verif.Services.Genuine
import Verif.Loading.HonestTrue
import Verif.Props.TrueForks
/-
A peer whose position is the last block of its history, in the report of the forks: a lemma for properties C107 and C112.
-/

set_option autoImplicit false

namespace Verif.Services

open Verif
open Verif.Chains (Addr BlockID ProtoBlock Linkage LeashOf Forks Fork Env)
open Verif.Chains.Spec (Truth)
open Verif.Loading (Serving TrueHistory worth base)

variable {g : ProtoBlock} {N : Nat} {T : Truth} {lk : Linkage} {peer : Addr} {ch : List ProtoBlock} {b : ProtoBlock}

/-- the report has the peer in the entry of this block -/
theorem shown (H : TrueHistory T g ch) (hH : Chains.Spec.Holds T g lk) (S : Serving g N lk) (h2 : 2 ≤ ch.length) (hlast : ch.getLast? = some b)
    (hle : LeashOf lk peer = .ok b.id) (hli : Chains.Listed peer) (hpl : peer = peer.plain) (env : Env) (filter : List Addr)
    (hfi : filter = [] ∨ peer ∈ filter) {ks : List Fork} (hf : Forks env lk.db filter = .ok ks) :
    ∃ f, f ∈ ks ∧ (∀ f', f' ∈ ks → (peer ∈ f'.peers ↔ f' = f)) ∧ f.headBlock = b.id ∧ f.headHeight.toNat = ch.length ∧
      f.score = worth (base g) ch (ch.length - 1) ∧ f.headTimestamp = b.timestamp ∧ some f.headGenerator = b.generator := by
  obtain ⟨ns, hs, R', _⟩ := Chains.reachable_rep hH.reachable
  have hlast' : ch[ch.length - 1]? = some b := by rw [← List.getLast?_eq_getElem?]; exact hlast
  have hidx : ch.length - 1 = (ch.length - 2) + 1 := by omega
  have hbne : b.id ≠ g.id := H.other (by rw [← hidx]; exact hlast')
  have hbm : b ∈ ch := List.mem_of_getElem? hlast'
  have hgl : Chains.getLeash lk.db peer = .ok b.id := by
    unfold LeashOf at hle
    rw [S.genesis_eq] at hle
    split at hle
    · rename_i id hid; rw [hid]; exact hle
    · exact absurd (Except.ok.inj hle).symm hbne
    · cases hle
  obtain ⟨ls, hls, _, hmem⟩ := R'.leashes
  have hin : { addr := peer, blockID := b.id } ∈ ls := (hmem peer b.id).mpr ⟨hli, hpl, hgl⟩
  obtain ⟨y, _, hy, _, hya, _, honly, _⟩ := Props.C96_detected hH env filter hf hls (p := peer) (q := peer) ⟨hin, hfi⟩ ⟨hin, hfi⟩
  obtain ⟨f0, rest, rfl, _⟩ := Props.C16_ranked hH.reachable env filter hf
  obtain ⟨_, r, _, hr, _, _, _, e1, e2, e3, e4⟩ := (Props.C17_lengths hH.reachable env filter hf).2.2 y hy
  rw [hya] at hr
  have hrec := hH.record _ _ hr
  obtain ⟨r0, ga, _, hga, he⟩ := hrec.inv hbne
  have htb := H.real b hbm
  refine ⟨y, hy, honly, hya, ?_, ?_, ?_, ?_⟩
  · rw [e1, H.height hH (ch.length - 1) b r hlast' hr]; omega
  · rw [e4, (H.fits (ch.length - 1) b r hlast' hrec).1]
  · rw [e2, he]; simp only [htb]
  · rw [e3, he, ← hga, htb]

end Verif.Services
