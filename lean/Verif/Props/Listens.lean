import Verif.Props.Params
import Verif.Services.Listens
/-
Property C114: when the program listens for connections.
-/

set_option autoImplicit false

namespace Verif.Services

open Verif
open Verif.Chains (Linkage)
open Verif.Peers (Lib)
open Verif.KV (Fate)

/-- The server for connections is started exactly if the declared address is one that peers can dial and the bind address is not the empty one. -/
theorem C114_listens {o : Opts} {f : Flags} {p : Params} (hp : o.newParameters f = .ok p) :
    o.listens p = true ↔ Usable o f.declared ∧ Bindable o f.net := by
  unfold Opts.newParameters at hp
  split at hp
  · cases hp
  · split at hp
    · cases hp
    · obtain ⟨_, _, hp⟩ := go_bind_eq_ok.mp hp
      obtain ⟨_, _, hp⟩ := go_bind_eq_ok.mp hp
      obtain ⟨_, _, hp⟩ := go_bind_eq_ok.mp hp
      obtain ⟨na, hna, hp⟩ := go_bind_eq_ok.mp hp
      obtain ⟨_, _, hp⟩ := go_bind_eq_ok.mp hp
      obtain ⟨net, hnet, hp⟩ := go_bind_eq_ok.mp hp
      obtain ⟨d, hd, hp⟩ := go_bind_eq_ok.mp hp
      cases hp
      have hsame : o.parse na = o.parse f.net := by
        unfold Opts.checkBind at hna
        split at hna
        · cases hna
        · split at hna
          · cases hna
          · rename_i ap hap; cases hna; rw [o.parse_print _ _ hap, hap]
      unfold Opts.listens Usable Bindable
      simp only [Bool.and_eq_true, Bool.not_eq_true', Bool.and_eq_false_iff, decide_eq_false_iff_not]
      constructor
      · rintro ⟨h1, h2⟩
        constructor
        · cases d with
          | none => cases h1
          | some x =>
            obtain ⟨ap, ha, hf, _⟩ := (parseAddress_some hd x.1 x.2).mp rfl
            exact ⟨ap, x.1, ha, hf, h1⟩
        · cases net with
          | none => rcases h2 with h2 | h2
                    · cases h2
                    · exact absurd rfl h2
          | some x =>
            obtain ⟨ap, ha, hf, hpo⟩ := (parseAddress_some hnet x.1 x.2).mp rfl
            exact ⟨ap, x.1, by rw [← hsame]; exact ha, hf, h2.imp id (fun h => by rw [hpo]; exact h)⟩
      · rintro ⟨⟨ap, b, h1, h2, h3⟩, ap', b', h4, h5, h6⟩
        have e1 := (parseAddress_some hd b ap.port).mpr ⟨ap, h1, h2, rfl⟩
        have e2 := (parseAddress_some hnet b' ap'.port).mpr ⟨ap', by rw [hsame]; exact h4, h5, rfl⟩
        subst e1 e2
        exact ⟨h3, h6⟩

/-- The program listens when it was started that way, and no event makes it listen when it was not. -/
theorem C114_only {lib : Lib} {o : Opts} {f : Flags} {pdb : Peers.DB} {lk : Linkage} {fs : Nat → Fate} {s0 s : Prog} (h0 : o.run f pdb fs lk = .ok s0)
    (hs : Reaches lib s0 s) : (s0.lsn = .starting ↔ Usable o f.declared ∧ Bindable o f.net) ∧ (s.lsn = .off ↔ ¬ (Usable o f.declared ∧ Bindable o f.net)) := by
  unfold Opts.run at h0
  obtain ⟨p, hp, h0⟩ := go_bind_eq_ok.mp h0
  cases h0
  rw [← C114_listens hp]
  constructor
  · show (if o.listens p = true then Lsn.starting else .off) = .starting ↔ _
    cases o.listens p <;> decide
  · induction hs with
    | refl =>
      show (if o.listens p = true then Lsn.starting else .off) = .off ↔ _
      cases o.listens p <;> decide
    | step _ e he ih => rw [step_off he, ih]

/-- With a declared address that is not an address at all the program starts and never listens: unlike one in the other addresses, the mistake is not reported. -/
theorem C114_mistake {o : Opts} {f : Flags} {p : Params} (hp : o.newParameters f = .ok p) (hd : o.parse f.declared = none) :
    o.listens p = false ∧ ∀ s, o.parse s = none → (∀ p', o.newParameters { f with net := s } ≠ .ok p') ∧ ∀ p', o.newParameters { f with api := s } ≠ .ok p' := by
  refine ⟨?_, fun s hs => ⟨fun p' h => (binds_parse h).2 hs, fun p' h => (binds_parse h).1 hs⟩⟩
  cases hl : o.listens p with
  | false => rfl
  | true =>
    obtain ⟨⟨ap, _, h, _⟩, _⟩ := (C114_listens hp).mp hl
    rw [hd] at h; cases h

/-- the example of C58 listens; without a declared address, or with one that is none, it does not -/
example : (match Props.exOpts.newParameters Props.exFlags with | .ok p => Props.exOpts.listens p | .error _ => false) = true ∧
    (match Props.exOpts.newParameters { Props.exFlags with declared := [] } with | .ok p => !Props.exOpts.listens p | .error _ => false) = true ∧
    (match Props.exOpts.newParameters { Props.exFlags with declared := ['?'] } with | .ok p => !Props.exOpts.listens p | .error _ => false) = true := by
  decide +kernel

end Verif.Services
