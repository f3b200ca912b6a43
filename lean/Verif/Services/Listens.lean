import Verif.Services.ConfigLemmas
import Verif.Services.ShutdownLemmas
/-
When the program listens for connections: vocabulary and lemmas for property C114.
-/

set_option autoImplicit false

namespace Verif.Services

open Verif
open Verif.Chains (BytesN)
open Verif.Peers (Lib)

/-- The text stands for an address of a host that can be dialled by IPv4. -/
def Usable (o : Opts) (s : List Char) : Prop := ∃ ap b, o.parse s = some ap ∧ Fits ap.addr b ∧ o.emptyIP b = false

/-- The text stands for an address and a port that a server can be bound to: the host or the port is given. -/
def Bindable (o : Opts) (s : List Char) : Prop := ∃ ap b, o.parse s = some ap ∧ Fits ap.addr b ∧ (o.emptyIP b = false ∨ ap.port ≠ 0)

/-- what `parseAddress` makes of a text -/
theorem parseAddress_some {o : Opts} {s : List Char} {t : TCPAddr} (h : o.parseAddress s = .ok t) (b : BytesN 4) (p : UInt16) :
    t = some (b, p) ↔ ∃ ap, o.parse s = some ap ∧ Fits ap.addr b ∧ ap.port = p := by
  unfold Opts.parseAddress at h
  cases hp : o.parse s with
  | none =>
    rw [hp] at h; cases h
    constructor
    · intro h; cases h
    · rintro ⟨_, h, _⟩; cases h
  | some ap =>
    rw [hp] at h
    obtain ⟨ip, hip, h⟩ := go_bind_eq_ok.mp h
    cases h
    constructor
    · intro h; cases h
      exact ⟨ap, rfl, as4_fits.mp hip, rfl⟩
    · rintro ⟨ap', h, hf, rfl⟩
      cases h
      have := as4_fits.mpr hf
      rw [hip] at this
      cases this; rfl

/-- no event starts the server -/
theorem step_off {lib : Lib} {s s' : Prog} {e : Ev} (h : s.step lib e = some (.ok s')) : s'.lsn = .off ↔ s.lsn = .off := by
  obtain ⟨_, hc⟩ := step_case h
  cases hc with
  | listenerExit conn hl hcn =>
    constructor
    · intro h; cases h
    · intro h; rw [hl] at h; cases h
  | listen ok hl =>
    constructor
    · intro h; cases ok <;> cases h
    · intro h; rw [hl] at h; cases h
  | respawn now rf => rw [respawn_lsn]
  | _ => exact Iff.rfl

/-- the bind addresses are addresses -/
theorem binds_parse {o : Opts} {f : Flags} {p : Params} (hp : o.newParameters f = .ok p) : o.parse f.api ≠ none ∧ o.parse f.net ≠ none := by
  have key : ∀ s t, o.checkBind s = .ok t → o.parse s ≠ none := by
    intro s t h hn
    unfold Opts.checkBind at h
    rw [hn] at h
    split at h <;> cases h
  unfold Opts.newParameters at hp
  split at hp
  · cases hp
  · split at hp
    · cases hp
    · obtain ⟨_, _, hp⟩ := go_bind_eq_ok.mp hp
      obtain ⟨_, _, hp⟩ := go_bind_eq_ok.mp hp
      obtain ⟨_, h1, hp⟩ := go_bind_eq_ok.mp hp
      obtain ⟨_, h2, hp⟩ := go_bind_eq_ok.mp hp
      exact ⟨key _ _ h1, key _ _ h2⟩

end Verif.Services
