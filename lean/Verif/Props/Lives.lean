import Verif.Services.LivesLemmas
import Verif.Chains.Examples
import Verif.Props.Redial
/-
Property C94: the program can be stopped at any moment and started again.
-/

set_option autoImplicit false

namespace Verif.Props

open Verif
open Verif.Chains (Addr BytesN Linkage ProtoBlock NewLinkage LogInitialStats getBlockByID Heads Leashes)
open Verif.Chains.Spec (Op Fresh Stored Readable inserts)
open Verif.Services
open Verif.Loading (Serving)
open Verif.Loading.Fine (World Step Run Other)
open Verif.Peers (Lib AddrPort Config NewRegistry PeerOf Offered second)
open Verif.KV (Fate)

variable {lib : Lib} {g : ProtoBlock} {l0 : Linkage}

/-- Start with empty databases and run the program any number of times, with any configuration but the same genesis block.  Each run
may end at any moment: before it got going, between two calls, in the middle of a call on the store and a call on the registry
at once, or because the machine stopped.  Then the store opens, and what is opened is the store that the calls of all the
runs made of a fresh one, except that in each run the last call may have been cut short; nothing else is lost and
nothing else is there.  An existing store is opened without a write.  All properties of stores in service hold of it
(`Serving`), and the registry opened again is one of the registries that the properties C28 to C40 are about. -/
theorem C94_reopens (hf : Fresh g l0) {cs : List (List Op)} {d : Disk} (h : Lives lib g ⟨[], []⟩ cs d) {n : Nat}
    (hn : inserts cs.flatten + n + 2 < 2 ^ 32) :
    ∃ lk os, Opens g d lk ∧ (d.store ≠ [] → ∀ f, NewLinkage f d.store g = (d.store, .ok lk)) ∧
      Each cs os ∧ lk = Chains.Spec.exec l0 os.flatten ∧ Serving g n lk ∧ ∀ cfg, Peers.Reachable lib (NewRegistry cfg d.peers) := by
  obtain ⟨lk, I, _⟩ := (Intact.first (lib := lib) hf (inserts cs.flatten + n) hn).lives hf h (by simp)
  obtain ⟨os, hE, hex⟩ := I.calls
  have S : Serving g n lk := I.serving.mono (by simp)
  refine ⟨lk, os, ?_, ?_, by simpa using hE, hex, S, fun cfg => (Disk.registry_reachable I.peers cfg (fun _ => .ok) []).1⟩
  · unfold Opens
    rcases I.store with ⟨h1, h2⟩ | h1
    · rw [h1, h2]; exact hf
    · rw [h1]; exact again_open S .ok
  · intro hne f
    rcases I.store with ⟨h1, _⟩ | h1
    · exact absurd h1 hne
    · rw [h1]; exact again_open S f

/-- Whatever is stored at one time is there after any number of further runs: every block with the same record, and every peer. -/
theorem C94_kept (hf : Fresh g l0) {cs cs' : List (List Op)} {d d' : Disk} (h : Lives lib g ⟨[], []⟩ cs d) (h' : Lives lib g d cs' d')
    (hn : inserts (cs ++ cs').flatten + 2 < 2 ^ 32) {lk lk' : Linkage} (ho : Opens g d lk) (ho' : Opens g d' lk') :
    (∀ id r, getBlockByID lk.db id = .ok r → getBlockByID lk'.db id = .ok r) ∧
    ∀ cfg b p, PeerOf (NewRegistry cfg d.peers) (.v4 b) = .ok p → ∃ p', PeerOf (NewRegistry cfg d'.peers) (.v4 b) = .ok p' := by
  have hle : inserts cs.flatten ≤ inserts (cs ++ cs').flatten := by
    rw [List.flatten_append, Chains.inserts_append]; omega
  obtain ⟨lk1, I1, _⟩ := (Intact.first (lib := lib) hf (inserts (cs ++ cs').flatten) hn).lives hf h (by simpa using hle)
  rw [List.nil_append] at I1
  obtain ⟨lk2, I2, K, P⟩ := I1.lives hf h' (Nat.le_refl _)
  have e1 : lk = lk1 := (I1.store.opens hf I1.serving .ok).2 lk (by rw [show NewLinkage .ok d.store g = _ from ho])
  have e2 : lk' = lk2 := (I2.store.opens hf I2.serving .ok).2 lk' (by rw [show NewLinkage .ok d'.store g = _ from ho'])
  subst e1 e2
  refine ⟨K, fun cfg b p hp => ?_⟩
  have R1 := (Disk.registry_reachable I1.peers cfg (fun _ => .ok) []).1
  have R2 := (Disk.registry_reachable I2.peers cfg (fun _ => .ok) []).1
  obtain ⟨v, hv, _⟩ := R1.inv.peerOf.mp hp
  have hv : Peers.view d.peers b = some v := hv
  have := P b (by rw [hv]; simp)
  cases hv' : Peers.view d'.peers b with
  | none => exact absurd hv' this
  | some v' => exact ⟨_, R2.inv.peerOf.mpr ⟨v', hv', rfl⟩⟩

/-- Some listed peer is on a block that is a head and whose timestamp cannot be shown. -/
def Poisoned (lk : Linkage) : Prop :=
  ∃ hd ls x p, Heads lk.db = .ok hd ∧ Leashes lk.db = .ok ls ∧ x ∈ hd ∧ { addr := p, blockID := x.blockID } ∈ ls ∧ ¬ Readable lk.db x.blockID

/-- What the start is, for a store in service: either it panics, and that is exactly when some peer is on a head whose timestamp
is 2^63 - 1 or more, or it goes through. -/
theorem C94_start_exact {n : Nat} {lk : Linkage} (S : Serving g n lk) :
    (Poisoned lk ∧ LogInitialStats lk.db = goPanic) ∨ (¬ Poisoned lk ∧ LogInitialStats lk.db = .ok ()) := by
  obtain ⟨hd, ls, ah, h1, h2, h3, _, h5⟩ := C11_active_heads S.reachable
  obtain ⟨ns, hs, R, _⟩ := Chains.reachable_rep S.reachable
  have hst : ∀ x, x ∈ ah → Stored lk.db x.blockID := by
    intro x hx
    have hx := ((h5 x).mp hx).1
    obtain ⟨l0, ops, hf, hb, rfl⟩ := S.reachable
    obtain ⟨hd', h1', _, _, hid⟩ := C10_heads hf ops hb
    rw [h1] at h1'
    cases h1'
    exact ((hid _).mp (List.mem_map.mpr ⟨x, hx, rfl⟩)).1
  rcases R.initial h3 hst with ⟨⟨x, hx, hr⟩, h⟩ | ⟨hr, h⟩
  · obtain ⟨a, p, b⟩ := (h5 x).mp hx
    exact Or.inl ⟨⟨hd, ls, x, p, h1, h2, a, b, hr⟩, h⟩
  · refine Or.inr ⟨?_, h⟩
    rintro ⟨hd', ls', x, p, e1, e2, a, b, hx⟩
    rw [h1] at e1; rw [h2] at e2
    cases e1; cases e2
    exact hx (hr x ((h5 x).mpr ⟨a, p, b⟩))

/-- The claim "it can be started again" for the stores that the program leaves behind.  Missing for the full claim: stores in which
a peer is on a head with a timestamp of 2^63 - 1 or more; for these it is false (`C94_never_again`). -/
theorem C94_starts_partial (hf : Fresh g l0) {cs : List (List Op)} {d : Disk} (h : Lives lib g ⟨[], []⟩ cs d)
    (hn : inserts cs.flatten + 2 < 2 ^ 32) {lk : Linkage} (ho : Opens g d lk)
    (ht : ∀ id r, getBlockByID lk.db id = .ok r → r.timestamp.toNat < 2 ^ 63 - 1) : LogInitialStats lk.db = .ok () := by
  obtain ⟨lk', os, ho', _, _, _, S, _⟩ := C94_reopens (n := 0) hf h hn
  have e : lk' = lk := by
    unfold Opens at ho ho'
    rw [ho] at ho'
    have := congrArg Prod.snd ho'
    simp only [Except.ok.injEq] at this
    exact this.symm
  subst e
  rcases C94_start_exact S with ⟨⟨hd, ls, x, p, h1, _, hx, _, hr⟩, _⟩ | ⟨_, h⟩
  · obtain ⟨l0', ops, hf', hb, rfl⟩ := S.reachable
    obtain ⟨hd', h1', _, _, hid⟩ := C10_heads hf' ops hb
    rw [h1] at h1'
    cases h1'
    obtain ⟨r, hrec⟩ := S.record _ ((hid _).mp (List.mem_map.mpr ⟨x, hx, rfl⟩)).1
    exact absurd ⟨r, hrec, ht _ r hrec⟩ hr
  · exact h

/-- When the start panics once, it panics for ever: no later run makes any call on the store, and the store stays as it is. -/
theorem C94_stuck {d : Disk} {lk : Linkage} (ho : ∀ f, NewLinkage f d.store g = (d.store, .ok lk)) (hp : LogInitialStats lk.db = goPanic)
    {cs : List (List Op)} {d' : Disk} (h : Lives lib g d cs d') : d'.store = d.store ∧ ∀ c, c ∈ cs → c = [] := by
  induction h with
  | nil => exact ⟨rfl, fun c hc => by cases hc⟩
  | @snoc cs c d1 d2 h t ih =>
    have no : ∀ (f : Fate) (lk1 : Linkage), (NewLinkage f d1.store g).2 = .ok lk1 → LogInitialStats lk1.db = .ok () → False := by
      intro f lk1 h1 h2
      rw [ih.1, ho f] at h1
      cases h1
      rw [hp] at h2
      cases h2
    cases t with
    | noStart cfg fs seeds f =>
      refine ⟨by show (NewLinkage f d1.store g).1 = d.store; rw [ih.1, ho f], fun c hc => ?_⟩
      rcases List.mem_append.mp hc with hc | hc
      · exact ih.2 c hc
      · simpa using hc
    | run cfg fs seeds f lk1 h1 h2 => exact (no f lk1 h1 h2).elim
    | machine cfg fs seeds f lk1 h1 h2 => exact (no f lk1 h1 h2).elim

/-- What the database of the peers contains after the process has ended.  `es` are the calls that changed the registry during the run.
Then the database is what these calls made of it, or these calls and one more, which was going on and may have been cut
short; cut short means that some of the writes of `AppendAddresses` were made and the later ones not. -/
theorem C94_peers {reg : Peers.Registry} {lk : Linkage} {w : World} :
    (Run lib (World.start reg lk) w → ∃ es, Asked lib (World.start reg lk) es w) ∧
    ∀ es, Asked lib (World.start reg lk) es w → ∀ calls lk' db', Killed lib w calls lk' db' →
      db' = (Peers.exec lib reg es).db ∨ ∃ e e', CutEvent e e' ∧ db' = (Peers.exec lib reg (es ++ [e'])).db := by
  refine ⟨run_traced, fun es T calls lk' db' k => ?_⟩
  have hreg : w.sh.reg = Peers.exec lib reg es := (traced_run T).2
  have key : ∀ e r, Mid (registryCode lib e) w.sh.reg r →
      r.db = (Peers.exec lib reg es).db ∨ ∃ e e', CutEvent e e' ∧ r.db = (Peers.exec lib reg (es ++ [e'])).db := by
    intro e r hm
    rcases mid_registry hm with rfl | ⟨e', hc, rfl⟩
    · exact Or.inl (by rw [hreg])
    · exact Or.inr ⟨e, e', hc, by rw [hreg]; simp [Peers.exec]⟩
  cases k with
  | between e r hr => exact key e r hr
  | within w' t mine o hl lk hm e r hr => exact key e r hr

/-! ### a concrete history -/

/-- three blocks of two peers -/
def before : List Other :=
  [.putBlock (Chains.Ex.blk 1 0) (Chains.Ex.ip 1) .ok .ok, .putBlock (Chains.Ex.blk 2 1) (Chains.Ex.ip 1) .ok .ok,
    .putBlock (Chains.Ex.blk 3 1) (Chains.Ex.ip 2) .ok .ok]

/-- a block with a timestamp of 2^63 - 1, as any peer may send it -/
def poison : Other := .putBlock { Chains.Ex.blk 4 2 with timestamp := UInt64.ofNat (2 ^ 63 - 1) } (Chains.Ex.ip 1) .ok .ok

/-- the disk after a run in which these were stored -/
def after (xs : List Other) : Disk := ⟨(Chains.Spec.exec Chains.Ex.l0 (xs.filterMap Other.op)).db, []⟩

/-- the hypotheses of the theorems above are met: the program runs, stores three blocks, and is killed -/
example : Fresh Chains.Ex.g0 Chains.Ex.l0 ∧ Lives Peers.Ex.lib Chains.Ex.g0 ⟨[], []⟩ [before.filterMap Other.op] (after before) ∧
    LogInitialStats (after before).store = .ok () ∧ (Chains.HasBlock (after before).store (Chains.Ex.bid 3)) = .ok true :=
  ⟨Chains.Ex.fresh, .snoc .nil (life_ops (d := ⟨[], []⟩) (lk := Chains.Ex.l0) (by rfl) (by decide +kernel) before
      (by intro x hx; simp only [before, List.mem_cons, List.not_mem_nil, or_false] at hx; rcases hx with rfl | rfl | rfl <;> rfl)),
    by decide +kernel, by decide +kernel⟩

/-- the next run stores another block, and the process is killed between the block and the leash: the block is there, the
leash of the peer is on the block before -/
example : ∃ d, OneRun Peers.Ex.lib Chains.Ex.g0 (after before) [.putBlock (Chains.Ex.blk 4 2) (Chains.Ex.ip 1) .ok .ok] d ∧
    Chains.HasBlock d.store (Chains.Ex.bid 4) = .ok true ∧ Chains.getLeash d.store (Chains.Ex.ip 1) = .ok (Chains.Ex.bid 2) :=
  ⟨_, life_cut (lk := ⟨Chains.Ex.bid 0, (after before).store⟩) (by rfl) (by decide +kernel) (Chains.Ex.blk 4 2) (Chains.Ex.ip 1) .ok
    (by decide +kernel) (by decide +kernel) (by decide +kernel), by decide +kernel, by decide +kernel⟩

/-- The claim fails: there is a store that the program leaves behind after a single bad block of a single peer, such that every
later start panics, whatever the configuration, and nothing ever happens again. -/
theorem C94_never_again : ∃ cs d lk, Lives Peers.Ex.lib Chains.Ex.g0 ⟨[], []⟩ cs d ∧ Opens Chains.Ex.g0 d lk ∧
    LogInitialStats lk.db = goPanic ∧
    ∀ cs' d', Lives Peers.Ex.lib Chains.Ex.g0 d cs' d' → d'.store = d.store ∧ ∀ c, c ∈ cs' → c = [] := by
  have hp : LogInitialStats (after (before ++ [poison])).store = goPanic := by decide +kernel
  have L : Lives Peers.Ex.lib Chains.Ex.g0 ⟨[], []⟩ [(before ++ [poison]).filterMap Other.op] (after (before ++ [poison])) :=
    .snoc .nil (life_ops (d := ⟨[], []⟩) (lk := Chains.Ex.l0) (by rfl) (by decide +kernel) (before ++ [poison])
      (by
        intro x hx
        simp only [before, poison, List.cons_append, List.nil_append, List.mem_cons, List.not_mem_nil, or_false] at hx
        rcases hx with rfl | rfl | rfl | rfl <;> rfl))
  obtain ⟨lk, _, ho, ha, _⟩ := C94_reopens (n := 0) Chains.Ex.fresh L (by decide +kernel)
  have ha := ha (by decide +kernel)
  have e : lk.db = (after (before ++ [poison])).store := by
    have h1 := ha .ok
    rw [show NewLinkage .ok _ _ = _ from ho] at h1
    exact congrArg Prod.fst h1
  exact ⟨_, _, lk, L, ho, by rw [e]; exact hp, fun cs' d' h => C94_stuck ha (by rw [e]; exact hp) h⟩

/-- After a restart, a peer that is known, not hostile, has a port and is not the program itself is offered for dialling by the first
`TakeAvailableAddresses` at or after the time that its record names (or earlier).  Neither an open connection nor a dial that was
going on when the program ended is in the way. -/
theorem C94_redial (hf : Fresh g l0) {cs : List (List Op)} {d : Disk} (h : Lives lib g ⟨[], []⟩ cs d)
    (hn : inserts cs.flatten + 2 < 2 ^ 32) (cfg : Config) (fs : Nat → Fate) (seeds : List (Option AddrPort)) {b : BytesN 4} {p : Peers.Peer}
    (hp : PeerOf (NewRegistry cfg d.peers) (.v4 b) = .ok p) (hs : p.state ≠ .hostile) (hport : p.port ≠ 0) (ha : .v4 b ≠ cfg.declared)
    {es : List Peers.Event} {t : Int} (hes : ∀ e, e ∈ es → e.concerns (.v4 b) = false) (ht : p.nextAttempt * second ≤ t) :
    Offered lib (d.registry cfg fs seeds) (es ++ [⟨t, .take⟩]) ⟨.v4 b, p.port⟩ := by
  obtain ⟨lk, I, _⟩ := (Intact.first (lib := lib) hf (inserts cs.flatten) hn).lives hf h (by simp)
  obtain ⟨R1, R2, _⟩ := Disk.registry_reachable I.peers cfg fs seeds
  obtain ⟨v, hv, rfl⟩ := R1.inv.peerOf.mp hp
  have hview : Peers.view (d.registry cfg fs seeds).db b = some v := by
    rcases Peers.append_view (fs := fs) (l := seeds) R1.inv.good b with h' | ⟨h', _⟩
    · exact h'.trans hv
    · rw [hv] at h'; cases h'
  obtain ⟨db', added, k, happ, _⟩ := Peers.append_spec fs seeds (NewRegistry cfg d.peers) 0 R1.inv.good
  have hreg : d.registry cfg fs seeds = { NewRegistry cfg d.peers with db := db' } := congrArg Prod.fst happ
  refine Peers.Free.offered (T := v.nextAttempt * second) R2.inv ⟨⟨v, hview, hs, rfl, Int.le_refl _⟩, hport, ?_, ?_, ?_⟩ hes ht
  · rw [hreg]; exact ha
  · rw [hreg]; rintro ⟨c, hc⟩; cases hc
  · rw [hreg]; intro hc; cases hc

/-- A peer that is being dialled when the process is killed is offered again at once by the next run. -/
example :
    let r := Peers.Ex.run [Peers.Ex.seeds, Peers.Ex.at_ 10 .take]
    (PeerOf (NewRegistry Peers.Ex.cfg r.db) (Peers.Ex.ip 1 1 1 1)).map (fun p => (p.state, p.port, decide (p.nextAttempt ≤ 11))) =
      .ok (.unknown, 6868, true) ∧
    ((Peers.TakeAvailableAddresses (11 * second) r).2.map (·.length)) = .ok 0 ∧
    ⟨Peers.Ex.ip 1 1 1 1, 6868⟩ ∈ ((Peers.TakeAvailableAddresses (11 * second) (Disk.registry ⟨[], r.db⟩ Peers.Ex.cfg (fun _ => .ok) [])).2.toOption.getD []) := by
  decide +kernel

/-- Two addresses are appended and the process is killed between the two writes: the first one is in the database and the second not, in
contrast to the whole call. -/
example :
    let e : Peers.Event := ⟨0, .append (fun _ => .ok) [some ⟨Peers.Ex.ip 1 1 1 1, 1⟩, some ⟨Peers.Ex.ip 2 2 2 2, 2⟩]⟩
    let e' : Peers.Event := ⟨0, .append (cut (fun _ => .ok) 1) [some ⟨Peers.Ex.ip 1 1 1 1, 1⟩, some ⟨Peers.Ex.ip 2 2 2 2, 2⟩]⟩
    let r0 := NewRegistry Peers.Ex.cfg []
    Mid (registryCode Peers.Ex.lib e) r0 (Peers.step Peers.Ex.lib r0 e') ∧ CutEvent e e' ∧
    (Peers.step Peers.Ex.lib r0 e').db.length = 1 ∧ (Peers.step Peers.Ex.lib r0 e).db.length = 2 := by
  refine ⟨?_, .append _ _ _ 1, by decide +kernel, by decide +kernel⟩
  exact .op _ (.act _ _ (.act _ _ (.here _ _)))

end Verif.Props
