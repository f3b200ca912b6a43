import Verif.Services.ProgramInv
import Verif.Loading.Origin
/-
Executions with their events, what peers said in them, and where the positions
of peers and the stored blocks come from.
-/

set_option autoImplicit false

namespace Verif.Services

open Verif
open Verif.Chains (Addr BytesN BlockID ProtoBlock MicroInv Linkage LeashOf getLeash getBlockByID BlockRec)
open Verif.Peers (Conn Registry Lib AddrPort Config)
open Verif.Loading (Ctx Loader Serving)
open Verif.KV (Fate)

variable {lib : Lib} {g : ProtoBlock}

/-- An execution: the program is started on the store `lk` that it serves from, the events `es` happen, the state is `s` then and the
store has room for `n` more blocks. -/
inductive Run (lib : Lib) (g : ProtoBlock) (lk : Linkage) : Nat → List Ev → Prog → Prop where
  | start {n : Nat} {r : Registry} (hr : Peers.Reachable lib r) (hs : Serving g n lk) (cfg : Config) (fs : Nat → Fate)
      (seeds : List (Option AddrPort)) (lsn : Bool) : Run lib g lk n [] (Prog.start cfg r.db fs seeds lk lsn)
  | step {n : Nat} {es : List Ev} {s s' : Prog} (e : Ev) (h : Run lib g lk (n + s.cost e) es s) (hs : s.step lib e = some (.ok s')) :
      Run lib g lk n (es ++ [e]) s'

/-- the ids of blocks that the sender of the message shows to have: of the block in it, of the block that the announced
micro-block makes, or of the list in it -/
def Message.blockIDs : Message → List BlockID
  | .block (some b) => [b.id]
  | .pbBlock (some b) => [b.id]
  | .microBlockInv (some inv) => [inv.totalBlockID]
  | .signatures l => l.map idFromSignature
  | .blockIds l => l
  | _ => []

/-- the block in the message -/
def Message.payload : Message → Option ProtoBlock
  | .block b => b
  | .pbBlock b => b
  | _ => none

/-- a peer at the address sent the message -/
def Said (es : List Ev) (a : Addr) (m : Message) : Prop := ∃ c p, Ev.message c p m ∈ es ∧ p.remote = some a

/-- the source of everything that peers say -/
def heard (es : List Ev) : Loading.Source where
  ids a id := ∃ m, Said es a m ∧ id ∈ m.blockIDs
  blocks a b := ∃ m, Said es a m ∧ m.payload = some b
  micros a inv := Said es a (.microBlockInv (some inv))

theorem Run.alive {lk : Linkage} {n : Nat} {es : List Ev} {s : Prog} (h : Run lib g lk n es s) : Alive lib g n s := by
  induction h with
  | start hr hs cfg fs seeds lsn => exact .start hr hs cfg fs seeds lsn
  | step e _ hs ih => exact .step e ih hs

theorem Said.mono {es es' : List Ev} (hi : ∀ e, e ∈ es → e ∈ es') {a : Addr} {m : Message} (h : Said es a m) : Said es' a m := by
  obtain ⟨c, p, h, hp⟩ := h
  exact ⟨c, p, hi _ h, hp⟩

/-- the package on its way to the loader was said by a peer -/
def Heard (es : List Ev) : Pkg → Prop
  | .ids a ids => ∀ id, id ∈ ids → (heard es).ids a id
  | .block a b => (heard es).blocks a b

theorem Heard.mono {es es' : List Ev} (hi : ∀ e, e ∈ es → e ∈ es') {p : Pkg} (h : Heard es p) : Heard es' p := by
  cases p with
  | ids a ids =>
    intro id hid
    obtain ⟨m, hm, he⟩ := h id hid
    exact ⟨m, hm.mono hi, he⟩
  | block a b =>
    obtain ⟨m, hm, he⟩ := h
    exact ⟨m, hm.mono hi, he⟩

theorem blockIDs_payload {m : Message} {b : ProtoBlock} (h : m.payload = some b) : b.id ∈ m.blockIDs := by
  cases m <;> simp_all [Message.payload, Message.blockIDs]

/-- the package that the handler of a message makes -/
theorem handleMessage_pkg {c : Ctx} {l : Loader} {p : Sender} {m : Message} {x : Handled} (h : handleMessage lib c l p m = .ok x)
    {k : Pkg} (hk : x.pkg = some k) : Heard [.message c p m] k := by
  have said : ∀ {a}, p.remote = some a → Said [.message c p m] a m := fun ha => ⟨c, p, by simp, ha⟩
  have put : ∀ b, m.payload = some b → handleBlock c l p (some b) = .ok x → Heard [.message c p m] k := by
    intro b hm h
    unfold handleBlock at h
    cases hr : p.remote with
    | none => rw [hr] at h; cases h; cases hk
    | some a =>
      rw [hr] at h
      simp only at h
      rcases hw : Chains.PutBlock (c.fates 0) (c.fates 1) l.link.db b a with ⟨db, (e | u) | u⟩
      · rw [hw] at h
        cases e <;> (cases h; first | cases hk) <;> exact ⟨m, said hr, hm⟩
      · rw [hw] at h; cases h
      · rw [hw] at h; cases h; cases hk; exact ⟨m, said hr, hm⟩
  cases m with
  | getPeers =>
    simp only [handleMessage, handleGetPeers] at h
    rcases hf : Peers.FriendlyPeers lib c.env l.reg with (e | u) | fs
    · rw [hf] at h; cases h; cases hk
    · rw [hf] at h; cases h
    · rw [hf] at h
      simp only at h
      cases ht : Peers.tcpAddrs fs with
      | error e => rw [ht] at h; cases h
      | ok infos => rw [ht] at h; cases h; cases hk
  | peers ps =>
    simp only [handleMessage, handlePeers] at h
    obtain ⟨rfl, _⟩ := noPanic_eq h
    cases hk
  | signatures sigs =>
    simp only [handleMessage, handleSignatures] at h
    cases hr : p.remote with
    | none => rw [hr] at h; cases h; cases hk
    | some a =>
      rw [hr] at h; cases h; cases hk
      exact fun id hid => ⟨_, said hr, hid⟩
  | block b =>
    cases b with
    | none => cases h; cases hk
    | some b => exact put b rfl h
  | score sc =>
    simp only [handleMessage, handleScore] at h
    cases hr : p.remote with
    | none => rw [hr] at h; cases h; cases hk
    | some a =>
      rw [hr] at h
      obtain ⟨rfl, _⟩ := noPanic_eq h
      cases hk
  | microBlockInv inv =>
    simp only [handleMessage, handleMicroBlockInv] at h
    cases hr : p.remote with
    | none => rw [hr] at h; cases inv <;> (cases h; cases hk)
    | some a =>
      rw [hr] at h
      cases inv with
      | none => cases h; cases hk
      | some inv =>
        obtain ⟨rfl, _⟩ := noPanic_eq h
        cases hk
  | pbBlock b =>
    cases b with
    | none => cases h; cases hk
    | some b => exact put b rfl h
  | blockIds ids =>
    simp only [handleMessage, handleBlockIDs] at h
    cases hr : p.remote with
    | none => rw [hr] at h; cases h; cases hk
    | some a =>
      rw [hr] at h
      simp only at h
      split at h
      · cases h; cases hk
      · cases h; cases hk
        exact fun id hid => ⟨_, said hr, hid⟩
  | _ => cases h; cases hk

/-- the package on its way after an event -/
theorem step_pkg {s s' : Prog} {e : Ev} (h : s.step lib e = some (.ok s')) {k : Pkg} (hk : s'.dist = .sending k) :
    s.dist = .sending k ∨ Heard [e] k := by
  obtain ⟨_, hc⟩ := step_case h
  cases hc with
  | @handled _ r x hd hr hx =>
    right
    have hk : x.pkg = some k := by
      cases hp : x.pkg with
      | none => simp only [hp] at hk; cases hk
      | some k' => simp only [hp] at hk; cases hk; rfl
    cases hr with
    | message c p m => rw [receive_eq] at hx; exact handleMessage_pkg hx hk
    | connected c p hj =>
      unfold handleConnected at hx
      cases hr : p.remote with
      | none => rw [hr] at hx; cases hx; cases hk
      | some a =>
        rw [hr] at hx
        obtain ⟨rfl, _⟩ := noPanic_eq hx
        cases hk
    | broken c p =>
      unfold handleInternalError at hx
      cases hr : p.remote with
      | none => rw [hr] at hx; cases hx; cases hk
      | some a =>
        rw [hr] at hx
        obtain ⟨rfl, _⟩ := noPanic_eq hx
        cases hk
    | ping c => cases hx; cases hk
  | take c p l' hd hu hl => cases hk
  | distExit hc hd => cases hk
  | respawn now rf hu ha =>
    left
    unfold Prog.respawn at hk
    split at hk
    · exact hk
    · simp only at hk
      split at hk <;> exact hk
  | _ => exact Or.inl hk

/-- what the event of the loader carries was said by a peer -/
theorem loaderEv_heard {s : Prog} {e : Ev} {es : List Ev} {ctx0 : Ctx} {le : Loading.Event} (hd : ∀ k, s.dist = .sending k → Heard es k)
    (he : s.loaderEv ctx0 e = some le) : (heard (es ++ [e])).Event le.op := by
  cases e with
  | message c p m =>
    simp only [Prog.loaderEv, Option.map_eq_some_iff] at he
    obtain ⟨o, ho, rfl⟩ := he
    have said : ∀ {a}, p.remote = some a → Said (es ++ [.message c p m]) a m := fun ha => ⟨c, p, by simp, ha⟩
    cases m with
    | block b =>
      cases b with
      | none => cases ho
      | some b =>
        simp only [messageEv, Option.map_eq_some_iff] at ho; obtain ⟨a', ha, rfl⟩ := ho; exact ⟨_, said ha, rfl⟩
    | pbBlock b =>
      cases b with
      | none => cases ho
      | some b =>
        simp only [messageEv, Option.map_eq_some_iff] at ho; obtain ⟨a', ha, rfl⟩ := ho; exact ⟨_, said ha, rfl⟩
    | microBlockInv inv =>
      cases inv with
      | none => cases ho
      | some b =>
        simp only [messageEv, Option.map_eq_some_iff] at ho; obtain ⟨a', ha, rfl⟩ := ho; exact said ha
    | peers ps => cases ho; exact trivial
    | score sc => simp only [messageEv, Option.map_eq_some_iff] at ho; obtain ⟨a', _, rfl⟩ := ho; exact trivial
    | _ => cases ho
  | connected c p => simp only [Prog.loaderEv, Option.map_eq_some_iff] at he; obtain ⟨a, _, rfl⟩ := he; exact trivial
  | broken c p => simp only [Prog.loaderEv, Option.map_eq_some_iff] at he; obtain ⟨a, _, rfl⟩ := he; exact trivial
  | take c =>
    simp only [Prog.loaderEv] at he
    have mono : ∀ {k}, Heard es k → Heard (es ++ [.take c]) k := Heard.mono (fun _ h => List.mem_append_left _ h)
    split at he
    · rename_i a ids hs
      cases he; exact mono (hd _ hs)
    · rename_i a b hs
      cases he
      intro x hx
      cases hx
      exact mono (hd _ hs)
    · cases he
  | respawn now rf =>
    simp only [Prog.loaderEv] at he
    split at he <;> cases he
    exact trivial
  | tick c => cases he; exact trivial
  | timer c => cases he; exact trivial
  | suggest f now a => cases he; exact trivial
  | giveUp f now a => cases he; exact trivial
  | _ => cases he

/-- the state of an execution, as far as it tells where things come from -/
structure Traced (lk : Linkage) (es : List Ev) (s : Prog) : Prop where
  queue : (heard es).Queue s.l
  dist : ∀ k, s.dist = .sending k → Heard es k
  genesis : s.l.link.genesis = lk.genesis
  leash : ∀ a id, getLeash s.l.link.db a = .ok id → getLeash lk.db a = .ok id ∨ ∃ a0, a0.plain = a.plain ∧ (heard es).ids a0 id
  leashed : ∀ a, (∃ id, getLeash lk.db a = .ok id) → ∃ id, getLeash s.l.link.db a = .ok id
  record : ∀ id r, getBlockByID s.l.link.db id = .ok r → getBlockByID lk.db id = .ok r ∨
    ∃ o, Chains.Due s.l.link.db id r o ∧ (heard es).Call o

theorem Serving.rep {n : Nat} {lk : Linkage} (S : Serving g n lk) : ∃ ns hs, Chains.Rep lk.db ns hs ∧ ns.length + 1 + n < 2 ^ 32 := by
  obtain ⟨l0, ops, hf, _, _, hb, rfl⟩ := S
  obtain ⟨ga, sc, _, _, _, R⟩ := Chains.fresh_rep hf
  obtain ⟨ns, hs, R', _, hl⟩ := R.exec ops (by simp; omega)
  refine ⟨ns, hs, R', ?_⟩
  have : ns.length ≤ 1 + Chains.Spec.inserts ops := hl
  omega

theorem heard_call {es es' : List Ev} (hi : ∀ e, e ∈ es → e ∈ es') {o : Chains.Spec.Op} (h : (heard es).Call o) : (heard es').Call o := by
  cases o with
  | putBlock b a f1 f2 => obtain ⟨m, hm, he⟩ := h; exact ⟨m, hm.mono hi, he⟩
  | putMicro inv a f1 f2 => exact Said.mono hi h
  | moveLeash id a f => obtain ⟨m, hm, he⟩ := h; exact ⟨m, hm.mono hi, he⟩
  | reopen g f => exact h

theorem target_heard {es : List Ev} {o : Chains.Spec.Op} (h : (heard es).Call o) {a : Addr} {id : BlockID}
    (ht : Chains.Spec.target o = some (a, id)) : (heard es).ids a id := by
  cases o with
  | putBlock b a f1 f2 => obtain ⟨m, hm, he⟩ := h; cases ht; exact ⟨m, hm, blockIDs_payload he⟩
  | putMicro inv a f1 f2 => cases ht; exact ⟨_, h, List.mem_cons_self⟩
  | moveLeash id a f => cases ht; exact h
  | reopen g f => cases ht

theorem exec_genesis_eq {es : List Ev} {lk : Linkage} {ops : List Chains.Spec.Op} (h : ∀ o, o ∈ ops → (heard es).Call o) :
    (Chains.Spec.exec lk ops).genesis = lk.genesis := by
  induction ops generalizing lk with
  | nil => rfl
  | cons o ops ih =>
    show (Chains.Spec.exec (Chains.Spec.step lk o).1 ops).genesis = lk.genesis
    rw [ih (fun o ho => h o (List.mem_cons_of_mem _ ho))]
    have := h o List.mem_cons_self
    cases o with
    | reopen g f => exact this.elim
    | _ => rfl

theorem Run.traced {lk : Linkage} {n : Nat} {es : List Ev} {s : Prog} (h : Run lib g lk n es s) : Traced lk es s := by
  induction h with
  | start hr hs cfg fs seeds lsn =>
    exact ⟨(fun it hit => by cases hit), (fun k hk => by cases hk), rfl, fun a id h => Or.inl h, fun a h => h, fun id r h => Or.inl h⟩
  | @step n es s s' e h hs ih =>
    have hi : ∀ e', e' ∈ es → e' ∈ es ++ [e] := fun _ h => List.mem_append_left _ h
    have hids : ∀ {a id}, (heard es).ids a id → (heard (es ++ [e])).ids a id := fun ⟨m, hm, he⟩ => ⟨m, hm.mono hi, he⟩
    have hq : (heard (es ++ [e])).Queue s.l := by
      intro it hit b hb
      obtain ⟨m, hm, he⟩ := ih.queue it hit b hb
      exact ⟨m, hm.mono hi, he⟩
    have hd : ∀ k, s'.dist = .sending k → Heard (es ++ [e]) k := by
      intro k hk
      rcases step_pkg hs hk with h | h
      · exact (ih.dist k h).mono hi
      · exact h.mono (fun _ h => List.mem_append_right _ h)
    have A := h.alive
    have hl := step_loader (Loading.Ex.ctx 0) hs
    cases he : s.loaderEv (Loading.Ex.ctx 0) e with
    | none =>
      rw [he] at hl
      have hl : s'.l = s.l := hl
      refine ⟨hl ▸ hq, hd, by rw [hl]; exact ih.genesis, ?_, by rw [hl]; exact ih.leashed, ?_⟩
      · intro a id h
        rw [hl] at h
        rcases ih.leash a id h with h | ⟨a0, hp, h⟩
        · exact Or.inl h
        · exact Or.inr ⟨a0, hp, hids h⟩
      · intro id r h
        rw [hl] at h ⊢
        rcases ih.record id r h with h | ⟨o, h, ho⟩
        · exact Or.inl h
        · exact Or.inr ⟨o, h, heard_call hi ho⟩
    | some le =>
      rw [he] at hl
      obtain ⟨⟨ops, hex, hins, hcall⟩, hq'⟩ := Loading.Source.step A.running.reachable.inv hq (loaderEv_heard ih.dist he) hl
      have hcost := cost_loaderEv he
      obtain ⟨ns, hs0, R, hb⟩ := Serving.rep A.running.serving
      have hb' : ns.length + 1 + Chains.Spec.inserts ops < 2 ^ 32 := by omega
      obtain ⟨ns1, hs1, R1, hp1, _⟩ := R.exec ops (by omega)
      refine ⟨hq', hd, by rw [hex, exec_genesis_eq hcall]; exact ih.genesis, ?_, ?_, ?_⟩
      · intro a id h
        rw [hex] at h
        rcases R.exec_leash ops hb' h with h | ⟨o, ho, a0, ht, hp⟩
        · rcases ih.leash a id h with h | ⟨a0, hp, h⟩
          · exact Or.inl h
          · exact Or.inr ⟨a0, hp, hids h⟩
        · exact Or.inr ⟨a0, hp, target_heard (hcall o ho) ht⟩
      · intro a h
        rw [hex]
        exact R.exec_leashed ops hb' (ih.leashed a h)
      · intro id r h
        rw [hex] at h ⊢
        rcases R.exec_record ops hb' h with h | ⟨o, ho, hdue⟩
        · rcases ih.record id r h with h | ⟨o, hdue, ho⟩
          · exact Or.inl h
          · refine Or.inr ⟨o, ?_, heard_call hi ho⟩
            cases hdue with
            | block b a f1 f2 hid h1 h2 h3 => exact .block b a f1 f2 hid h1 h2 h3
            | micro inv a f1 f2 hid r0 h0 hr => exact .micro inv a f1 f2 hid r0 (R.record_kept R1 hp1 h0) hr
        · exact Or.inr ⟨o, hdue, hcall o ho⟩

end Verif.Services
