import Verif.Loading.Steps
/-
Runs of the loader: the store stays one that the program serves from, and in a
wait for ids all blocks of the queue are stored.
-/

set_option autoImplicit false

namespace Verif.Loading

open Verif
open Verif.Chains (Addr BlockID ProtoBlock Linkage Env PutBlock MoveLeash HasBlock LeashOf LeashScore LastIDs LCB getLeash)
open Verif.Chains.Spec (Stored SameTree ScoreOf HeightOf IsWalk)
open Verif.Peers (Peer Conn Version Registry Lib second)
open Verif.KV (Fate)

variable {g : ProtoBlock} {n : Nat} {lib : Lib}

theorem exec_append (l : Loader) (es es' : List Event) :
    exec lib l (es ++ es') = (exec lib l es >>= fun m => exec lib m es') := by
  induction es generalizing l with
  | nil => rfl
  | cons e es ih =>
    rw [List.cons_append, exec, exec]
    cases step lib l e with
    | error x => rfl
    | ok m => simp only [go_bind_ok]; exact ih m

theorem micro_kept {lk : Linkage} (S : Serving g (n + 1) lk) (b : Chains.MicroInv) (peer : Addr) (f1 f2 : Fate) (id : BlockID)
    (h : Stored lk.db id) : Stored (Chains.PutMicroBlock f1 f2 lk.db b peer).1 id := by
  obtain ⟨l0, ops, hf, _, _, hb, rfl⟩ := S
  have := Props.C01_blocks_permanent hf ops [.putMicro b peer f1 f2]
    (by rw [Chains.inserts_append]; have : Chains.Spec.inserts [Chains.Spec.Op.putMicro b peer f1 f2] = 1 := rfl; omega) id h
  rw [Chains.exec_append] at this
  exact this.1

theorem Running.reachable {l : Loader} (h : Running lib g n l) : Reachable lib l := by
  have key : ∀ {n : Nat} {l : Loader}, Running lib g n l →
      ∃ reg lk es, Peers.Reachable lib reg ∧ exec lib (NewLoader reg lk) es = .ok l := by
    intro n l h
    induction h with
    | start hr hs => exact ⟨_, _, [], hr, rfl⟩
    | step e h hs ih =>
      obtain ⟨reg, lk, es, hr, he⟩ := ih
      refine ⟨reg, lk, es ++ [e], hr, ?_⟩
      rw [exec_append, he, go_bind_ok, Loading.exec, hs]; rfl
  exact key h

/-- the store part of the loader after an event -/
theorem requestIDs_link (c : Ctx) (l : Loader) : (requestIDs c l).1.link = l.link := by
  rcases requestIDs_cases c l with ⟨e, h⟩ | ⟨_, _, _, _, _, _, _, h⟩ <;> rw [h] <;> rfl

theorem requestIDsFromLCA_link (c : Ctx) (l : Loader) : (requestIDsFromLCA c l).1.link = l.link := by
  rcases requestIDsFromLCA_cases c l with ⟨e, h⟩ | ⟨_, _, _, _, _, _, _, h⟩ <;> rw [h] <;> rfl

theorem succeed_link (c : Ctx) (l : Loader) (h : Quiet l) (ha : l.active = true) : (succeed c l).1.link = l.link := by
  have ho := succeed_outcome c l h ha
  generalize succeed c l = r at ho
  cases ho with
  | again => exact requestIDs_link c _
  | release => rfl
  | stuck => rfl
  | panic => rfl

theorem sync_link {c : Ctx} {l l' : Loader} (h : sync lib c l = .ok l') : l'.link = l.link := by
  have ho := sync_outcome lib c l
  rw [h] at ho
  generalize hr : (Except.ok l' : Go Loader) = r at ho
  cases ho with
  | busy _ => cases hr; rfl
  | unlisted _ _ _ => cases hr; rfl
  | panic _ _ => cases hr
  | nobody _ _ _ _ => cases hr; rfl
  | start _ ps hc p hp hl hn =>
    obtain ⟨rfl, _⟩ := logged_ok hr.symm
    exact requestIDs_link c _
  | restart _ ps hc p hp hl hn =>
    obtain ⟨rfl, _⟩ := logged_ok hr.symm
    exact requestIDsFromLCA_link c _

/-- what an event does to the store -/
structure Grew (g : ProtoBlock) (n : Nat) (lk lk' : Linkage) : Prop where
  serving : Serving g n lk'
  kept : ∀ id, Stored lk.db id → Stored lk'.db id

theorem putOpt_length (q : List Item) (b : Option ProtoBlock) : (putOpt q b).length = q.length := by
  have := congrArg List.length (putOpt_requested q b)
  simpa using this

theorem Grew.step {l l' : Loader} {e : Event} (I : Inv lib l) (S : Serving g (n + cost l e) l.link)
    (h : Loading.step lib l e = .ok l') : Grew g n l.link l'.link := by
  obtain ⟨c, op⟩ := e
  have same : Serving g n l.link → ∀ {lk : Linkage}, lk = l.link → Grew g n l.link lk := by
    intro S lk e; rw [e]; exact ⟨S, fun _ h => h⟩
  cases op with
  | ids peer ids =>
    simp only [Loading.step, handleIDs] at h
    have S : Serving g n l.link := S
    split at h
    · cases h; exact same S rfl
    · rename_i ha
      have ha : l.active = true := by simpa using ha
      split at h
      · cases h; exact same S rfl
      · split at h
        · cases h; exact same S rfl
        · obtain ⟨rfl, _⟩ := logged_ok h
          by_cases hs : l.obj.state = .waitingForIDs
          · obtain ⟨leash, hl, _⟩ := S.leash l.peerID
            obtain ⟨s1, s2, _⟩ := requestLoop_spec c l.peerID 0 S ids leash hl
            have hg : Grew g n l.link (requestLoop c l.peerID 0 l.link ids).1 :=
              ⟨s1, fun id hid => (sameTree_stored s2.tree id).mpr hid⟩
            have ho := fire_ids c l ids I.quiet hs
            generalize fire c l (.ids ids) = r at ho
            have hloop : ∀ {lk x}, requestLoop c (enter l .waitingForBlocks).peerID 0 (enter l .waitingForBlocks).link ids = (lk, x) →
                Grew g n l.link lk := by
              intro lk x hx
              have : (requestLoop c l.peerID 0 l.link ids).1 = lk := congrArg Prod.fst hx
              rw [← this]; exact hg
            cases ho with
            | failed lk e h => exact hloop h
            | known lk h => rw [succeed_link c _ (by exact I.quiet) (by exact ha)]; exact hloop h
            | asked lk req cn h hne hc => exact hloop h
            | panic lk req h hne hc => exact hloop h
          · rw [fire_ids_other c l ids I.quiet hs]; exact same S rfl
  | block peer b =>
    simp only [Loading.step, handleBlock] at h
    have S : Serving g (n + l.obj.queue.length) l.link := S
    have S0 : Serving g n l.link := S.mono (by omega)
    split at h
    · cases h; exact same S0 rfl
    · rename_i ha
      have ha : l.active = true := by simpa using ha
      split at h
      · cases h; exact same S0 rfl
      · obtain ⟨rfl, _⟩ := logged_ok h
        by_cases hs : l.obj.state = .waitingForBlocks
        · obtain ⟨s1, s2, _⟩ := applyAll_serving c l.peerID 0 (putOpt l.obj.queue b) (n := n)
            (S.mono (by rw [putOpt_length]; exact Nat.le_refl _))
          have ho := fire_block c l b I.quiet hs
          generalize fire c l (.block b) = r at ho
          have hloop : ∀ {lk x}, applyAll c l.peerID 0 l.link (putOpt l.obj.queue b) = (lk, x) → Grew g n l.link lk := by
            intro lk x hx
            have : (applyAll c l.peerID 0 l.link (putOpt l.obj.queue b)).1 = lk := congrArg Prod.fst hx
            rw [← this]; exact ⟨s1, s2⟩
          cases ho with
          | waiting h => exact same S0 rfl
          | failed h lk e h' => exact hloop h'
          | complete h lk h' => rw [succeed_link c _ (by exact I.quiet) (by exact ha)]; exact hloop h'
        · rw [fire_block_other c l b I.quiet hs]; exact same S0 rfl
  | tick =>
    simp only [Loading.step, tick] at h
    have S : Serving g (n + l.obj.queue.length) l.link := S
    have S0 : Serving g n l.link := S.mono (by omega)
    split at h
    · rename_i ha
      obtain ⟨rfl, _⟩ := logged_ok h
      by_cases hw : Waiting l
      · rw [fire_tick c l c.now I.quiet hw]
        split
        · obtain ⟨s1, s2, _⟩ := applyPrefix_serving c l.peerID 0 l.obj.queue (n := n) S
          have hloop : ∀ {lk x}, applyPrefix c l.peerID 0 l.link l.obj.queue = (lk, x) → Grew g n l.link lk := by
            intro lk x hx
            have : (applyPrefix c l.peerID 0 l.link l.obj.queue).1 = lk := congrArg Prod.fst hx
            rw [← this]; exact ⟨s1, s2⟩
          rcases handleFailure_cases c (enter l .done) ha rfl with ⟨lk, e, h1, h2⟩ | ⟨lk, h1, h2⟩
          · rw [h2]; exact hloop h1
          · rw [h2]; exact hloop h1
        · exact same S0 rfl
      · rw [fire_tick_resting c l c.now I.quiet hw]; exact same S0 rfl
    · cases h; exact same S0 rfl
  | timer =>
    simp only [Loading.step] at h
    exact same S (sync_link h)
  | putBlock b a f1 f2 =>
    have S : Serving g (n + 1) l.link := S
    obtain ⟨_, rfl⟩ := I.others h
    exact ⟨S.put b a f1 f2, put_kept S b a f1 f2⟩
  | putMicro inv a f1 f2 =>
    have S : Serving g (n + 1) l.link := S
    obtain ⟨_, rfl⟩ := I.others h
    exact ⟨S.micro inv a f1 f2, micro_kept S inv a f1 f2⟩
  | registry ev =>
    simp only [Loading.step] at h
    cases h
    exact ⟨S, fun _ h => h⟩

theorem Running.serving {l : Loader} (h : Running lib g n l) : Serving g n l.link := by
  induction h with
  | start hr hs => exact hs
  | step e h hs ih => exact (Grew.step h.reachable.inv ih hs).serving

/-- in a wait for ids all blocks of the queue are stored -/
def Held (l : Loader) : Prop :=
  l.obj.state = .waitingForIDs → ∀ it, it ∈ l.obj.queue → ∀ b, it.received = some b → Stored l.link.db b.id

theorem applyAll_stored (c : Ctx) (peer : Addr) (i : Nat) (q : List Item) {lk lk' : Linkage} (S : Serving g (n + q.length) lk)
    (h : applyAll c peer i lk q = (lk', .ok ())) : ∀ it, it ∈ q → ∀ b, it.received = some b → Stored lk'.db b.id := by
  induction q generalizing i lk with
  | nil => intro it hit; cases hit
  | cons it q ih =>
    have S : Serving g ((n + q.length) + 1) lk := S
    rw [applyAll] at h
    cases hr : it.received with
    | none => rw [hr] at h; cases h
    | some b =>
      rw [hr] at h
      simp only at h
      rcases hp : (PutBlock (c.fates (2 * i)) (c.fates (2 * i + 1)) lk.db b peer).2 with (e | ⟨⟩)
      · rw [hp] at h; cases h
      · rw [hp] at h
        have S1 := S.put b peer (c.fates (2 * i)) (c.fates (2 * i + 1))
        have hst := (Props.C02_accepted_stored S.reachable b peer _ _ hp).1
        have hk := (applyAll_serving c peer (i + 1) q S1).2.1
        simp only at h
        rw [h] at hk
        intro it' hit b' hb'
        rcases List.mem_cons.mp hit with rfl | hit
        · rw [hr] at hb'; cases hb'
          exact hk b.id hst
        · exact ih (i + 1) S1 h it' hit b' hb'

theorem Held.mono {l l' : Loader} (h : Held l) (ho : l'.obj.queue = l.obj.queue)
    (hk : ∀ id, Stored l.link.db id → Stored l'.link.db id) (hs : l'.obj.state = .waitingForIDs → l.obj.state = .waitingForIDs) :
    Held l' := by
  intro hst it hit b hb
  rw [ho] at hit
  exact hk _ (h (hs hst) it hit b hb)

theorem Held.step {l l' : Loader} {e : Event} (I : Inv lib l) (S : Serving g (n + cost l e) l.link) (H : Held l)
    (h : Loading.step lib l e = .ok l') : Held l' := by
  have G := Grew.step I S h
  obtain ⟨c, op⟩ := e
  cases op with
  | ids peer ids =>
    simp only [Loading.step, handleIDs] at h
    split at h
    · cases h; exact H
    · rename_i ha
      have ha : l.active = true := by simpa using ha
      split at h
      · cases h; exact H
      · split at h
        · cases h; exact H
        · obtain ⟨rfl, _⟩ := logged_ok h
          by_cases hs : l.obj.state = .waitingForIDs
          · have hq : ∀ lk, (succeed c { enter l .waitingForBlocks with link := lk }).1.obj.queue = l.obj.queue :=
              fun lk => succeed_queue c { enter l .waitingForBlocks with link := lk } I.quiet ha
            have ho := fire_ids c l ids I.quiet hs
            generalize fire c l (.ids ids) = r at ho G
            cases ho with
            | failed lk e h => intro hst; cases hst.symm.trans (show _ = State.waitingForBlocks from rfl)
            | known lk h => exact H.mono (hq lk) G.kept (fun _ => hs)
            | asked lk req cn h hne hc => intro hst; cases hst.symm.trans (show _ = State.waitingForBlocks from rfl)
            | panic lk req h hne hc => intro hst; cases hst.symm.trans (show _ = State.waitingForBlocks from rfl)
          · rw [fire_ids_other c l ids I.quiet hs]; exact H
  | block peer b =>
    have S : Serving g (n + l.obj.queue.length) l.link := S
    simp only [Loading.step, handleBlock] at h
    split at h
    · cases h; exact H
    · rename_i ha
      have ha : l.active = true := by simpa using ha
      split at h
      · cases h; exact H
      · obtain ⟨rfl, _⟩ := logged_ok h
        by_cases hs : l.obj.state = .waitingForBlocks
        · have ho := fire_block c l b I.quiet hs
          generalize fire c l (.block b) = r at ho G
          cases ho with
          | waiting h => intro hst; have hst : l.obj.state = .waitingForIDs := hst; rw [hs] at hst; cases hst
          | failed h lk e h' => intro hst; have hst : l.obj.state = .waitingForIDs := hst; rw [hs] at hst; cases hst
          | complete h lk h' =>
            have hall := applyAll_stored c l.peerID 0 (putOpt l.obj.queue b)
              (S.mono (by rw [putOpt_length]; exact Nat.le_refl _) : Serving g (n + (putOpt l.obj.queue b).length) l.link) h'
            intro _ it hit b' hb'
            rw [succeed_queue c _ (by exact I.quiet) (by exact ha)] at hit
            rw [succeed_link c _ (by exact I.quiet) (by exact ha)]
            exact hall it hit b' hb'
        · rw [fire_block_other c l b I.quiet hs]; exact H
  | tick =>
    simp only [Loading.step, tick] at h
    split at h
    · rename_i ha
      obtain ⟨rfl, _⟩ := logged_ok h
      by_cases hw : Waiting l
      · rw [fire_tick c l c.now I.quiet hw]
        split
        · rcases handleFailure_cases c (enter l .done) ha rfl with ⟨lk, e, h1, h2⟩ | ⟨lk, h1, h2⟩
          · rw [h2]; intro hst; cases hst.symm.trans (show _ = State.done from rfl)
          · rw [h2]; intro hst; cases hst.symm.trans (show _ = State.done from rfl)
        · exact H
      · rw [fire_tick_resting c l c.now I.quiet hw]; exact H
    · cases h; exact H
  | timer =>
    simp only [Loading.step] at h
    have ho := sync_outcome lib c l
    rw [h] at ho
    generalize hr : (Except.ok l' : Go Loader) = r at ho
    cases ho with
    | busy _ => cases hr; exact H
    | unlisted _ _ _ => cases hr; exact H
    | panic _ _ => cases hr
    | nobody _ _ _ _ => cases hr; exact H
    | start _ ps hc p hp hl hn =>
      obtain ⟨rfl, _⟩ := logged_ok hr.symm
      intro _ it hit
      have : (startNow c (chosen l p)).1.obj.queue = [] := requestIDs_queue c _
      rw [this] at hit; cases hit
    | restart _ ps hc p hp hl hn =>
      obtain ⟨rfl, _⟩ := logged_ok hr.symm
      intro _ it hit
      rw [requestIDsFromLCA_queue] at hit; cases hit
  | putBlock b a f1 f2 => obtain ⟨_, rfl⟩ := I.others h; exact H.mono rfl G.kept id
  | putMicro inv a f1 f2 => obtain ⟨_, rfl⟩ := I.others h; exact H.mono rfl G.kept id
  | registry ev => simp only [Loading.step] at h; cases h; exact H

theorem Running.held {l : Loader} (h : Running lib g n l) : Held l := by
  induction h with
  | start hr hs => intro h; cases h
  | step e h hs ih => exact Held.step h.reachable.inv h.serving ih hs

/-- how many blocks a history may add to the store -/
def spent (lib : Lib) : Loader → List Event → Nat
  | _, [] => 0
  | l, e :: es => cost l e + match step lib l e with
    | .ok l' => spent lib l' es
    | .error _ => 0

theorem Running.exec {l l' : Loader} (es : List Event) (h : Running lib g (n + spent lib l es) l)
    (he : Loading.exec lib l es = .ok l') : Running lib g n l' := by
  induction es generalizing l with
  | nil => cases he; exact h
  | cons e es ih =>
    rw [Loading.exec] at he
    cases hs : Loading.step lib l e with
    | error x => rw [hs] at he; cases he
    | ok l1 =>
      rw [hs] at he
      have : spent lib l (e :: es) = cost l e + spent lib l1 es := by rw [spent, hs]
      rw [this] at h
      exact ih (.step e (by rw [Nat.add_assoc, Nat.add_comm (spent lib l1 es)]; exact h) hs) he

end Verif.Loading
