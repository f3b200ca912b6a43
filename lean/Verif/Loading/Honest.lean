import Verif.Loading.Spec
/-
Vocabulary of property C89: a peer that answers honestly from one history.
-/

set_option autoImplicit false

namespace Verif.Loading

open Verif
open Verif.Chains (Addr BlockID ProtoBlock MicroInv Linkage LeashOf BlockRec getBlockByID)
open Verif.Chains.Spec (Stored blockScore)
open Verif.Peers (Lib second)
open Verif.KV (Fate)

/-- A history: every block names the one before it, the ids differ, and the blocks after the first are ones that
`PutBlock` can store. -/
structure History (ch : List ProtoBlock) : Prop where
  linked : ∀ i a b, ch[i]? = some a → ch[i + 1]? = some b → b.parent = a.id
  ids : (ch.map (·.id)).Nodup
  sound : ∀ i b, ch[i + 1]? = some b → b.generator ≠ none ∧ 0 < b.baseTarget.toNat ∧ b.baseTarget.toNat < 2 ^ 63

/-- the score of the block with index `i`, when the first block has score `s0` -/
def worth (s0 : Nat) (ch : List ProtoBlock) : Nat → Nat
  | 0 => s0
  | i + 1 => worth s0 ch i + (match ch[i + 1]? with
    | some b => blockScore b.baseTarget.toNat
    | none => 0)

/-- the blocks with the indices `i` to `j` -/
def part (ch : List ProtoBlock) (i j : Nat) : List ProtoBlock := (ch.take (j + 1)).drop i

/-- the record fits the block with index `i`: its score, and the block before it -/
def Fits (s0 : Nat) (ch : List ProtoBlock) (i : Nat) (r : BlockRec) : Prop :=
  r.score = worth s0 ch i ∧ ∀ k a, i = k + 1 → ch[k]? = some a → r.parent = a.id.1

/-- the first block of the history is stored, and the records of all blocks of the history that are stored fit -/
structure Faithful (s0 : Nat) (ch : List ProtoBlock) (db : Chains.DB) : Prop where
  first : ∀ a, ch[0]? = some a → Stored db a.id
  fits : ∀ i b r, ch[i]? = some b → getBlockByID db b.id = .ok r → Fits s0 ch i r

/-- a block with the id of a block of the history is that block -/
def Genuine (ch : List ProtoBlock) (x : ProtoBlock) : Prop := ∀ y, y ∈ ch → y.id = x.id → x = y

/-- a micro-block that leads to a block of the history which is not stored is made from a block with the score and the
parent of that block; nothing is made from a block without a parent -/
def GenuineMicro (s0 : Nat) (ch : List ProtoBlock) (db : Chains.DB) (inv : MicroInv) : Prop :=
  ∀ i b r, ch[i]? = some b → inv.totalBlockID = b.id → ¬ Stored db b.id → getBlockByID db inv.reference = .ok r → r.parent ≠ [] →
    Fits s0 ch i r

/-- An answer to a request for the ids that follow `req`.  The first id of `req` that belongs to the history counts; the
answer lists a part of the history from this block or from the next one on, of any length, but it leads beyond this
block if there is anything beyond it. -/
def Follows (ch : List ProtoBlock) (req ids : List BlockID) : Prop :=
  ∃ pre a post i j, req = pre ++ a.id :: post ∧ (∀ x, x ∈ pre → ∀ y, y ∈ ch → y.id ≠ x) ∧ ch[i]? = some a ∧
    i ≤ j ∧ j < ch.length ∧ (i + 1 < ch.length → i < j) ∧
    (ids = (part ch i j).map (·.id) ∨ i < j ∧ ids = (part ch (i + 1) j).map (·.id))

/-- The peer `peer` behaves like a node with the history `ch` and the score `s`; all writes of the loader succeed; no
tick comes too late; other goroutines do not store false blocks of the history.  Other peers may do anything else. -/
structure Honest (peer : Addr) (s s0 : Nat) (ch : List ProtoBlock) (l : Loader) (e : Event) : Prop where
  ids : ∀ ids, e.op = .ids peer ids → l.obj.state = .waitingForIDs → ids ≠ [] →
    (∀ j, e.ctx.fates j = .ok) ∧
      ∀ m req, l.out.getLast? = some m → AsksIDs m.to req m.msg → Follows ch req ids
  block : ∀ b, e.op = .block peer b → (∀ j, e.ctx.fates j = .ok) ∧ ∀ x, b = some x → Genuine ch x
  tick : e.op = .tick → e.ctx.now - l.obj.timestamp ≤ 30 * second
  putBlock : ∀ x a f1 f2, e.op = .putBlock x a f1 f2 → Genuine ch x
  putMicro : ∀ inv a f1 f2, e.op = .putMicro inv a f1 f2 → GenuineMicro s0 ch l.link.db inv
  score : ∀ ev f s', e.op = .registry ev → ev.op = .updateScore f peer s' → s' = s

/-- A synchronisation with `peer` that has just begun: the ids were requested, no difference is remembered, the peer
announced the score of its history. -/
structure Begun (peer : Addr) (s s0 : Nat) (ch : List ProtoBlock) (l : Loader) : Prop where
  active : l.active = true
  state : l.obj.state = .waitingForIDs
  who : l.peerID = peer
  diff : l.prevDiff = none
  asked : ∃ m req, l.out.getLast? = some m ∧ AsksIDs m.to req m.msg ∧ ∀ x, x ∈ req → Stored l.link.db x
  announced : Announced l.reg peer s
  score : s = worth s0 ch (ch.length - 1)
  faithful : Faithful s0 ch l.link.db

/-- A synchronisation with `peer` that has just begun, whatever difference is remembered from before. -/
structure Starts (peer : Addr) (s s0 : Nat) (ch : List ProtoBlock) (l : Loader) : Prop where
  active : l.active = true
  state : l.obj.state = .waitingForIDs
  who : l.peerID = peer
  asked : ∃ m req, l.out.getLast? = some m ∧ AsksIDs m.to req m.msg ∧ ∀ x, x ∈ req → Stored l.link.db x
  announced : Announced l.reg peer s
  score : s = worth s0 ch (ch.length - 1)
  faithful : Faithful s0 ch l.link.db

theorem Begun.starts {peer : Addr} {s s0 : Nat} {ch : List ProtoBlock} {l : Loader} (h : Begun peer s s0 ch l) : Starts peer s s0 ch l :=
  ⟨h.active, h.state, h.who, h.asked, h.announced, h.score, h.faithful⟩

/-- The states of a synchronisation with an honest peer, from its beginning in `l0` until it ends; `n` is the room in the
store. -/
inductive Session (lib : Lib) (g : ProtoBlock) (peer : Addr) (s s0 : Nat) (ch : List ProtoBlock) (l0 : Loader) : Nat → Loader → Prop where
  | start {n : Nat} (h : Running lib g n l0) (hb : Begun peer s s0 ch l0) : Session lib g peer s s0 ch l0 n l0
  | step {n : Nat} {l l' : Loader} (e : Event) (h : Session lib g peer s s0 ch l0 (n + cost l e) l) (ha : l.active = true)
      (hh : Honest peer s s0 ch l e) (hs : step lib l e = .ok l') : Session lib g peer s s0 ch l0 n l'

/-- the message asks for ids -/
def asksIDs : Msg → Bool
  | .getSignatures _ => true
  | .getBlockIds _ => true
  | .getBlock _ => false

/-- the request names a block of the history -/
def Shares (ch : List ProtoBlock) (l : Loader) : Prop :=
  ∃ m req b, l.out.getLast? = some m ∧ AsksIDs m.to req m.msg ∧ b ∈ ch ∧ b.id ∈ req

/-- a sequence of calls on the store that bring no false blocks of the history -/
def GenuineOps (s0 : Nat) (ch : List ProtoBlock) : Linkage → List Chains.Spec.Op → Prop
  | _, [] => True
  | lk, o :: ops => (match o with
      | .putBlock x _ _ _ => Genuine ch x
      | .putMicro inv _ _ _ => GenuineMicro s0 ch lk.db inv
      | _ => True) ∧ GenuineOps s0 ch (Chains.Spec.step lk o).1 ops

/-- how many of the messages ask for ids -/
def requests (out : List Sent) : Nat := (out.filter (fun m => asksIDs m.msg)).length

end Verif.Loading
