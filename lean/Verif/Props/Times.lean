import Verif.Services.TimesLemmas
import Verif.Props.Netip
/-
Property C124: the times in the reports.
-/

set_option autoImplicit false

namespace Verif.Props

open Verif
open Verif.Chains (Addr Env Fork)
open Verif.Peers (Peer Registry Lib)
open Verif.Services
open Verif.Services.Json (Texts J)
open Verif.Services.Netip (v6Text ascii_valid)

variable {t : Texts} {w : Web} {d : Dates} {zone : Int → Int}

/-- The text of a time, in any time zone whose offset is a whole number of minutes, is a date and time of RFC 3339 that stands for this very
millisecond, whenever there is a text at all. -/
theorem C124_read (hz : ∀ s, zone s % 60 = 0) :
    (∀ ms, Times.milliOK zone ms = true → Rfc3339.read (Times.milli zone ms) = some ms) ∧
    ∀ s, Times.secOK zone s = true → Rfc3339.read (Times.sec zone s) = some (s * 1000) := by
  have e : ∀ o : Int, o % 60 = 0 → 60 * o.tdiv 60 = o := by
    intro o h
    rw [Int.tdiv_eq_ediv_of_dvd (Int.dvd_of_emod_eq_zero h)]; omega
  constructor
  · intro ms h
    unfold Times.milli
    rw [Times.read_text h (Nat.mod_lt _ (by decide)), e _ (hz _)]
    congr 1; omega
  · intro s h
    unfold Times.sec
    rw [Times.read_text h (by decide), e _ (hz _)]
    congr 1; omega

/-- In the other time zones the text is wrong by the seconds of the offset, which is less than a minute. -/
theorem C124_seconds (ms : Nat) (h : Times.milliOK zone ms = true) :
    ∃ x : Int, Rfc3339.read (Times.milli zone ms) = some x ∧ x - ms = (zone ((ms : Int) / 1000)).tmod 60 * 1000 ∧ (x - ms).natAbs < 60000 := by
  refine ⟨_, Times.read_text h (Nat.mod_lt _ (by decide)), ?_, ?_⟩
  all_goals
    have h1 := Int.mul_tdiv_add_tmod (zone ((ms : Int) / 1000)) 60
    have h2 : ((zone ((ms : Int) / 1000)).tmod 60).natAbs < 60 := by
      rw [Int.natAbs_tmod]
      exact Nat.mod_lt _ (by decide)
    generalize zone ((ms : Int) / 1000) = o at *
    generalize o.tdiv 60 = a at *
    generalize o.tmod 60 = b at *
    omega

/-- Liberia until 1972: the first second of 1970 is shown half a minute too early.  Everywhere else and later the text is exact. -/
example : Times.milliOK (fun _ => -2670) 0 = true ∧ Times.milli (fun _ => -2670) 0 = Json.ascii "1969-12-31T23:15:30-00:44" ∧
    Rfc3339.read (Times.milli (fun _ => -2670) 0) = some (-30000) := by decide +kernel

example : Times.milli (fun _ => 0) 1731738900123 = Json.ascii "2024-11-16T06:35:00.123Z" ∧
    Times.milli (fun _ => 20700) 951782400120 = Json.ascii "2000-02-29T05:45:00.12+05:45" ∧
    Times.sec (fun _ => -12600) 4107542399 = Json.ascii "2100-02-28T20:29:59-03:30" ∧
    Times.sec (fun _ => 0) Peers.zeroTime = Json.never := by decide +kernel

/-- A time has a text exactly if it lies in the years 0 to 9999 of the local time. -/
theorem C124_limits (hz : ∀ s, (zone s).natAbs < 86400) :
    (∀ ms : Nat, Times.milliOK zone ms = true ↔ (ms : Int) / 1000 + zone ((ms : Int) / 1000) < 253402300800) ∧
    ∀ s, Times.secOK zone s = true ↔ -62167219200 ≤ s + zone s ∧ s + zone s < 253402300800 := by
  constructor
  · intro ms
    unfold Times.milliOK
    rw [Times.strict_iff]
    have := hz ((ms : Int) / 1000)
    omega
  · intro s
    unfold Times.secOK
    rw [Times.strict_iff]
    have := hz s
    omega

/-- The library as it is: addresses as in net/netip, times as in package time with the given time zone.  It satisfies what the properties of
the reports ask of a library, where the zero time is in UTC (it is the value of a field that is not set). -/
def stdWeb (w : Web) (zone : Int → Int) (hz : ∀ s, (zone s).natAbs < 86400) : Web where
  parse := Netip.parseAddr
  parse_valid := fun _ _ h => Netip.parse_ne h
  space := w.space
  encodes := Times.milliOK zone
  encodes_near ms h := by
    rw [(C124_limits hz).1]
    have := hz ((ms : Int) / 1000)
    omega
  encodes_far ms h := by
    rw [Bool.eq_false_iff, ne_eq, (C124_limits hz).1]
    have := hz ((ms : Int) / 1000)
    omega
  maxCap := w.maxCap
  room := w.room

/-- the times of the next attempts -/
def stdDates (zone : Int → Int) (hz : ∀ s, (zone s).natAbs < 86400) : Dates where
  encodes := Times.secOK zone
  near s h1 h2 := by
    rw [(C124_limits hz).2]
    have := hz s
    have e : Peers.zeroTime = -62135596800 := by decide
    omega
  far s h := by
    rw [Bool.eq_false_iff, ne_eq, (C124_limits hz).2]
    have := hz s
    omega

/-- the texts -/
def stdTexts (zone : Int → Int) (version : Peers.Version → J) : Texts := ⟨v6Text, Times.milli zone, Times.sec zone, version⟩

/-- With them all laws that the properties about the text of the reports take as hypotheses are met, but for the one about versions. -/
theorem C124_lawful (w : Web) (hz : ∀ s, (zone s).natAbs < 86400) (hm : ∀ s, zone s % 60 = 0) {version : Peers.Version → J}
    (hv : ∀ v, (version v).clean) : (stdTexts zone version).Lawful (stdWeb w zone hz) (stdDates zone hz) := by
  refine C123_lawful rfl ?_ ?_ ?_ ?_ hv
  · intro m n h1 h2 h
    have e1 := (C124_read hm).1 m h1
    have h : Times.milli zone m = Times.milli zone n := h
    rw [h, (C124_read hm).1 n h2] at e1
    exact (Int.ofNat.inj (Option.some.inj e1)).symm
  · exact fun m => ascii_valid (Times.text_ascii _ _ (Nat.mod_lt _ (by decide)))
  · intro m n h1 h2 h
    have e1 := (C124_read hm).2 m h1
    have h : Times.sec zone m = Times.sec zone n := h
    rw [h, (C124_read hm).2 n h2] at e1
    have := Option.some.inj e1
    omega
  · exact fun m => ascii_valid (Times.text_ascii _ _ (by decide))

example : ∃ zone : Int → Int, (∀ s, (zone s).natAbs < 86400) ∧ (∀ s, zone s % 60 = 0) ∧ zone 0 ≠ zone 1711846800 :=
  ⟨fun s => if s < 1711846800 then 3600 else 7200, fun s => by dsimp only; split <;> decide, fun s => by dsimp only; split <;> decide, by decide⟩

/-- In every report about forks, heads and leashes the member for the time is a text that stands for the time of the block, and in every
report about peers for the time of the next attempt. -/
theorem C124_reports (w0 : Web) (hz : ∀ s, (zone s).natAbs < 86400) (hm : ∀ s, zone s % 60 = 0) (hw : w = stdWeb w0 zone hz)
    (hd : d = stdDates zone hz) {version : Peers.Version → J} (ht : t = stdTexts zone version)
    {lib : Lib} {env env2 : Env} {reg : Registry} {db db2 : Chains.DB} {dbs : Nat → Chains.DB} {q : List Char} :
    (∀ fs, w.forks env db q = .ok fs ∨ w.activeForks lib env env2 reg db q = .ok fs → ∀ f, f ∈ fs →
      ∃ s, (t.fork f).get "head_timestamp" = some (.str s) ∧ Rfc3339.read s = some f.headTimestamp.toNat) ∧
    (∀ f, w.fork env db db2 q = .ok f → f.peers ≠ [] →
      ∃ s, (t.fork f).get "head_timestamp" = some (.str s) ∧ Rfc3339.read s = some f.headTimestamp.toNat) ∧
    (∀ hs, w.heads db dbs = .ok hs → ∀ h, h ∈ hs →
      ∃ s, (t.head h).get "timestamp" = some (.str s) ∧ Rfc3339.read s = some h.timestamp.toNat) ∧
    (∀ ls, w.leashes env db dbs = .ok ls → ∀ l, l ∈ ls →
      ∃ s, (t.leash l).get "timestamp" = some (.str s) ∧ Rfc3339.read s = some l.timestamp.toNat) ∧
    (Peers.Reachable lib reg → ∀ ps, d.peers lib env reg = .ok ps ∨ d.friendly lib env reg = .ok ps ∨ d.connections lib env reg = .ok ps →
      ∀ p, p ∈ ps → ∃ s, (t.peer p).get "next_attempt" = some (.str s) ∧ Rfc3339.read s = some (p.nextAttempt * 1000)) := by
  subst hw hd ht
  have hmilli : ∀ ms : Nat, (stdWeb w0 zone hz).encodes ms = true → Rfc3339.read ((stdTexts zone version).milli ms) = some (ms : Int) :=
    fun ms h => (C124_read hm).1 ms h
  refine ⟨?_, ?_, ?_, ?_, ?_⟩
  · intro fs h f hf
    have hp : f.peers ≠ [] := by
      rcases h with h | h
      · exact C122_forks_have_peers (Or.inl ⟨_, _, _, h⟩) f hf
      · exact C122_forks_have_peers (Or.inr ⟨_, _, _, _, _, _, h⟩) f hf
    have ok : (stdWeb w0 zone hz).encodes f.headTimestamp.toNat = true := by
      rcases h with h | h
      · exact (Json.Web.forks_OK h f hf).1
      · exact (Json.Web.activeForks_OK h f hf).1
    exact ⟨_, (C122_fork_fields _ f hp).2.2.1, hmilli _ ok⟩
  · intro f h hp
    exact ⟨_, (C122_fork_fields _ f hp).2.2.1, hmilli _ (Json.Web.fork_OK h).1⟩
  · intro hs h x hx
    exact ⟨_, rfl, hmilli _ (Json.Web.heads_OK h x hx)⟩
  · intro ls h x hx
    exact ⟨_, rfl, hmilli _ (Json.Web.leashes_OK h x hx).1⟩
  · intro R ps h p hp
    have ok : (stdDates zone hz).encodes p.nextAttempt = true := by
      rcases h with h | h | h
      · exact (Json.Dates.peers_OK R h p hp).2.2.1
      · exact (Json.Dates.friendly_OK R h p hp).2.2.1
      · exact (Json.Dates.connections_OK R h p hp).2.2.1
    exact ⟨_, rfl, (C124_read hm).2 _ ok⟩

/-- The time of a fork without peers (C122_missed) stands for the first second of the year 1. -/
theorem C124_never : Rfc3339.read Json.never = some (-62135596800000) := by decide +kernel

/-- the times in the report on leashes of the example -/
example : (match (stdWeb exWeb (fun _ => 0) (fun _ => by decide)).leashes Chains.Ex.env Chains.Ex.l1.db (fun _ => Chains.Ex.l1.db) with
      | .ok ls => ls.map (fun l => (Times.milli (fun _ => 0) l.timestamp.toNat, l.timestamp.toNat))
      | _ => []) =
    [(Json.ascii "1970-01-01T00:00:01.002Z", 1002), (Json.ascii "1970-01-01T00:00:01.003Z", 1003)] := by decide +kernel

end Verif.Props
