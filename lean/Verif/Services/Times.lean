import Verif.Services.Json
/-
Model of `time.Time.MarshalJSON` of Go 1.22, which writes the times in the reports: the timestamps of blocks (`time.UnixMilli`,
api/api.go:223, 255, chains/linkage.go:376, 514) and the time of the next attempt (peers/peer.go:29).
-/

set_option autoImplicit false

namespace Verif.Services.Times

open Verif

/-- The first part of `absDate`: from the number of days to the number of whole years and the day in the year, both counted from zero.
The code counts from the year -292277022399, the model from the year -399; both are years after a year that is divisible by 400, and no
time in a report is earlier. -/
def yearOf (d : Nat) : Nat × Nat :=
  let n400 := d / 146097
  let d1 := d - 146097 * n400
  let n100 := d1 / 36524 - d1 / 36524 / 4
  let d2 := d1 - 36524 * n100
  let n4 := d2 / 1461
  let d3 := d2 - 1461 * n4
  let n1 := d3 / 365 - d3 / 365 / 4
  (400 * n400 + 100 * n100 + 4 * n4 + n1, d3 - 365 * n1)

/-- `isLeap`, of a year counted as in `yearOf` -/
def leapIndex (y : Nat) : Bool := (y + 1) % 4 == 0 && ((y + 1) % 100 != 0 || (y + 1) % 400 == 0)

/-- `daysBefore` -/
def daysBefore : List Nat := [0, 31, 59, 90, 120, 151, 181, 212, 243, 273, 304, 334, 365]

/-- the second part of `absDate`: month and day in the month from the day in the year -/
def monthOf (leap : Bool) (yday : Nat) : Nat × Nat :=
  if leap && yday == 59 then (2, 29)
  else
    let day := if leap && decide (yday > 59) then yday - 1 else yday
    let month := day / 31
    let stop := daysBefore.getD (month + 1) 0
    if day ≥ stop then (month + 2, day - stop + 1) else (month + 1, day - daysBefore.getD month 0 + 1)

/-- `appendInt` with width 2 -/
def two (n : Nat) : Bytes := if n < 100 then [UInt8.ofNat (48 + n / 10), UInt8.ofNat (48 + n % 10)] else Json.digits n

/-- `appendInt` with width 4 -/
def four (n : Nat) : Bytes :=
  if n < 10000 then
    [UInt8.ofNat (48 + n / 1000), UInt8.ofNat (48 + n / 100 % 10), UInt8.ofNat (48 + n / 10 % 10), UInt8.ofNat (48 + n % 10)]
  else Json.digits n

/-- `appendNano` without trailing zeros, for whole milliseconds: the six last of the nine digits are zeros -/
def fraction (ms : Nat) : Bytes :=
  if ms = 0 then []
  else 46 :: (([UInt8.ofNat (48 + ms / 100), UInt8.ofNat (48 + ms / 10 % 10), UInt8.ofNat (48 + ms % 10)].reverse.dropWhile (· = 48)).reverse)

/-- the days from the first day of the year -399 to the Unix epoch -/
def epoch : Nat := 865259

/-- `locabs`: the seconds since the beginning of the year -399, in local time, for a time in seconds since the Unix epoch -/
def abs (offset t : Int) : Nat := (t + offset + epoch * 86400).toNat

/-- the year of a local time -/
def year (offset t : Int) : Int := (yearOf (abs offset t / 86400)).1 - 399

/-- the offset as `Z07:00` -/
def zoneText (offset : Int) : Bytes :=
  if offset = 0 then [90]
  else if offset.tdiv 60 < 0 then 45 :: (two ((offset.tdiv 60).natAbs / 60) ++ 58 :: two ((offset.tdiv 60).natAbs % 60))
  else 43 :: (two ((offset.tdiv 60).natAbs / 60) ++ 58 :: two ((offset.tdiv 60).natAbs % 60))

/-- `appendFormatRFC3339`, of a time in seconds since the Unix epoch and milliseconds.  The text for years before 0 is not that of the code;
there `appendStrictRFC3339` fails. -/
def text (offset t : Int) (ms : Nat) : Bytes :=
  let y := yearOf (abs offset t / 86400)
  let md := monthOf (leapIndex y.1) y.2
  let s := abs offset t % 86400
  four (y.1 - 399) ++ 45 :: (two md.1 ++ 45 :: (two md.2 ++ 84 :: (two (s / 3600) ++ 58 :: (two (s % 3600 / 60) ++ 58 :: (two (s % 60) ++
    (fraction ms ++ zoneText offset))))))

/-- `appendStrictRFC3339` gives no error: the year has four digits, and the hours of the offset are less than 24 -/
def strict (offset t : Int) : Bool := decide (0 ≤ year offset t ∧ year offset t ≤ 9999 ∧ offset.natAbs < 86400)

/-- `time.UnixMilli(ms).MarshalJSON()` without the quotes; `zone` gives the offset of the local time zone at a time in seconds -/
def milli (zone : Int → Int) (ms : Nat) : Bytes := text (zone ((ms : Int) / 1000)) ((ms : Int) / 1000) (ms % 1000)

/-- `MarshalJSON` of a time in whole seconds -/
def sec (zone : Int → Int) (t : Int) : Bytes := text (zone t) t 0

/-- whether `time.UnixMilli(ms)` can be encoded -/
def milliOK (zone : Int → Int) (ms : Nat) : Bool := strict (zone ((ms : Int) / 1000)) ((ms : Int) / 1000)

/-- whether a time in seconds can be encoded -/
def secOK (zone : Int → Int) (t : Int) : Bool := strict (zone t) t

end Verif.Services.Times
