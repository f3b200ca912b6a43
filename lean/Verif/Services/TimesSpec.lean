import Verif.Bytes
/-
What the texts of times mean, from RFC 3339 and the Gregorian calendar: a reader of texts, stated without the model of the writer.
-/

set_option autoImplicit false

namespace Verif.Services.Rfc3339

open Verif

/-- the leap years, counted from the year 0 of ISO 8601; RFC 3339 appendix C -/
def leap (y : Nat) : Bool := y % 4 == 0 && (y % 100 != 0 || y % 400 == 0)

/-- the days of the months, RFC 3339 section 5.7 -/
def monthDays (l : Bool) : List Nat := [31, if l then 29 else 28, 31, 30, 31, 30, 31, 31, 30, 31, 30, 31]

/-- the days from the first day of the year 0 to the first day of a year -/
def yearDays : Nat → Nat
  | 0 => 0
  | y + 1 => yearDays y + (if leap y then 366 else 365)

/-- the days from the first day of the year 0 to a date -/
def dateDays (y m d : Nat) : Nat := yearDays y + ((monthDays (leap y)).take (m - 1)).foldl (· + ·) 0 + (d - 1)

/-- a date of the calendar -/
def isDate (y m d : Nat) : Bool := decide (1 ≤ m ∧ m ≤ 12 ∧ 1 ≤ d ∧ d ≤ (monthDays (leap y)).getD (m - 1) 0)

/-- a digit -/
def digit (b : UInt8) : Option Nat := if 48 ≤ b ∧ b ≤ 57 then some (b.toNat - 48) else none

/-- a number of so many digits -/
def number : Nat → Nat → Bytes → Option (Nat × Bytes)
  | 0, acc, s => some (acc, s)
  | n + 1, acc, b :: s => (digit b).bind (fun d => number n (acc * 10 + d) s)
  | _ + 1, _, [] => none

/-- a fixed character -/
def char (c : UInt8) : Bytes → Option Bytes
  | [] => none
  | b :: s => if b = c then some s else none

/-- the digits at the beginning -/
def digits : Bytes → List Nat × Bytes
  | [] => ([], [])
  | b :: s =>
    match digit b with
    | none => ([], b :: s)
    | some d => (d :: (digits s).1, (digits s).2)

/-- `time-secfrac`, possibly absent, as a number of milliseconds; only fractions of at most three digits are read -/
def fraction (s : Bytes) : Option (Nat × Bytes) :=
  match char 46 s with
  | none => some (0, s)
  | some s =>
    match digits s with
    | ([a], r) => some (100 * a, r)
    | ([a, b], r) => some (100 * a + 10 * b, r)
    | ([a, b, c], r) => some (100 * a + 10 * b + c, r)
    | _ => none

/-- `time-offset`, in minutes -/
def offset (s : Bytes) : Option (Int × Bytes) :=
  match char 90 s with
  | some s => some (0, s)
  | none =>
    let rest (sign : Int) (s : Bytes) : Option (Int × Bytes) :=
      (number 2 0 s).bind (fun h => (char 58 h.2).bind (fun s => (number 2 0 s).bind (fun m =>
        if h.1 < 24 ∧ m.1 < 60 then some (sign * ((h.1 * 60 + m.1 : Nat) : Int), m.2) else none)))
    match char 43 s with
    | some s => rest 1 s
    | none => (char 45 s).bind (rest (-1))

/-- the milliseconds since the Unix epoch that a `date-time` of RFC 3339 section 5.6 stands for; nothing may follow it -/
def read (s : Bytes) : Option Int :=
  (number 4 0 s).bind fun y => (char 45 y.2).bind fun s => (number 2 0 s).bind fun mo => (char 45 mo.2).bind fun s =>
  (number 2 0 s).bind fun d => (char 84 d.2).bind fun s => (number 2 0 s).bind fun h => (char 58 h.2).bind fun s =>
  (number 2 0 s).bind fun mi => (char 58 mi.2).bind fun s => (number 2 0 s).bind fun se => (fraction se.2).bind fun f =>
  (offset f.2).bind fun z =>
    if isDate y.1 mo.1 d.1 = true ∧ h.1 < 24 ∧ mi.1 < 60 ∧ se.1 < 60 ∧ z.2 = [] then
      some ((((dateDays y.1 mo.1 d.1 : Int) - 719528) * 86400 + ((h.1 * 60 + mi.1) * 60 + se.1 : Nat) - z.1 * 60) * 1000 + f.1)
    else none

end Verif.Services.Rfc3339
