import Verif.Services.Json
/-
A reader of JSON, written from RFC 8259 and not from the encoder.  It accepts white space and every escape; of the numbers it accepts
the integers without exponent, and it refuses escaped surrogates.
-/

set_option autoImplicit false

namespace Verif.Services.Json

open Verif

/-- white space, RFC 8259 section 2 -/
def skip (s : Bytes) : Bytes := s.dropWhile (fun b => b = 32 || b = 9 || b = 10 || b = 13)

/-- the rest after the text of a literal name -/
def lit : Bytes → Bytes → Option Bytes
  | [], s => some s
  | _ :: _, [] => none
  | a :: as, b :: bs => if a = b then lit as bs else none

/-- a hexadecimal digit -/
def unhex (b : UInt8) : Option Nat :=
  if 48 ≤ b ∧ b ≤ 57 then some (b.toNat - 48)
  else if 97 ≤ b ∧ b ≤ 102 then some (b.toNat - 87)
  else if 65 ≤ b ∧ b ≤ 70 then some (b.toNat - 55)
  else none

/-- the UTF-8 form of a code point up to U+FFFF; none for surrogates -/
def utf8 (n : Nat) : Option Bytes :=
  if n < 0x80 then some [UInt8.ofNat n]
  else if n < 0x800 then some [UInt8.ofNat (0xC0 + n / 64), UInt8.ofNat (0x80 + n % 64)]
  else if 0xD800 ≤ n ∧ n < 0xE000 then none
  else some [UInt8.ofNat (0xE0 + n / 4096), UInt8.ofNat (0x80 + n / 64 % 64), UInt8.ofNat (0x80 + n % 64)]

/-- the character of a short escape -/
def short (b : UInt8) : Option UInt8 :=
  if b = 34 then some 34
  else if b = 92 then some 92
  else if b = 47 then some 47
  else if b = 98 then some 8
  else if b = 102 then some 12
  else if b = 110 then some 10
  else if b = 114 then some 13
  else if b = 116 then some 9
  else none

/-- a string after its first quote, RFC 8259 section 7: the string and the rest -/
def readStr : Bytes → Option (Bytes × Bytes)
  | [] => none
  | b :: s =>
    if b = 34 then some ([], s)
    else if b = 92 then
      match s with
      | [] => none
      | c :: s1 =>
        if c = 117 then
          match s1 with
          | h1 :: h2 :: h3 :: h4 :: s2 => do
            let n1 ← unhex h1
            let n2 ← unhex h2
            let n3 ← unhex h3
            let n4 ← unhex h4
            let u ← utf8 (n1 * 4096 + n2 * 256 + n3 * 16 + n4)
            let (t, r) ← readStr s2
            some (u ++ t, r)
          | _ => none
        else do
          let e ← short c
          let (t, r) ← readStr s1
          some (e :: t, r)
    else if b < 32 then none
    else do
      let (t, r) ← readStr s
      some (b :: t, r)

/-- a decimal digit -/
def isDig (b : UInt8) : Bool := 48 ≤ b && b ≤ 57

/-- the value of decimal digits -/
def decVal (s : Bytes) : Nat := s.foldl (fun n b => n * 10 + (b.toNat - 48)) 0

/-- a number without sign, RFC 8259 section 6: no leading zeros; a fraction or an exponent is not accepted -/
def readNat (s : Bytes) : Option (Nat × Bytes) :=
  let ds := s.takeWhile isDig
  let r := s.dropWhile isDig
  if ds = [] ∨ (ds.head? = some 48 ∧ ds ≠ [48]) ∨ (∃ b, r.head? = some b ∧ (b = 46 ∨ b = 101 ∨ b = 69)) then none
  else some (decVal ds, r)

/-- a number -/
def readNum : Bytes → Option (Int × Bytes)
  | [] => none
  | b :: s => if b = 45 then (readNat s).map (fun x => (-(x.1 : Int), x.2)) else (readNat (b :: s)).map (fun x => ((x.1 : Int), x.2))

mutual
/-- a value and the rest; the first argument bounds the depth of the recursion -/
def readV : Nat → Bytes → Option (J × Bytes)
  | 0, _ => none
  | n + 1, s =>
    match skip s with
    | [] => none
    | b :: s1 =>
      if b = 110 then (lit [117, 108, 108] s1).map (fun r => (.null, r))
      else if b = 116 then (lit [114, 117, 101] s1).map (fun r => (.bool true, r))
      else if b = 102 then (lit [97, 108, 115, 101] s1).map (fun r => (.bool false, r))
      else if b = 34 then (readStr s1).map (fun x => (.str x.1, x.2))
      else if b = 91 then
        match skip s1 with
        | [] => none
        | c :: r => if c = 93 then some (.arr .nil, r) else (readElems n s1).map (fun x => (.arr x.1, x.2))
      else if b = 123 then
        match skip s1 with
        | [] => none
        | c :: r => if c = 125 then some (.obj .nil, r) else (readMembers n s1).map (fun x => (.obj x.1, x.2))
      else (readNum (b :: s1)).map (fun x => (.num x.1, x.2))
/-- the elements of an array, up to its end -/
def readElems : Nat → Bytes → Option (Js × Bytes)
  | 0, _ => none
  | n + 1, s => do
    let (j, r) ← readV n s
    match skip r with
    | [] => none
    | b :: r1 =>
      if b = 93 then some (.cons j .nil, r1)
      else if b = 44 then do
        let (l, r2) ← readElems n r1
        some (.cons j l, r2)
      else none
/-- the members of an object, up to its end -/
def readMembers : Nat → Bytes → Option (Ms × Bytes)
  | 0, _ => none
  | n + 1, s =>
    match skip s with
    | [] => none
    | q :: s1 =>
      if q = 34 then do
        let (k, r) ← readStr s1
        match skip r with
        | [] => none
        | c :: r1 =>
          if c = 58 then do
            let (j, r2) ← readV n r1
            match skip r2 with
            | [] => none
            | b :: r3 =>
              if b = 125 then some (.cons k j .nil, r3)
              else if b = 44 then do
                let (m, r4) ← readMembers n r3
                some (.cons k j m, r4)
              else none
          else none
      else none
end

/-- what a text of JSON says; the whole text is one value -/
def read (s : Bytes) : Option J :=
  match readV (s.length + 1) s with
  | some (j, r) => if skip r = [] then some j else none
  | none => none

/-- the value of the member with a name -/
def Ms.find (k : Bytes) : Ms → Option J
  | .nil => none
  | .cons k' j m => if k' = k then some j else m.find k

/-- the names of the members -/
def Ms.names : Ms → List Bytes
  | .nil => []
  | .cons k _ m => k :: m.names

/-- the member of an object with a name -/
def J.get (j : J) (k : String) : Option J :=
  match j with
  | .obj m => m.find (ascii k)
  | _ => none

/-- the elements of an array -/
def Js.toList : Js → List J
  | .nil => []
  | .cons j l => j :: l.toList

/-- the elements of a value that is an array -/
def J.elems : J → Option (List J)
  | .arr l => some l.toList
  | _ => none

mutual
/-- every string in the value is valid UTF-8, and no object has two members with the same name -/
def J.clean : J → Prop
  | .str s => Peers.validUTF8 s = true
  | .arr l => l.clean
  | .obj m => m.clean ∧ m.names.Nodup
  | _ => True
/-- every element is -/
def Js.clean : Js → Prop
  | .nil => True
  | .cons j l => j.clean ∧ l.clean
/-- every name and every value is -/
def Ms.clean : Ms → Prop
  | .nil => True
  | .cons k j m => Peers.validUTF8 k = true ∧ j.clean ∧ m.clean
end

end Verif.Services.Json
