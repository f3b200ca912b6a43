import Verif.Services.Routes
import Verif.Services.Json
/-
Model of the text of IP addresses in `net/netip` of Go 1.22: `ParseAddr`, which the handlers call on the addresses in requests
(api/api.go:326, 355, 409), and `Addr.String` and `Addr.MarshalText`, which make the texts in the reports (api/api.go:242 and
encoding/json).  Texts of requests are lists of bytes, written as characters below 256, as in Services/Routes.lean.
-/

set_option autoImplicit false

namespace Verif.Services.Netip

open Verif
open Verif.Chains (Addr BytesN)
open Verif.Services.Json (digits dotted hex)

/-! ### reading -/

/-- a decimal digit -/
def undec (c : Char) : Option Nat := if '0' ≤ c ∧ c ≤ '9' then some (c.toNat - 48) else none

/-- The loop of `parseIPv4Fields`: the fields that are complete, the value and the number of digits of the current one.  The test
`i == 0 || s[i-1] == '.'` of the code is that there is no digit yet. -/
def v4Loop (done : Bytes) (val dig : Nat) : List Char → Option Bytes
  | [] => if done.length < 3 then none else some (done ++ [UInt8.ofNat val])
  | c :: s =>
    match undec c with
    | some d =>
      if dig = 1 ∧ val = 0 then none
      else if val * 10 + d > 255 then none
      else v4Loop done (val * 10 + d) (dig + 1) s
    | none =>
      if c = '.' then
        if dig = 0 ∨ s = [] then none
        else if done.length = 3 then none
        else v4Loop (done ++ [UInt8.ofNat val]) 0 0 s
      else none

/-- an IPv4 address of four fields -/
def addr4 (b : Bytes) : Option Addr := if h : b.length = 4 then some (.v4 ⟨b, h⟩) else none

/-- `parseIPv4` -/
def parse4 (s : List Char) : Option Addr := (v4Loop [] 0 0 s).bind addr4

/-- The inner loop of `parseIPv6`: the value of a group, the number of its digits and what follows.  Fails at the fifth digit. -/
def hexGroup (off acc : Nat) : List Char → Option (Nat × Nat × List Char)
  | [] => some (acc, off, [])
  | c :: s =>
    match unhex c with
    | none => some (acc, off, c :: s)
    | some d =>
      if off > 3 then none
      else if acc * 16 + d > 65535 then none
      else hexGroup (off + 1) (acc * 16 + d) s

/-- The loop of `parseIPv6`, at most eight rounds: the bytes so far, the position of the ellipsis, and the rest of the text -/
def v6Loop : Nat → Bytes → Option Nat → List Char → Option (Bytes × Option Nat × List Char)
  | 0, ip, e, s => some (ip, e, s)
  | n + 1, ip, e, s =>
    match hexGroup 0 0 s with
    | none => none
    | some (acc, off, rest) =>
      if off = 0 then none
      else if rest.head? = some '.' then
        if e = none ∧ ip.length ≠ 12 then none
        else if ip.length + 4 > 16 then none
        else (v4Loop [] 0 0 s).map (fun f => (ip ++ f, e, []))
      else
        match rest with
        | [] => some (ip ++ [UInt8.ofNat (acc / 256), UInt8.ofNat (acc % 256)], e, [])
        | c :: s1 =>
          if c ≠ ':' then none
          else match s1 with
            | [] => none
            | d :: s2 =>
              if d = ':' then
                if e ≠ none then none
                else if s2 = [] then
                  some (ip ++ [UInt8.ofNat (acc / 256), UInt8.ofNat (acc % 256)], some (ip.length + 2), [])
                else v6Loop n (ip ++ [UInt8.ofNat (acc / 256), UInt8.ofNat (acc % 256)]) (some (ip.length + 2)) s2
              else v6Loop n (ip ++ [UInt8.ofNat (acc / 256), UInt8.ofNat (acc % 256)]) e (d :: s2)

/-- the end of `parseIPv6`: the whole text must have been used, and an ellipsis stands for at least one group -/
def expand (ip : Bytes) (e : Option Nat) (s : List Char) : Option Bytes :=
  if s ≠ [] then none
  else if ip.length < 16 then
    match e with
    | none => none
    | some k => some (ip.take k ++ (List.replicate (16 - ip.length) 0 ++ ip.drop k))
  else if e ≠ none then none
  else some ip

/-- an IPv6 address of sixteen bytes -/
def addr6 (zone : List Char) (b : Bytes) : Option Addr := if h : b.length = 16 then some (.v6 ⟨b, h⟩ (String.ofList zone)) else none

/-- `parseIPv6` after the zone has been split off -/
def parse6In (zone s : List Char) : Option Addr :=
  match s with
  | ':' :: ':' :: [] => addr6 zone (List.replicate 16 0)
  | ':' :: ':' :: s => (v6Loop 8 [] (some 0) s).bind (fun r => (expand r.1 r.2.1 r.2.2).bind (addr6 zone))
  | s => (v6Loop 8 [] none s).bind (fun r => (expand r.1 r.2.1 r.2.2).bind (addr6 zone))

/-- `parseIPv6` -/
def parse6 (s : List Char) : Option Addr :=
  if s.contains '%' then
    if (cutAt '%' s).2 = [] then none else parse6In (cutAt '%' s).2 (cutAt '%' s).1
  else parse6In [] s

/-- the loop of `ParseAddr`; `all` is the whole text -/
def parseFrom (all : List Char) : List Char → Option Addr
  | [] => none
  | c :: s =>
    if c = '.' then parse4 all
    else if c = ':' then parse6 all
    else if c = '%' then none
    else parseFrom all s

/-- `netip.ParseAddr` -/
def parseAddr (s : List Char) : Option Addr := parseFrom s s

/-! ### writing -/

/-- `appendHex`: one to four digits -/
def hexText (x : Nat) : Bytes :=
  (if x ≥ 0x1000 then [hex (UInt8.ofNat (x / 4096))] else []) ++
  ((if x ≥ 0x100 then [hex (UInt8.ofNat (x / 256 % 16))] else []) ++
  ((if x ≥ 0x10 then [hex (UInt8.ofNat (x / 16 % 16))] else []) ++ [hex (UInt8.ofNat (x % 16))]))

/-- `v6u16`: the groups of two bytes -/
def groups : Bytes → List Nat
  | a :: b :: r => (a.toNat * 256 + b.toNat) :: groups r
  | _ => []

/-- one round of the first loop of `appendTo6`, which looks for the longest run of at least two zeros -/
def runStep (g : List Nat) (best : Nat × Nat) (i : Nat) : Nat × Nat :=
  if 2 ≤ ((g.drop i).takeWhile (· = 0)).length ∧ ((g.drop i).takeWhile (· = 0)).length > best.2 - best.1 then
    (i, i + ((g.drop i).takeWhile (· = 0)).length)
  else best

/-- the first loop of `appendTo6` -/
def zeroRun (g : List Nat) : Nat × Nat := (List.range 8).foldl (runStep g) (255, 255)

/-- the second loop of `appendTo6`; the first number bounds the rounds -/
def textLoop (g : List Nat) (run : Nat × Nat) : Nat → Nat → Bytes
  | 0, _ => []
  | f + 1, i =>
    if i ≥ 8 then []
    else if i = run.1 then
      58 :: 58 :: (if run.2 ≥ 8 then [] else hexText (g.getD run.2 0) ++ textLoop g run f (run.2 + 1))
    else (if i > 0 then [58] else []) ++ (hexText (g.getD i 0) ++ textLoop g run f (i + 1))

/-- `appendTo6` without the zone -/
def text6 (b : Bytes) : Bytes := textLoop (groups b) (zeroRun (groups b)) 8 0

/-- `Is4In6` -/
def in6 (b : Bytes) : Bool := decide (b.take 12 = List.replicate 10 0 ++ [0xFF, 0xFF])

/-- `Addr.String` and `Addr.MarshalText` of an IPv6 address.  No address in a report has a zone; the model writes `?` for characters of a
zone beyond ASCII. -/
def v6Text (b : BytesN 16) (zone : String) : Bytes :=
  (if in6 b.1 then [58, 58, 102, 102, 102, 102, 58] ++ dotted (b.1.drop 12) else text6 b.1) ++
  (if zone = "" then [] else 37 :: zone.toList.map (fun c => if c.toNat < 128 then UInt8.ofNat c.toNat else 63))

/-- the bytes of a text as characters below 256 -/
def chars (b : Bytes) : List Char := b.map (fun x => Char.ofNat x.toNat)

end Verif.Services.Netip
