import Verif.Services.ApiReads
/-
Model of the routing of HTTP requests: `NewAPI` and `API.routes` (api/api.go:64-80, 108-121), with the parts of `net/url` and of the
router chi (v5.0.12, go.mod:7) that they use.

Texts are lists of bytes, written as characters below 256.  The target of a request is in origin form, as browsers send it.  Not modelled:
the headers, the compression and the text of error messages.
-/

set_option autoImplicit false

namespace Verif.Services

open Verif
open Verif.Chains (Addr DB Env Fork GeneratorStats)
open Verif.Peers (Registry Lib Peer)

/-! ### net/url -/

/-- `unhex` of `net/url`, with `ishex` -/
def unhex (c : Char) : Option Nat :=
  if '0' ≤ c ∧ c ≤ '9' then some (c.toNat - 48)
  else if 'a' ≤ c ∧ c ≤ 'f' then some (c.toNat - 87)
  else if 'A' ≤ c ∧ c ≤ 'F' then some (c.toNat - 55)
  else none

/-- `unescape` of `net/url`; `plus` is what a plus sign stands for: itself in a path, a space in a query -/
def unescape (plus : Char) : List Char → Option (List Char)
  | [] => some []
  | c :: s =>
    if c = '%' then
      match s with
      | a :: b :: t =>
        match unhex a, unhex b with
        | some x, some y => (unescape plus t).map (Char.ofNat (16 * x + y) :: ·)
        | _, _ => none
      | _ => none
    else (unescape plus s).map ((if c = '+' then plus else c) :: ·)

/-- a letter or digit -/
def alnum (c : Char) : Bool := ('a' ≤ c && c ≤ 'z') || ('A' ≤ c && c ≤ 'Z') || ('0' ≤ c && c ≤ '9')

/-- the bytes `escape` leaves as they are in a path: the negation of `shouldEscape(c, encodePath)` of `net/url` -/
def pathKeeps (c : Char) : Bool := alnum c || "-_.~$&+,/:;=@".toList.contains c

/-- `"0123456789ABCDEF"[n]` -/
def upperhex (n : Nat) : Char := if n < 10 then Char.ofNat (48 + n) else Char.ofNat (55 + n)

/-- a byte as three characters -/
def percent (c : Char) : List Char := ['%', upperhex (c.toNat / 16), upperhex (c.toNat % 16)]

/-- `escape(s, encodePath)` of `net/url` -/
def escapePath (s : List Char) : List Char := s.flatMap (fun c => if pathKeeps c then [c] else percent c)

/-- The path that chi routes: `URL.RawPath`, which is set if the default encoding of `URL.Path` differs from the text of the request
(`URL.setPath` of `net/url`), and else `URL.Path` (`Mux.routeHTTP` of chi).  `none` if the path does not decode. -/
def routePath (raw : List Char) : Option (List Char) :=
  (unescape '+' raw).map (fun p => if escapePath p = raw then p else raw)

/-- `strings.Cut` -/
def cutAt (d : Char) : List Char → List Char × List Char
  | [] => ([], [])
  | c :: s => if c = d then ([], s) else (c :: (cutAt d s).1, (cutAt d s).2)

/-- `strings.Split` at a character -/
def splitAt (d : Char) : List Char → List (List Char)
  | [] => [[]]
  | c :: s =>
    if c = d then [] :: splitAt d s
    else match splitAt d s with
      | [] => [[c]]
      | x :: xs => (c :: x) :: xs

/-- one round of the loop of `parseQuery` of `net/url` -/
def queryPair (piece : List Char) : Option (List Char × List Char) :=
  if piece.contains ';' then none
  else if piece = [] then none
  else do
    let k ← unescape ' ' (cutAt '=' piece).1
    let v ← unescape ' ' (cutAt '=' piece).2
    some (k, v)

/-- `r.URL.Query()`: the keys with their values, in the order of the text -/
def queryPairs (q : List Char) : List (List Char × List Char) := (splitAt '&' q).filterMap queryPair

/-- `Values.Get`: the first value of the key, or the empty text -/
def queryGet (key q : List Char) : List Char :=
  match (queryPairs q).find? (fun p => p.1 = key) with
  | some p => p.2
  | none => []

/-! ### chi -/

/-- the handlers of the API -/
inductive Handler where
  | peers | friendly | connections | heads | leashes | status | forks | activeForks | fork | forkGenerators
deriving DecidableEq

/-- `API.routes`, api/api.go:108-121: all routes are for the method GET -/
def routes : List (String × Handler) :=
  [("/peers/all", .peers), ("/peers/friendly", .friendly), ("/connections", .connections), ("/heads", .heads), ("/leashes", .leashes),
    ("/status", .status), ("/forks", .forks), ("/active-forks", .activeForks), ("/fork/{address}", .fork),
    ("/fork/{address}/generators/{blocks}", .forkGenerators)]

/-- Matching of a path with a pattern, segment by segment.  A segment in braces matches any text up to the next slash or the end; if it
is the last one, the text must not be empty (`node.findRoute` of chi).  The result are the values of the parameters. -/
def matchSegs : List (List Char) → List (List Char) → Option (List (List Char))
  | [], [] => some []
  | p :: ps, x :: xs =>
    if p.head? = some '{' then (if x = [] ∧ xs = [] then none else (matchSegs ps xs).map (x :: ·))
    else if x = p then matchSegs ps xs else none
  | _, _ => none

/-- a pattern of chi against a path -/
def matchRoute (pattern path : List Char) : Option (List (List Char)) := matchSegs (splitAt '/' pattern) (splitAt '/' path)

/-- the first route that matches -/
def findRoute (path : List Char) : List (String × Handler) → Option (Handler × List (List Char))
  | [] => none
  | r :: rs =>
    match matchRoute r.1.toList path with
    | some ps => some (r.2, ps)
    | none => findRoute path rs

/-- `r.Mount("/api", a.routes())`, api/api.go:76: the path below the mount point -/
def mounted (path : List Char) : Option (List Char) :=
  if path = "/api".toList then some ['/']
  else if "/api/".toList.isPrefixOf path then some (path.drop 4)
  else none

/-- the methods chi knows -/
def knownMethods : List String := ["CONNECT", "DELETE", "GET", "HEAD", "OPTIONS", "PATCH", "POST", "PUT", "TRACE"]

/-- what the router does with a request -/
inductive Routed where
  | handler (h : Handler) (params : List (List Char))
  | notFound
  | notAllowed
deriving DecidableEq

/-- `Mux.routeHTTP` of chi, for the router of `NewAPI` and the one mounted in it -/
def route (method : String) (path : List Char) : Routed :=
  if !knownMethods.contains method then .notAllowed
  else match (mounted path).bind (findRoute · routes) with
    | none => .notFound
    | some (h, ps) => if method = "GET" then .handler h ps else .notAllowed

/-! ### the server -/

/-- What the handlers read while they answer one request.  Each call of the store or of the registry may find other data, so they are
numbered in the order of the calls. -/
structure View where
  w : Web
  d : Dates
  lib : Lib
  cond : Nat → Cond
  env : Nat → Env
  db : Nat → DB
  reg : Nat → Registry

/-- the bodies -/
inductive Report where
  | peers (l : List Peer)
  | heads (l : List HeadInfo)
  | leashes (l : List LeashInfo)
  | status (s : Status)
  | forks (l : List Fork)
  | fork (f : Fork)
  | generators (l : List GeneratorStats)

/-- an answer with another kind of body -/
def Resp.map {α β : Type} (f : α → β) : Resp α → Resp β
  | .ok a => .ok (f a)
  | .badRequest => .badRequest
  | .notFound => .notFound
  | .failed => .failed
  | .panicked => .panicked
  | .died => .died

/-- The call of a handler.  `chi.URLParam` looks a parameter up by its name, and `getPeers` (api/api.go:402-417) reads the query. -/
def View.call (v : View) (h : Handler) (params : List (List Char)) (query : List Char) : Resp Report :=
  match h with
  | .peers => (v.d.peersRd (v.cond 0) v.lib (v.env 0) (v.reg 0)).map .peers
  | .friendly => (v.d.friendlyRd (v.cond 0) v.lib (v.env 0) (v.reg 0)).map .peers
  | .connections => (v.d.connectionsRd (v.cond 0) v.lib (v.env 0) (v.reg 0)).map .peers
  | .heads => (v.w.headsRd (v.cond 0) (fun i => v.cond (i + 1)) (v.db 0) (fun i => v.db (i + 1))).map .heads
  | .leashes => (v.w.leashesRd (v.cond 0) (fun i => v.cond (i + 1)) (v.env 0) (v.db 0) (fun i => v.db (i + 1))).map .leashes
  | .status =>
    (statusRd (v.cond 0) (v.cond 1) (v.cond 2) (v.cond 3) v.lib (v.env 0) (v.env 1) (v.env 2) (v.env 3) (v.db 0) (v.reg 1) (v.reg 2)
      (v.reg 3)).map .status
  | .forks => (v.w.forksRd (v.cond 0) (v.env 0) (v.db 0) (queryGet "peers".toList query)).map .forks
  | .activeForks =>
    (v.w.activeForksRd (v.cond 0) (v.cond 1) v.lib (v.env 0) (v.env 1) (v.reg 0) (v.db 1) (queryGet "peers".toList query)).map .forks
  | .fork => (v.w.forkRd (v.cond 0) (v.cond 1) (v.env 1) (v.db 0) (v.db 1) (params.getD 0 [])).map .fork
  | .forkGenerators =>
    (v.w.forkGeneratorsRd (v.cond 0) (v.cond 1) (v.cond 2) (v.env 1) (v.env 2) (v.db 0) (v.db 1) (v.db 2) (params.getD 0 [])
      (params.getD 1 [])).map .generators

/-- an answer of the server -/
inductive Reply where
  /-- from a handler -/
  | report (r : Resp Report)
  /-- 404 from the router -/
  | noRoute
  /-- 405 from the router -/
  | notAllowed
  /-- 400 from `net/http`, for a target that does not parse -/
  | malformed

/-- control characters, which `url.ParseRequestURI` refuses -/
def isCtl (c : Char) : Bool := c.toNat < 32 || c.toNat = 127

/-- the server: `http.Server` with the router of `NewAPI`, api/api.go:64-80 -/
def View.serve (v : View) (method : String) (target : List Char) : Reply :=
  if target.any isCtl || target.head? ≠ some '/' then .malformed
  else match routePath (cutAt '?' target).1 with
    | none => .malformed
    | some path =>
      match route method path with
      | .handler h ps => .report (v.call h ps (cutAt '?' target).2)
      | .notFound => .noRoute
      | .notAllowed => .notAllowed

end Verif.Services
