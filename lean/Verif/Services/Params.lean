import Verif.Services.Api
import Verif.Services.Program
/-
Model of parameters.go and of what run (forkdetector.go) does with the parameters.

Left out: the log level, the nonce, the parsing of the command line itself, and the logging.
-/

set_option autoImplicit false

namespace Verif.Services

open Verif
open Verif.Chains (Addr BytesN Linkage)
open Verif.Peers (AddrPort Config Version Registry)
open Verif.KV (Fate)

/-- `settings.BlockchainSettings` of one network: scheme byte and the seed peers of parseSeedPeers, parameters.go:117-146
(`none` for an unsupported type) -/
structure Network where
  scheme : UInt8
  seeds : Option (List AddrPort)

/-- library functions used on the parameters -/
structure Opts where
  /-- `netip.ParseAddrPort` -/
  parse : List Char → Option AddrPort
  parse_valid : ∀ s ap, parse s = some ap → ap.addr ≠ .zero
  /-- `AddrPort.String` -/
  print : AddrPort → List Char
  parse_print : ∀ s ap, parse s = some ap → parse (print ap) = some ap
  /-- `unicode.IsSpace` -/
  space : Char → Bool
  /-- `proto.NewVersionFromString` -/
  version : List Char → Option Version
  /-- `settings.BlockchainSettingsByTypeName` -/
  network : List Char → Option Network
  /-- `checkFolder`, parameters.go:175-190: whether the folder is accepted -/
  folder : List Char → Bool
  /-- `proto.TCPAddr.Empty` on an IPv4 address -/
  emptyIP : BytesN 4 → Bool

/-- the command line -/
structure Flags where
  db : List Char
  network : List Char
  peers : List Char
  api : List Char
  net : List Char
  declared : List Char
  /-- the bytes of the name -/
  name : Bytes
  versions : List Char

/-- `proto.TCPAddr` as made by parseAddress: nothing, or an IPv4 address with a port -/
abbrev TCPAddr := Option (BytesN 4 × UInt16)

/-- `parameters`, parameters.go:22-34 -/
structure Params where
  scheme : UInt8
  seeds : List AddrPort
  api : List Char
  net : TCPAddr
  declared : TCPAddr
  name : Bytes
  versions : List Version

/-- `strings.TrimSpace` -/
def Opts.trim (o : Opts) (s : List Char) : List Char := ((s.dropWhile o.space).reverse.dropWhile o.space).reverse

/-- the loop of parseSeedPeers, parameters.go:147-158 -/
def Opts.seedLoop (o : Opts) : List (List Char) → Go (List AddrPort)
  | [] => .ok []
  | s :: ss =>
    if o.trim s = [] then o.seedLoop ss
    else match o.parse (o.trim (o.trim s)) with
      | none => fail (.other "failed to parse peers")
      | some ap => do
        let r ← o.seedLoop ss
        .ok (ap :: r)

/-- `parseSeedPeers`, parameters.go:115-160 -/
def Opts.parseSeedPeers (o : Opts) (s : List Char) (n : Network) : Go (List AddrPort) :=
  match n.seeds with
  | none => fail (.other "unsupported blockchain type")
  | some r => do
    let l ← o.seedLoop (split s)
    .ok (r ++ l)

/-- the loop of parseVersions, parameters.go:165-171 -/
def Opts.versionLoop (o : Opts) : List (List Char) → Go (List Version)
  | [] => .ok []
  | s :: ss =>
    match o.version s with
    | none => fail (.other "invalid versions")
    | some v => do
      let r ← o.versionLoop ss
      .ok (v :: r)

/-- `parseVersions`, parameters.go:162-173 -/
def Opts.parseVersions (o : Opts) (s : List Char) : Go (List Version) := o.versionLoop (split s)

/-- `checkBind`, parameters.go:192-201 -/
def Opts.checkBind (o : Opts) (s : List Char) : Go (List Char) :=
  if s = [] then fail (.other "empty address")
  else match o.parse s with
    | none => fail (.other "invalid address")
    | some ap => .ok (o.print ap)

/-- `checkName`, parameters.go:203-211 -/
def checkName (s : Bytes) : Go Bytes :=
  if s = [] then fail (.other "empty name")
  else if s.length > 255 then fail (.other "name is too long")
  else .ok s

/-- `parseAddress`, parameters.go:213-221; `As4` panics on IPv6 -/
def Opts.parseAddress (o : Opts) (s : List Char) : Go TCPAddr :=
  match o.parse s with
  | none => .ok none
  | some ap => do
    let ip ← Peers.as4 ap.addr
    .ok (some (ip, ap.port))

/-- `newParameters`, parameters.go:36-99 -/
def Opts.newParameters (o : Opts) (f : Flags) : Go Params :=
  if !o.folder f.db then fail (.other "invalid database folder")
  else match o.network f.network with
    | none => fail (.other "failed to get blockchain settings")
    | some n => do
      let seeds ← o.parseSeedPeers f.peers n
      let versions ← o.parseVersions f.versions
      let aa ← o.checkBind f.api
      let na ← o.checkBind f.net
      let nm ← checkName f.name
      let net ← o.parseAddress na
      let declared ← o.parseAddress f.declared
      .ok { scheme := n.scheme, seeds := seeds, api := aa, net := net, declared := declared, name := nm, versions := versions }

/-- `TCPAddr.Empty` -/
def Opts.empty (o : Opts) : TCPAddr → Bool
  | none => true
  | some (ip, _) => o.emptyIP ip

/-- the declared address in `NewRegistry`, peers/registry.go:42-48: the text of an IPv4 `TCPAddr` parses to that address -/
def Opts.declaredAddr (o : Opts) (p : Params) : Addr :=
  match p.declared with
  | none => .zero
  | some (ip, _) => if o.emptyIP ip then .zero else .v4 ip

/-- whether `NewListener` makes a listener, listener.go:24-41 -/
def Opts.listens (o : Opts) (p : Params) : Bool :=
  !o.empty p.declared && !(o.empty p.net && decide ((match p.net with | none => 0 | some (_, port) => port) = 0))

/-- a seed after the way through `net.TCPAddr` and its text (parameters.go:157, peers/registry.go:232): IPv4-mapped addresses are written
as IPv4, and with a zone this text cannot be parsed; all other addresses come back unchanged -/
def seedOf (ap : AddrPort) : Option AddrPort :=
  match ap.addr with
  | .zero => none
  | .v4 b => some ⟨.v4 b, ap.port⟩
  | .v6 b z =>
    match Peers.as4 (.v6 b z) with
    | .ok b4 => if z = "" then some ⟨.v4 b4, ap.port⟩ else none
    | .error _ => some ap

/-- the configuration of the registry, forkdetector.go:54 -/
def Opts.config (o : Opts) (p : Params) : Config := { scheme := p.scheme, declared := o.declaredAddr p, versions := p.versions }

/-- `run` up to the point when all services are started, forkdetector.go:35-96, on an existing database of peers and with an
opened store -/
def Opts.run (o : Opts) (f : Flags) (pdb : Peers.DB) (fs : Nat → Fate) (lk : Linkage) : Go Prog := do
  let p ← o.newParameters f
  .ok (Prog.start (o.config p) pdb fs (p.seeds.map seedOf) lk (o.listens p))

end Verif.Services
