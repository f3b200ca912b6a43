import Verif.Services.Api
/-
Model of the handlers of api/api.go that report about peers.
-/

set_option autoImplicit false

namespace Verif.Services

open Verif
open Verif.Chains (Env)
open Verif.Peers (Registry Lib Peer)

/-- `time.Time.MarshalJSON` of a time given in seconds since the Unix epoch.  It fails outside of the years 0 to 9999 of the local time
zone, which is less than a day away from UTC. -/
structure Dates where
  encodes : Int → Bool
  near : ∀ t, Peers.zeroTime ≤ t → t < 253402214400 → encodes t = true
  far : ∀ t, 253402387200 ≤ t → encodes t = false

/-- `json.NewEncoder(w).Encode(l)`: of the fields of a peer (peers/peer.go:23-32) only the time can fail -/
def Dates.encode (d : Dates) (l : List Peer) : Resp (List Peer) := if l.all (fun p => d.encodes p.nextAttempt) then .ok l else .failed

/-- `peers`, api/api.go:162-174 -/
def Dates.peers (d : Dates) (lib : Lib) (env : Env) (r : Registry) : Resp (List Peer) := .after (Peers.Peers lib env r) d.encode

/-- `friendly`, api/api.go:176-188 -/
def Dates.friendly (d : Dates) (lib : Lib) (env : Env) (r : Registry) : Resp (List Peer) := .after (Peers.FriendlyPeers lib env r) d.encode

/-- `connections`, api/api.go:190-202; the connection itself is not an exported field -/
def Dates.connections (d : Dates) (lib : Lib) (env : Env) (r : Registry) : Resp (List Peer) :=
  .after (Peers.Connections lib env r) (fun l => d.encode (l.map (fun p => { p with conn := none })))

end Verif.Services
