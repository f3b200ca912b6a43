import Verif.Prelude
import Verif.Bytes
import Verif.KV
import Verif.Chains.Types
import Verif.Chains.Storage
import Verif.Chains.Linkage
import Verif.Chains.Tree
import Verif.Chains.Keys
import Verif.Chains.Rep
import Verif.Chains.Ops
import Verif.Chains.Spec
import Verif.Chains.History
import Verif.Chains.Lca
import Verif.Chains.Examples
import Verif.Chains.Queries
import Verif.Chains.Frame
import Verif.Chains.LeashSteps
import Verif.Chains.Edges
import Verif.Chains.ForkLemmas
import Verif.Chains.ForkOk
import Verif.Chains.Order
import Verif.Chains.Shapes
import Verif.Props.Blocks
import Verif.Props.Leashes
import Verif.Props.Heads
import Verif.Props.Lca
import Verif.Props.Forks
import Verif.Props.Order
import Verif.Peers.Types
import Verif.Peers.Storage
import Verif.Peers.Registry
import Verif.Peers.Spec
import Verif.Peers.Lemmas
import Verif.Peers.Steps
import Verif.Peers.Append
import Verif.Peers.History
import Verif.Peers.Queries
import Verif.Peers.Versions
import Verif.Peers.Live
import Verif.Peers.Dial
import Verif.Peers.Examples
import Verif.Props.Dialing
import Verif.Props.Registry
import Verif.Loading.Queue
import Verif.Loading.QueueLemmas
import Verif.Loading.Loader
import Verif.Loading.Spec
import Verif.Loading.Lemmas
import Verif.Loading.Store
import Verif.Loading.Loops
import Verif.Loading.Inv
import Verif.Loading.Steps
import Verif.Loading.Run
import Verif.Loading.Outcomes
import Verif.Loading.Examples
import Verif.Props.Queue
import Verif.Props.Loader
import Verif.Props.Sync
import Verif.Props.Scores
import Verif.Services.Distributor
import Verif.Services.Locks
import Verif.Services.LocksLemmas
import Verif.Services.Program
import Verif.Services.ProgramLemmas
import Verif.Props.Locks
import Verif.Services.ProgramInv
import Verif.Services.Examples
import Verif.Props.Program
import Verif.Services.MessageLemmas
import Verif.Props.Messages
import Verif.Services.Api
import Verif.Services.ApiLemmas
import Verif.Props.Api
import Verif.Props.Reports
import Verif.Services.Params
import Verif.Services.ParamsLemmas
import Verif.Props.Params
import Verif.Props.Redial
import Verif.Props.Notices
import Verif.Peers.Config
import Verif.Services.PeerReports
import Verif.Services.ConfigLemmas
import Verif.Props.Config
import Verif.Peers.Hostile
import Verif.Props.Hostile
import Verif.Chains.Origin
import Verif.Loading.Origin
import Verif.Loading.Honest
import Verif.Loading.HonestLemmas
import Verif.Loading.HonestSteps
import Verif.Loading.HonestEx
import Verif.Services.Origin
import Verif.Services.OriginEx
import Verif.Props.Origin
import Verif.Peers.Ports
import Verif.Services.Ports
import Verif.Props.Ports
import Verif.Props.Honest
import Verif.Services.ShutdownLemmas
import Verif.Props.Shutdown
import Verif.Services.Linear
import Verif.Services.LinearLemmas
import Verif.Services.LinearCode
import Verif.Props.Linear
import Verif.Loading.Fine
import Verif.Loading.FineAlone
import Verif.Loading.FineSafe
import Verif.Loading.FineInv
import Verif.Loading.FineRun
import Verif.Loading.FineEx
import Verif.Props.Fine
import Verif.Services.LinearEnds
import Verif.Loading.FineQuiet
import Verif.Services.Conns
import Verif.Props.Conns
import Verif.Chains.Initial
import Verif.Chains.Stable
import Verif.Services.Lives
import Verif.Services.LivesLemmas
import Verif.Props.Lives
import Verif.Chains.Genuine
import Verif.Services.Genuine
import Verif.Props.Genuine
import Verif.Props.TrueForks
import Verif.Services.Whole
import Verif.Services.WholeLemmas
import Verif.Services.WholeSteps
import Verif.Services.WholeEx
import Verif.Loading.HonestTrue
import Verif.Props.Whole
import Verif.Chains.Reads
import Verif.Chains.ReadsLemmas
import Verif.Chains.ReadsReach
import Verif.Props.Reads
import Verif.Peers.Reads
import Verif.Props.ReadsPeers
import Verif.Services.ApiReads
import Verif.Props.ReadsReports
import Verif.Loading.FineReads
import Verif.Loading.FineReadsInv
import Verif.Loading.FineStuck
import Verif.Loading.FineChoice
import Verif.Loading.FineReadsGood
import Verif.Loading.FineReadsEx
import Verif.Props.ReadsLoader
import Verif.Services.Faulty
import Verif.Services.FaultyLemmas
import Verif.Services.FaultyInv
import Verif.Services.FaultyEvents
import Verif.Services.FaultyGood
import Verif.Services.FaultyCrash
import Verif.Services.FaultyEx
import Verif.Services.FaultyExact
import Verif.Props.Faulty
import Verif.Loading.Among
import Verif.Loading.AmongSafe
import Verif.Loading.AmongSteps
import Verif.Loading.AmongRun
import Verif.Loading.AmongStart
import Verif.Loading.AmongEx
import Verif.Props.Among
import Verif.Services.Side
import Verif.Services.SideLemmas
import Verif.Services.SideRun
import Verif.Services.SideTrue
import Verif.Services.SideEx
import Verif.Props.Side
import Verif.Loading.Owed
import Verif.Loading.OwedLemmas
import Verif.Loading.OwedPeer
import Verif.Loading.OwedRun
import Verif.Loading.OwedEx
import Verif.Props.Owed
import Verif.Services.Settled
import Verif.Services.SettledLemmas
import Verif.Services.SettledEx
import Verif.Props.Settled
import Verif.Services.Endless
import Verif.Services.EndlessLemmas
import Verif.Services.EndlessEx
import Verif.Props.Endless
import Verif.Loading.FineOnly
import Verif.Services.Moves
import Verif.Props.Moves
import Verif.Services.Shown
import Verif.Services.EndlessTrue
import Verif.Services.Calm
import Verif.Services.CalmLemmas
import Verif.Services.CalmEx
import Verif.Props.Calm
import Verif.Services.Forked
import Verif.Props.Detected
import Verif.Services.Listens
import Verif.Props.Listens
import Verif.Loading.Hog
import Verif.Loading.HogLemmas
import Verif.Props.Hog
import Verif.Services.Routes
import Verif.Services.RoutesLemmas
import Verif.Services.RoutesSpec
import Verif.Props.Routes
import Verif.Services.Exit
import Verif.Services.ExitLemmas
import Verif.Props.Exit
import Verif.Props.Stable
import Verif.Chains.Size
import Verif.Props.Size
import Verif.Peers.Size
import Verif.Props.PeersSize
import Verif.Services.Json
import Verif.Services.JsonSpec
import Verif.Services.JsonLemmas
import Verif.Services.JsonTexts
import Verif.Services.JsonReports
import Verif.Props.Json
import Verif.Services.Netip
import Verif.Services.NetipLemmas
import Verif.Props.Netip
import Verif.Services.Times
import Verif.Services.TimesSpec
import Verif.Services.TimesLemmas
import Verif.Props.Times
import Verif.Cbor.Format
import Verif.Cbor.Lemmas
import Verif.Cbor.Chains
import Verif.Cbor.ChainsLemmas
import Verif.Cbor.Peers
import Verif.Cbor.PeersLemmas
import Verif.Props.Cbor
import Verif.Cbor.Disk
import Verif.Cbor.PeersDisk
import Verif.Props.Disk
import Verif.Services.AddrPort
import Verif.Services.AddrPortLemmas
import Verif.Props.AddrPort
import Verif.Services.Names
import Verif.Services.NamesLemmas
import Verif.Props.Names
import Verif.Chains.Work
import Verif.Chains.WorkLemmas
import Verif.Props.Work
import Verif.Loading.Frugal
import Verif.Loading.FrugalLemmas
import Verif.Props.Frugal
import Verif.Loading.AmongFrugal
import Verif.Props.FrugalAmong
import Verif.Services.SideFrugal
import Verif.Props.FrugalSide
import Verif.Loading.Bill
import Verif.Loading.BillLemmas
import Verif.Services.SideBill
import Verif.Props.Bill
import Verif.Props.BillSide
import Verif.Services.Traffic
import Verif.Props.Traffic
import Verif.Loading.FineTo
import Verif.Services.Closed
import Verif.Props.Closed
import Verif.Services.ClosedReads
import Verif.Props.ClosedReads
import Verif.Services.Kept
import Verif.Props.Kept
import Verif.Services.PortsReads
import Verif.Props.PortsReads
import Verif.Props.SharedReads
import Verif.Services.Records
import Verif.Props.Records
