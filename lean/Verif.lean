import Verif.Model.Types
import Verif.Model.Hex
import Verif.Model.StateAdapter
import Verif.Model.Executor
import Verif.Props.StateAdapter
import Verif.Props.Executor
import Verif.Props.Genesis
import Verif.Props.TxMap
import Verif.Props.TxCache
import Verif.Props.TxCacheConc
import Verif.Props.TxCacheConc2
import Verif.Props.Mempool
import Verif.Props.Mempool2
import Verif.Props.Broadcaster
import Verif.Props.Rlp
import Verif.Props.FixedCodec
import Verif.Props.Protobuf
import Verif.Props.Messages
import Verif.Props.Api
import Verif.Props.Storage
import Verif.Props.Merkle
import Verif.Props.Consensus
import Verif.Props.Consensus2
import Verif.Props.Consensus3
import Verif.Props.Sync
import Verif.Props.Engine
import Verif.Props.Replay
import Verif.Props.OverlordCrypto
import Verif.Model.ConsensusLock
import Verif.Props.ConsensusLock
import Verif.Props.NodeConc
import Verif.Props.RaceReplay
import Verif.Model.Endpoint
import Verif.Props.Endpoint
import Verif.Model.Rpc
import Verif.Props.Rpc
import Verif.Model.Server
import Verif.Props.Server
import Verif.Model.PeerManager
import Verif.Model.Connection
import Verif.Props.PeerManager
import Verif.Props.PeerManager2
import Verif.Props.Connection
import Verif.Props.Authority
import Verif.Props.ApiServer
import Verif.Props.Server2
import Verif.Props.Proposal
import Verif.Props.Poison
import Verif.Model.Frame
import Verif.Model.Keeper
import Verif.Props.Frame
import Verif.Props.Keeper
import Verif.Props.Keeper2
import Verif.Model.Persist
import Verif.Props.Persist
import Verif.Props.ByteExecutor
import Verif.Props.Agreement
import Verif.Props.Lifetime
import Verif.Props.Fairness
import Verif.Props.Startup
import Verif.Props.Canonical
import Verif.Props.Spending
import Verif.Props.Takeover
import Verif.Props.Inclusion
import Verif.Props.PeerManager3
import Verif.Props.Mpt
import Verif.Props.MptStore
import Verif.Props.Disk
import Verif.Props.PayOnce
import Verif.Props.Handed
import Verif.Props.DiskLife
import Verif.Props.Linear
import Verif.Props.Linear2
import Verif.Props.Linear3
import Verif.Props.Timeout
import Verif.Props.Finality
import Verif.Props.Finality2
import Verif.Props.Finality3
import Verif.Props.Timeout2
import Verif.Props.Proposal2
import Verif.Props.Origin
import Verif.Props.WaitFree
import Verif.Props.Complete
import Verif.Props.NoFork
import Verif.Props.Network
import Verif.Props.NetworkFork
import Verif.Props.NetService
import Verif.Props.NodeNet
import Verif.Props.NodeNet2
import Verif.Props.NodeNet3
import Verif.Props.NodeNet4
import Verif.Props.Latecomer
import Verif.Props.Halt
import Verif.Props.Derived
import Verif.Props.Launch
import Verif.Props.Adapter
import Verif.Model.FirstStart
import Verif.Props.FirstStart
import Verif.Model.Mail
import Verif.Props.Mail
import Verif.Props.Mail2
import Verif.Model.CoreProtocol
import Verif.Props.CoreProtocol
import Verif.Model.HeartBeat
import Verif.Props.HeartBeat
