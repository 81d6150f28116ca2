import Verif.Api.AxonRpc
import Verif.Api.AxonRpcProps
import Verif.Api.BlockIdText
import Verif.Api.BlockIdTextProps
import Verif.Api.BlockReport
import Verif.Api.BlockReportProps
import Verif.Api.Call
import Verif.Api.CallProps
import Verif.Api.Errors
import Verif.Api.ErrorsProps
import Verif.Api.FeeHistory
import Verif.Api.FeeHistoryProps
import Verif.Api.FilterHub
import Verif.Api.FilterProps
import Verif.Api.Logs
import Verif.Api.LogsProps
import Verif.Api.Methods
import Verif.Api.MethodsProps
import Verif.Api.ProofDb
import Verif.Api.ProofDbProps
import Verif.Api.Receipt
import Verif.Api.ReceiptProps
import Verif.Api.Select
import Verif.Api.SelectProps
import Verif.Api.StateProof
import Verif.Api.StateProofProps
import Verif.Api.Subscribe
import Verif.Api.SubscribeProps
import Verif.Api.Transaction
import Verif.Api.TransactionProps
import Verif.Api.Types
import Verif.Cells.ChainDb
import Verif.Cells.ChainDbProps
import Verif.Cells.Provider
import Verif.Cells.ProviderProps
import Verif.Cells.ReadProps
import Verif.Cells.Sign
import Verif.Cells.SignProps
import Verif.Cells.Store
import Verif.Cells.StoreLemmas
import Verif.Cells.StoreProps
import Verif.Cells.TrieDb
import Verif.Codec.Abi
import Verif.Codec.AbiLemmas
import Verif.Codec.Address
import Verif.Codec.AddressProps
import Verif.Codec.Block
import Verif.Codec.BlockProps
import Verif.Codec.Exit
import Verif.Codec.ExitProps
import Verif.Codec.Fields
import Verif.Codec.Hex
import Verif.Codec.HexProps
import Verif.Codec.Molecule
import Verif.Codec.Rlp
import Verif.Codec.RlpProps
import Verif.Codec.Tx
import Verif.Codec.TxLemmas
import Verif.Codec.TxProps
import Verif.Consensus.ConsensusWal
import Verif.Consensus.ConsensusWalProps
import Verif.Consensus.Crypto
import Verif.Consensus.CryptoProps
import Verif.Consensus.Engine
import Verif.Consensus.EngineLemmas
import Verif.Consensus.EngineProps
import Verif.Consensus.Handlers
import Verif.Consensus.HandlersProps
import Verif.Consensus.Hardfork
import Verif.Consensus.HardforkProps
import Verif.Consensus.LightClient
import Verif.Consensus.LightClientProps
import Verif.Consensus.Params
import Verif.Consensus.ParamsProps
import Verif.Consensus.Progress
import Verif.Consensus.ProgressProps
import Verif.Consensus.Proof
import Verif.Consensus.ProofProps
import Verif.Consensus.RpcResponse
import Verif.Consensus.RpcResponseProps
import Verif.Consensus.Serve
import Verif.Consensus.ServeProps
import Verif.Consensus.Sync
import Verif.Consensus.SyncProps
import Verif.Consensus.TxsWal
import Verif.Consensus.TxsWalProps
import Verif.Executor.Blake2F
import Verif.Executor.Blake2FProps
import Verif.Executor.Bloom
import Verif.Executor.BloomProps
import Verif.Executor.Cbmt
import Verif.Executor.CbmtProps
import Verif.Executor.Exec
import Verif.Executor.ExecLemmas
import Verif.Executor.ExecProps
import Verif.Executor.FeeProps
import Verif.Executor.Modexp
import Verif.Executor.ModexpProps
import Verif.Executor.Precompiles
import Verif.Executor.PrecompilesProps
import Verif.Executor.ReceiptProps
import Verif.Executor.Revert
import Verif.Executor.RevertProps
import Verif.Executor.State
import Verif.Executor.StateLemmas
import Verif.Executor.StateProps
import Verif.Executor.Supply
import Verif.Executor.SupplyProps
import Verif.Executor.SystemAbi
import Verif.Executor.SystemAbiLemmas
import Verif.Executor.SystemAbiProps
import Verif.Executor.SystemRootProps
import Verif.Executor.TrieDb
import Verif.Executor.TrieDbProps
import Verif.Executor.WorldDb
import Verif.Executor.WorldDbProps
import Verif.Logger.Roller
import Verif.Logger.RollerProps
import Verif.Logger.Routing
import Verif.Logger.RoutingProps
import Verif.Mempool.Admission
import Verif.Mempool.AdmissionProps
import Verif.Mempool.Broadcast
import Verif.Mempool.BroadcastProps
import Verif.Mempool.Concurrent
import Verif.Mempool.ConcurrentLemmas
import Verif.Mempool.ConcurrentProps
import Verif.Mempool.ConcurrentSim
import Verif.Mempool.Fetch
import Verif.Mempool.FetchProps
import Verif.Mempool.Forge
import Verif.Mempool.ForgeProps
import Verif.Mempool.Identity
import Verif.Mempool.IdentityProps
import Verif.Mempool.Pool
import Verif.Mempool.PoolAcc
import Verif.Mempool.PoolAccProps
import Verif.Mempool.PoolCountProps
import Verif.Mempool.PoolFlush
import Verif.Mempool.PoolGap
import Verif.Mempool.PoolGapProps
import Verif.Mempool.PoolLemmas
import Verif.Mempool.PoolPanic
import Verif.Mempool.PoolPanicProps
import Verif.Mempool.PoolProps
import Verif.Mempool.PoolRbf
import Verif.Mempool.PoolRbfProps
import Verif.Mempool.PoolSteps
import Verif.Mempool.PoolTimeout
import Verif.Mempool.PoolTimeoutProps
import Verif.Mempool.Pull
import Verif.Mempool.PullProps
import Verif.Mempool.Restart
import Verif.Mempool.RestartProps
import Verif.Metadata.ChainDb
import Verif.Metadata.ChainDbProps
import Verif.Metadata.Config
import Verif.Metadata.ConfigProps
import Verif.Metadata.CountProps
import Verif.Metadata.HistoryProps
import Verif.Metadata.Records
import Verif.Metadata.Segment
import Verif.Metadata.SegmentProps
import Verif.Metadata.Store
import Verif.Metadata.StoreProps
import Verif.Metadata.TrieStore
import Verif.Metadata.TrieStoreProps
import Verif.Network.AddrBook
import Verif.Network.AddrManager
import Verif.Network.AddrManagerProps
import Verif.Network.BanList
import Verif.Network.BanListProps
import Verif.Network.Compress
import Verif.Network.CompressProps
import Verif.Network.Discovery
import Verif.Network.DiscoveryProps
import Verif.Network.Endpoint
import Verif.Network.EndpointProps
import Verif.Network.Gossip
import Verif.Network.GossipProps
import Verif.Network.Identify
import Verif.Network.IdentifyProps
import Verif.Network.Ip
import Verif.Network.Message
import Verif.Network.MessageProps
import Verif.Network.PeerFiles
import Verif.Network.PeerFilesProps
import Verif.Network.PeerStore
import Verif.Network.PeerStoreProps
import Verif.Network.PingHandler
import Verif.Network.PingHandlerProps
import Verif.Network.Proto
import Verif.Network.ProtoProps
import Verif.Network.RpcMap
import Verif.Network.RpcMapProps
import Verif.Network.Sessions
import Verif.Network.SessionsProps
import Verif.Network.Wire
import Verif.Network.WireProps
import Verif.Run.Genesis
import Verif.Run.GenesisLemmas
import Verif.Run.GenesisProps
import Verif.Run.Keypair
import Verif.Run.KeypairProps
import Verif.Storage.Adapter
import Verif.Storage.AdapterLemmas
import Verif.Storage.AdapterProps
import Verif.Storage.Batch
import Verif.Storage.BatchProps
import Verif.Storage.Keys
import Verif.Storage.KeysProps
import Verif.Storage.Store
import Verif.Storage.StoreLemmas
import Verif.Storage.StoreProps
import Verif.Tools.Json
import Verif.Tools.JsonProps
import Verif.Tools.MetadataCell
import Verif.Tools.MetadataCellProps
import Verif.Trie.Canon
import Verif.Trie.Lists
import Verif.Trie.ListsProps
import Verif.Trie.Nodes
import Verif.Trie.Receipts
import Verif.Trie.ReceiptsProps
import Verif.Trie.Root
import Verif.Trie.Trie
import Verif.Util.Assoc
import Verif.Util.Bytes
import Verif.Util.JsonText
import Verif.Util.Outcome
