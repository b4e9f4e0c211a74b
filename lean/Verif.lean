import Verif.IntCodec.Props
import Verif.Address.Props
import Verif.Keys.Props
import Verif.Container.Isolation
import Verif.Havah.Economy.PropsCoins
import Verif.Havah.Economy.PropsReport
import Verif.Havah.Economy.PropsClaim
import Verif.Havah.Economy.PropsRegistry
import Verif.Havah.Economy.PropsTerm
import Verif.Havah.Economy.PropsBase
import Verif.Havah.Validators.Demo
import Verif.PyExec.Demo
import Verif.Typed.Props
import Verif.Bloom.Props
import Verif.Api.TypesProps
import Verif.Api.EventProps
import Verif.Api.DispatchProps
import Verif.Batch.Props
import Verif.Package.Props
import Verif.Package.ExtractProps
import Verif.Codes.Props
import Verif.IntCodec.TextProps
import Verif.Api.ParamsProps
import Verif.Rlp.Props
import Verif.Trie.Props
import Verif.Consensus.BitArrayProps
import Verif.Consensus.VoteSetProps
import Verif.Consensus.PartSetProps
import Verif.Service.DepositProps
import Verif.Service.FeePayerProps
import Verif.Service.ReceiptProps
import Verif.Service.TxFeeProps
import Verif.Mta.Props
import Verif.Consensus.EngineValid
import Verif.Service.LocatorProps
import Verif.Consensus.WalProps
import Verif.Service.VirtualProps
import Verif.Tx.SerializeProps
import Verif.Tx.Admit
import Verif.Call.Props
import Verif.Consensus.BlockTime
import Verif.TxPool.Props
import Verif.TxPool.Waiters
import Verif.Sync.Trie
import Verif.WorldState.Props
import Verif.Deploy.Address
import Verif.BtpMerkle.Proof
import Verif.Btp.Proof
import Verif.Dropped.Proof
import Verif.Lzw.Proof
import Verif.VList.Demo
import Verif.BTree.Demo
import Verif.Trans.Demo
import Verif.LayerDB.Demo
import Verif.NetQueue.Demo
import Verif.FastSync.Demo
import Verif.Streams.Demo
import Verif.Dsign.Demo
import Verif.Dsign.PoolThms
import Verif.Packets.Stamps
import Verif.Caches.Parts
import Verif.Votes.Commit
import Verif.Regulator.Thms
import Verif.NodeCache.Thms
import Verif.NodeCache.FullThms
