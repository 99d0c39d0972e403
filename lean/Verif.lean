import Verif.Props.Serialize
import Verif.Props.Bits
import Verif.Props.Btc
import Verif.Props.Prim
import Verif.Props.MMR
import Verif.Props.Merbinner
import Verif.Props.Proof
import Verif.Props.Seal
import Verif.Props.GuMap
import Verif.Props.SusTool
import Verif.Props.MmrProof
import Verif.Props.Script
import Verif.Props.SigHash
import Verif.Props.MbProof
import Verif.Props.SusText
import Verif.Props.Block
import Verif.Props.ScriptEval
import Verif.Props.Base58
import Verif.Props.Net
import Verif.Props.Bloom
import Verif.Props.SusFlow
import Verif.Props.Spend
import Verif.Props.SpendSeal
import Verif.Props.Declare
import Verif.Props.Rpc
import Verif.Props.RpcNode
import Verif.Props.RpcExamples
import Verif.Props.RpcSeal
import Verif.Props.Conf
import Verif.Props.TxHeap
import Verif.Props.Chain
import Verif.Props.Bootstrap
import Verif.Props.Repr
import Verif.Props.Texts
import Verif.Props.MsgRepr
import Verif.Props.BloomNew
import Verif.Props.Timestamp
import Verif.Props.Difficulty
import Verif.Props.ClassDecl
import Verif.Props.GuLedger
import Verif.Props.BtcEq
import Verif.Props.GuShip
import Verif.Props.Reading
import Verif.Props.OwnPrefix
import Verif.Props.Serializers
import Verif.Props.CloseTx
import Verif.Props.Slices
import Verif.Props.Received
import Verif.Props.MbSubset
import Verif.Props.ProofRepr
import Verif.Props.MbOneKey
import Verif.Props.MmrOneItem
import Verif.Props.ProofTxLost
import Verif.Props.OneTx
import Verif.Props.Base58Repr
import Verif.Props.RpcAddress
import Verif.Props.RpcAbsent
import Verif.Props.Limits
import Verif.Props.DifficultyHeader
import Verif.Props.MsgText
import Verif.Props.VaruintInt
import Verif.Props.Url
import Verif.Props.RpcNumber
import Verif.Props.Key
import Verif.Props.SealPad
import Verif.Props.RpcText
