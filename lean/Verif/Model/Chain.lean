import Verif.Model.Block
import Verif.Model.Base58
import Verif.Model.Net
import Verif.Model.Conf
import Verif.Model.Sha256
/-!
# Model of the chain parameters, lib/python-bitcoinlib/bitcoin/__init__.py and core/__init__.py:538-578

`BI` is `lib/python-bitcoinlib/bitcoin/__init__.py`, `BC` is `core/__init__.py` beside it.

The classes of parameters with what they inherit, the two global variables and `SelectParams`, and the functions of the library that look at the variables, or
that do not.

Simplifications: a genesis block is given as the bytes that are deserialized when the module is loaded; the lists of DNS seeds, which the library never reads, are left out.
-/
namespace Verif.Btc
open Verif
open Verif.Sus (Str)

/-- The attributes of `CoreChainParams` and its subclasses, BC:538-543. -/
structure CoreParams where
  genesis : Option Bytes
  limit : Option Nat
  halving : Option Nat
  name : Option Str
deriving DecidableEq

/-- `CoreChainParams`, BC:538-543. -/
def coreChain : CoreParams := ⟨none, none, none, none⟩

/-- What follows the headers in the three texts at BC:547, BC:553 and BC:557. -/
def genesisTxs : Bytes :=
  hex "0101000000010000000000000000000000000000000000000000000000000000000000000000ffff" ++ hex "ffff4d04ffff001d0104455468652054696d65732030332f4a616e2f32303039204368616e63656c" ++
  hex "6c6f72206f6e206272696e6b206f66207365636f6e64206261696c6f757420666f722062616e6b73" ++ hex "ffffffff0100f2052a01000000434104678afdb0fe5548271967f1a67130b7105cd6a828e03909a6" ++
  hex "7962e0ea1f61deb649f6bc3f4cef38c4f35504e51ec112de5c384df7ba0b8d578a4c702b6bf11d5f" ++ hex "ac00000000"

/-- `CoreMainParams`, BC:545-549.  In Python, `2**256-1 >> 32` is `(2**256-1) >> 32`. -/
def coreMain : CoreParams := { coreChain with
  name := some "mainnet".toList
  genesis := some (hex "0100000000000000000000000000000000000000000000000000000000000000000000003ba3edfd" ++ hex "7a7b12b27ac72c3e67768f617fc81bc3888a51323a9fb8aa4b1e5e4a29ab5f49ffff001d1dac2b7c" ++ genesisTxs)
  halving := some 210000
  limit := some ((2 ^ 256 - 1) >>> 32) }

/-- `CoreTestNetParams`, BC:551-553. -/
def coreTest : CoreParams := { coreMain with
  name := some "testnet".toList
  genesis := some (hex "0100000000000000000000000000000000000000000000000000000000000000000000003ba3edfd" ++ hex "7a7b12b27ac72c3e67768f617fc81bc3888a51323a9fb8aa4b1e5e4adae5494dffff001d1aa4ae18" ++ genesisTxs) }

/-- `CoreRegTestParams`, BC:555-559. -/
def coreReg : CoreParams := { coreTest with
  name := some "regtest".toList
  genesis := some (hex "0100000000000000000000000000000000000000000000000000000000000000000000003ba3edfd" ++ hex "7a7b12b27ac72c3e67768f617fc81bc3888a51323a9fb8aa4b1e5e4adae5494dffff7f2002000000" ++ genesisTxs)
  halving := some 150
  limit := some ((2 ^ 256 - 1) >>> 1) }

/-- The attributes of `MainParams`, `TestNetParams` and `RegTestParams`. -/
structure ChainParams extends CoreParams where
  magic : Bytes
  port : Int
  rpcPort : Int
  prefixes : Prefixes
deriving DecidableEq

/-- `MainParams`, BI:16-27.  It is a subclass of `CoreChainParams`, not of `CoreMainParams`. -/
def mainParams : ChainParams := { coreChain with magic := mainMagic, port := 8333, rpcPort := 8332, prefixes := mainPrefixes }
/-- `TestNetParams`, BI:29-37. -/
def testParams : ChainParams := { coreTest with magic := testMagic, port := 18333, rpcPort := 18332, prefixes := testPrefixes }
/-- `RegTestParams`, BI:39-46. -/
def regParams : ChainParams := { coreReg with magic := regMagic, port := 18444, rpcPort := 18332, prefixes := testPrefixes }

/-- The variables `bitcoin.params` and `bitcoin.core.coreparams`. -/
structure Globals where
  params : ChainParams
  core : CoreParams
deriving DecidableEq

/-- What they are when the modules have been loaded: BI:54, BC:562. -/
def atImport : Globals := ⟨mainParams, coreMain⟩

/-- `_SelectCoreParams`, BC:564-578. -/
def selectCore (name : Str) (g : Globals) : Py Unit × Globals :=
  if name = "mainnet".toList then (.ok (), { g with core := coreMain })
  else if name = "testnet".toList then (.ok (), { g with core := coreTest })
  else if name = "regtest".toList then (.ok (), { g with core := coreReg })
  else (.error .valueError, g)

/-- `SelectParams`, BI:56-73. -/
def selectParams (name : Str) (g : Globals) : Py Unit × Globals :=
  match selectCore name g with
  | (.error e, g) => (.error e, g)
  | (.ok (), g) =>
    if name = "mainnet".toList then (.ok (), ⟨mainParams, mainParams.toCoreParams⟩)
    else if name = "testnet".toList then (.ok (), ⟨testParams, testParams.toCoreParams⟩)
    else if name = "regtest".toList then (.ok (), ⟨regParams, regParams.toCoreParams⟩)
    else (.error .valueError, g)

/-- Calls of `SelectParams`, one after another; what they raise is caught. -/
def selects : List Str → Globals → Globals
  | [], g => g
  | n :: ns, g => selects ns (selectParams n g).2

/-- `CBitcoinAddress(s)`: wallet.py:41-44 looks at `bitcoin.params`. -/
def addressNow (H : HashFns) (g : Globals) (s : Str) : Py B58Data := newB58 H g.params.prefixes .address s

/-- `CBitcoinSecret(s)`: wallet.py:240 looks at `bitcoin.params`. -/
def secretNow (H : HashFns) (g : Globals) (s : Str) : Py (B58Data × CKeyArgs) := newSecret H g.params.prefixes s

/-- `CheckBlock`: BC:644 looks at `coreparams`. -/
def checkBlockNow (H : HashFns) (g : Globals) (b : CBlock) (pow merkle : Bool) (now : Int) : Py Unit := checkBlock H g.core.limit b pow merkle now

/-- `MsgSerializable.stream_serialize`, messages.py:108-110: `to_bytes()`, with the default argument `MainParams()` of messages.py:54. -/
def writeNow (H : HashFns) (aton : Str → Py Bytes) (_ : Globals) (m : Msg) : Py Bytes := m.toBytes H aton mainParams.magic

/-- `MsgSerializable.stream_deserialize(f)`, messages.py:77, with its default argument `MainParams()`. -/
def readNow (H : HashFns) (_ : Globals) : P (Option Msg) := Msg.streamDeser H mainParams.magic

/-- `RawProxy()`, rpc.py:91-93 looks at `bitcoin.params` if `bitcoin.conf` has no port. -/
def connectNow (g : Globals) (lines : List Str) : Py Rpc.Conn := Rpc.connectConf lines g.params.rpcPort

end Verif.Btc
