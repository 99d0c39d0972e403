import Verif.Model.Chain
import Verif.Model.Rpc
/-!
# Model of lib/python-bitcoinlib/examples/timestamp-op-ret.py

`TS` is this file.  The arguments, the files they name, the node it talks to, and how it ends.

Simplifications: what is printed is left out; the `hash` of an amount (TS:49) decides only the order of the unspent outputs, which is left out with everything after
TS:58, since TS:58 is never passed.
-/
namespace Verif.Stamp
open Verif Btc Rpc
open Verif.Sus (Str unhex)

/-- `__all__` of `bitcoin.core`, lib/python-bitcoinlib/bitcoin/core/__init__.py:736-773. -/
def coreNames : List String :=
  ["Hash", "Hash160", "COIN", "MAX_MONEY", "MAX_BLOCK_SIZE", "MAX_BLOCK_SIGOPS", "MoneyRange", "x", "b2x", "lx", "b2lx", "str_money_value",
   "ValidationError", "COutPoint", "CMutableOutPoint", "CTxIn", "CMutableTxIn", "CTxOut", "CMutableTxOut", "CTransaction", "CMutableTransaction",
   "CBlockHeader", "CBlock", "CoreChainParams", "CoreMainParams", "CoreTestNetParams", "CoreRegTestParams", "CheckTransactionError",
   "CheckTransaction", "CheckBlockHeaderError", "CheckProofOfWorkError", "CheckProofOfWork", "CheckBlockHeader", "CheckBlockError",
   "GetLegacySigOpCount", "CheckBlock"]

/-- `__all__` of `bitcoin.core.script`, lib/python-bitcoinlib/bitcoin/core/script.py:868-1011. -/
def scriptNames : List String :=
  ["MAX_SCRIPT_SIZE", "MAX_SCRIPT_ELEMENT_SIZE", "MAX_SCRIPT_OPCODES", "OPCODE_NAMES", "CScriptOp", "OP_0", "OP_FALSE", "OP_PUSHDATA1",
   "OP_PUSHDATA2", "OP_PUSHDATA4", "OP_1NEGATE", "OP_RESERVED", "OP_1", "OP_TRUE", "OP_2", "OP_3", "OP_4", "OP_5", "OP_6", "OP_7", "OP_8", "OP_9",
   "OP_10", "OP_11", "OP_12", "OP_13", "OP_14", "OP_15", "OP_16", "OP_NOP", "OP_VER", "OP_IF", "OP_NOTIF", "OP_VERIF", "OP_VERNOTIF", "OP_ELSE",
   "OP_ENDIF", "OP_VERIFY", "OP_RETURN", "OP_TOALTSTACK", "OP_FROMALTSTACK", "OP_2DROP", "OP_2DUP", "OP_3DUP", "OP_2OVER", "OP_2ROT", "OP_2SWAP",
   "OP_IFDUP", "OP_DEPTH", "OP_DROP", "OP_DUP", "OP_NIP", "OP_OVER", "OP_PICK", "OP_ROLL", "OP_ROT", "OP_SWAP", "OP_TUCK", "OP_CAT", "OP_SUBSTR",
   "OP_LEFT", "OP_RIGHT", "OP_SIZE", "OP_INVERT", "OP_AND", "OP_OR", "OP_XOR", "OP_EQUAL", "OP_EQUALVERIFY", "OP_RESERVED1", "OP_RESERVED2",
   "OP_1ADD", "OP_1SUB", "OP_2MUL", "OP_2DIV", "OP_NEGATE", "OP_ABS", "OP_NOT", "OP_0NOTEQUAL", "OP_ADD", "OP_SUB", "OP_MUL", "OP_DIV", "OP_MOD",
   "OP_LSHIFT", "OP_RSHIFT", "OP_BOOLAND", "OP_BOOLOR", "OP_NUMEQUAL", "OP_NUMEQUALVERIFY", "OP_NUMNOTEQUAL", "OP_LESSTHAN", "OP_GREATERTHAN",
   "OP_LESSTHANOREQUAL", "OP_GREATERTHANOREQUAL", "OP_MIN", "OP_MAX", "OP_WITHIN", "OP_RIPEMD160", "OP_SHA1", "OP_SHA256", "OP_HASH160",
   "OP_HASH256", "OP_CODESEPARATOR", "OP_CHECKSIG", "OP_CHECKSIGVERIFY", "OP_CHECKMULTISIG", "OP_CHECKMULTISIGVERIFY", "OP_NOP1", "OP_NOP2",
   "OP_NOP3", "OP_NOP4", "OP_NOP5", "OP_NOP6", "OP_NOP7", "OP_NOP8", "OP_NOP9", "OP_NOP10", "OP_SMALLINTEGER", "OP_PUBKEYS", "OP_PUBKEYHASH",
   "OP_PUBKEY", "OP_INVALIDOPCODE", "OPCODES_BY_NAME", "DISABLED_OPCODES", "CScriptInvalidError", "CScriptTruncatedPushDataError", "CScript",
   "SCRIPT_VERIFY_P2SH", "SCRIPT_VERIFY_STRICTENC", "SCRIPT_VERIFY_EVEN_S", "SCRIPT_VERIFY_NOCACHE", "SIGHASH_ALL", "SIGHASH_NONE", "SIGHASH_SINGLE",
   "SIGHASH_ANYONECANPAY", "FindAndDelete", "RawSignatureHash", "SignatureHash"]

/-- The global names at TS:58, other than Python's own: TS:16-28, TS:32-60. -/
def globalNames : List String := ["sys", "hashlib", "bitcoin"] ++ coreNames ++ scriptNames ++
  ["proxy", "digests", "f", "fd", "exp", "digest", "txouts", "unspent", "txins", "value_in", "change_addr", "change_pubkey", "change_out"]

/-- The use of a name: `NameError` if there is none. -/
def useName (n : String) : Py Unit := if n ∈ globalNames then .ok () else .error .nameError

/-- What `open` and `read` give. -/
inductive File where
  | data (b : Bytes)
  | notFound
  | ioError

/-- The digests, TS:32-44. -/
def digests (H : HashFns) (files : Str → File) : List Str → Py (List Bytes)
  | [] => .ok []
  | f :: fs =>
    match files f with
    | .data b => do
      let ds ← digests H files fs
      return H.hash256 b :: ds
    | .notFound =>
      if f.length = 40 ∨ f.length = 64 then do
        let d ← unhex f
        let ds ← digests H files fs
        return d :: ds
      else .error .fileNotFound
    | .ioError => digests H files fs

/-- `d['pubkey']`: bytes, if `validateaddress` put it there. -/
def pubkeyOf (d : Dict) : Py Bytes :=
  match d.lookup (T "pubkey") with
  | some (.bytes b) => .ok b
  | some _ => .error .typeError
  | none => .error .keyError

section
variable {σ : Type} (S : Server σ) (H : HashFns) (p : Prefixes)

/-- `unspent[-1]`, TS:51. -/
def last (unspent : List Dict) : Py Dict :=
  match unspent.getLast? with
  | some d => .ok d
  | none => .error .indexError

/-- One digest, TS:47-77. -/
def stamp (_digest : Bytes) : RM σ Unit := do
  let unspent ← listunspent S H p 0 9999999 none
  let _ ← RM.lift (last unspent)
  let addr ← getnewaddress S H p none
  let d ← validateaddress S H p addr
  let pubkey ← RM.lift (pubkeyOf d)
  let _ ← RM.lift (encodePushdata pubkey)
  RM.lift (useName "script")

/-- The loop, TS:46. -/
def stampAll : List Bytes → RM σ Unit
  | [] => pure ()
  | d :: ds => do
    stamp S H p d
    stampAll ds

end

/-- The program, TS:28-77.  `argv` are the arguments after the name of the program. -/
def run {σ : Type} (H : HashFns) (files : Str → File) (lines : List Str) (node : Conn → Server σ) (s : σ) (argv : List Str) : Except RErr Unit × σ :=
  match connectNow atImport lines with
  | .error e => (.error (.py e), s)
  | .ok conn =>
    if argv = [] then (.error (.py .assertion), s)
    else match digests H files argv with
      | .error e => (.error (.py e), s)
      | .ok ds =>
        let r := stampAll (node conn) H atImport.params.prefixes ds ⟨0, s⟩
        (r.1, r.2.node)

end Verif.Stamp
