import Verif.Model.Block
import Verif.Model.Slice
/-!
# Model of lib/python-bitcoinlib/bitcoin/net.py and lib/python-bitcoinlib/bitcoin/messages.py

`BN` abbreviates `lib/python-bitcoinlib/bitcoin/net.py`, `BM` is `lib/python-bitcoinlib/bitcoin/messages.py`, `BS` is
`lib/python-bitcoinlib/bitcoin/core/serialize.py`.

Simplifications:
* `socket.inet_aton` belongs to the operating system and is an argument `aton`; `socket.inet_ntoa` is written out.
* The `protover` of a message, which nothing reads, is left out; that of an address is kept.  Hashes are byte strings (the initial
  value of `CInv.hash` is the number 0, which cannot be written).
* What is printed for an unknown command (BM:105) has no effect, except that a command that is not ASCII raises.
* The time and the random number of a new `msg_version` (BM:120, BM:123) are fields like the others.
-/
namespace Verif.Btc
open Verif

/-- The decimal digits of a byte. -/
def decimal (b : Byte) : List Char := (toString b.toNat).toList

/-- `socket.inet_ntoa` of four bytes. -/
def ntoa : Bytes → List Char
  | [] => []
  | [b] => decimal b
  | b :: bs => decimal b ++ '.' :: ntoa bs

/-- `PROTO_VERSION`, BN:25. -/
def PROTO_VERSION : Int := 60002
/-- `CADDR_TIME_VERSION`, BN:26. -/
def CADDR_TIME_VERSION : Int := 31402

/-- `CAddress`, BN:28-35. -/
structure CAddress where
  protover : Int := PROTO_VERSION
  nTime : Int := 0
  nServices : Int := 1
  pchReserved : Bytes := List.replicate 10 0#8 ++ [0xff#8, 0xff#8]
  ip : List Char := ['0', '.', '0', '.', '0', '.', '0']
  port : Int := 0
deriving DecidableEq, Repr

/-- `CAddress.stream_deserialize`, BN:37-46; a new address (BN:39) has the default `protover`. -/
def CAddress.deser (withoutTime : Bool) : P CAddress := do
  let nTime ← (if PROTO_VERSION ≥ CADDR_TIME_VERSION ∧ withoutTime = false then do
      let b ← serRead 4
      return unpackU b
    else return 0 : P Int)
  let nServices ← serRead 8
  let pchReserved ← serRead 12
  let ip ← serRead 4
  let port ← serRead 2
  return { nTime, nServices := unpackU nServices, pchReserved, ip := ntoa ip, port := unpackU port.reverse }

/-- `CAddress.stream_serialize`, BN:48-54. -/
def CAddress.ser (aton : List Char → Py Bytes) (withoutTime : Bool) (a : CAddress) : Py Bytes := do
  let t ← (if a.protover ≥ CADDR_TIME_VERSION ∧ withoutTime = false then packU 4 a.nTime else return [] : Py Bytes)
  let s ← packU 8 a.nServices
  let i ← aton a.ip
  let p ← packU 2 a.port
  return t ++ s ++ a.pchReserved ++ i ++ p.reverse

/-- `CInv`, BN:60-69. -/
structure CInv where
  type : Int
  hash : Bytes
deriving DecidableEq, Repr

/-- `CInv.stream_deserialize`, BN:71-76. -/
def CInv.deser : P CInv := do
  let type ← serRead 4
  let hash ← serRead 32
  return ⟨unpackS 4 type, hash⟩

/-- `CInv.stream_serialize`, BN:78-80. -/
def CInv.ser (i : CInv) : Py Bytes := do
  let a ← packS 4 i.type
  return a ++ i.hash

/-- The loop body of `uint256VectorSerializer.stream_serialize`, BS:256-258. -/
def serUint256 (u : Bytes) : Py Bytes := do
  pyAssert (u.length == 32)
  return u

/-- `CBlockLocator`, BN:86-89. -/
structure CBlockLocator where
  nVersion : Int := PROTO_VERSION
  vHave : List Bytes := []
deriving DecidableEq, Repr

/-- `CBlockLocator.stream_deserialize`, BN:91-96, with BS:260-266. -/
def CBlockLocator.deser : P CBlockLocator := do
  let nVersion ← serRead 4
  let vHave ← deserVector (serRead 32)
  return ⟨unpackS 4 nVersion, vHave⟩

/-- `CBlockLocator.stream_serialize`, BN:98-100, with BS:253-258. -/
def CBlockLocator.ser (l : CBlockLocator) : Py Bytes := do
  let a ← packS 4 l.nVersion
  let b ← serVector serUint256 l.vHave
  return a ++ b

/-- `CUnsignedAlert`, BN:106-120; the lists are those of BN:113 and BN:116. -/
structure CUnsignedAlert where
  nVersion : Int := 1
  nRelayUntil : Int := 0
  nExpiration : Int := 0
  nID : Int := 0
  nCancel : Int := 0
  setCancel : List Int := []
  nMinVer : Int := 0
  nMaxVer : Int := 0
  setSubVer : List Bytes := []
  nPriority : Int := 0
  strComment : Bytes := []
  strStatusBar : Bytes := []
  strReserved : Bytes := []
deriving DecidableEq, Repr

/-- `CUnsignedAlert.stream_deserialize`, BN:122-138: the name `intVectorSerialzer` (BN:130) is not imported. -/
def CUnsignedAlert.deser : P CUnsignedAlert := do
  let _ ← serRead 4
  let _ ← serRead 8
  let _ ← serRead 8
  let _ ← serRead 4
  let _ ← serRead 4
  P.fail .nameError

/-- `CUnsignedAlert.stream_serialize`, BN:140-153: there is no `ser_int_vector` (BN:146). -/
def CUnsignedAlert.ser (a : CUnsignedAlert) : Py Bytes := do
  let _ ← packS 4 a.nVersion
  let _ ← packS 8 a.nRelayUntil
  let _ ← packS 8 a.nExpiration
  let _ ← packS 4 a.nID
  let _ ← packS 4 a.nCancel
  .error .nameError

/-- `CAlert`, BN:159-162. -/
structure CAlert where
  vchMsg : Bytes := []
  vchSig : Bytes := []
deriving DecidableEq, Repr

/-- `CAlert.stream_deserialize`, BN:164-169; `VarStringSerializer` (BS:285-297) does what `BytesSerializer` does. -/
def CAlert.deser : P CAlert := do
  let m ← deserBytes
  let s ← deserBytes
  return ⟨m, s⟩

/-- `CAlert.stream_serialize`, BN:171-173. -/
def CAlert.ser (a : CAlert) : Py Bytes := do
  let m ← serBytes a.vchMsg
  let s ← serBytes a.vchSig
  return m ++ s

/-- The fields of `msg_version`, BM:116-125; `none` is `None`. -/
structure VersionMsg where
  nVersion : Int
  nServices : Int
  nTime : Int
  addrTo : CAddress
  addrFrom : Option CAddress
  nNonce : Option Int
  strSubVer : Option Bytes
  nStartingHeight : Option Int
deriving DecidableEq, Repr

/-- `msg_version.msg_deser`, BM:127-149. -/
def VersionMsg.deser : P VersionMsg := do
  let v ← serRead 4
  let v := unpackS 4 v
  let v := if v = 10300 then 300 else v
  let s ← serRead 8
  let t ← serRead 8
  let dst ← CAddress.deser true
  if v ≥ 106 then do
    let frm ← CAddress.deser true
    let n ← serRead 8
    let sub ← deserBytes
    if v ≥ 209 then do
      let h ← serRead 4
      return ⟨v, unpackU s, unpackS 8 t, dst, some frm, some (unpackU n), some sub, some (unpackS 4 h)⟩
    else return ⟨v, unpackU s, unpackS 8 t, dst, some frm, some (unpackU n), some sub, none⟩
  else return ⟨v, unpackU s, unpackS 8 t, dst, none, none, none, none⟩

/-- The value of an attribute that is not `None`, and what using `None` raises. -/
def orRaise {α} (e : PyErr) : Option α → Py α
  | some a => .ok a
  | none => .error e

/-- `msg_version.msg_ser`, BM:151-159. -/
def VersionMsg.ser (aton : List Char → Py Bytes) (m : VersionMsg) : Py Bytes := do
  let v ← packS 4 m.nVersion
  let s ← packU 8 m.nServices
  let t ← packS 8 m.nTime
  let dst ← m.addrTo.ser aton true
  let f ← orRaise .attributeError m.addrFrom
  let frm ← f.ser aton true
  let n ← orRaise .structError m.nNonce
  let n ← packU 8 n
  let sub ← orRaise .typeError m.strSubVer
  let sub ← serBytes sub
  let h ← orRaise .structError m.nStartingHeight
  let h ← packS 4 h
  return v ++ s ++ t ++ dst ++ frm ++ n ++ sub ++ h

/-- The message classes, BM:442-445. -/
inductive Msg where
  | version (m : VersionMsg)
  | verack
  | addr (addrs : List CAddress)
  | alert (alert : CAlert)
  | inv (inv : List CInv)
  | getdata (inv : List CInv)
  | getblocks (locator : CBlockLocator) (hashstop : Bytes)
  | getheaders (locator : CBlockLocator) (hashstop : Bytes)
  | headers (headers : List CBlock)
  | tx (tx : CTransaction)
  | block (block : CBlock)
  | getaddr
  | ping (nonce : Int)
  | pong (nonce : Int)
  | mempool
deriving DecidableEq, Repr

/-- The bytes of an ASCII literal. -/
def ascii (s : String) : Bytes := s.toList.map fun c => BitVec.ofNat 8 c.toNat

/-- `command` of each class: BM:114, 166, 184, 204, 224, 244, 264, 287, 310, 330, 350, 370, 387, 407, 427. -/
def Msg.command : Msg → Bytes
  | version _ => ascii "version"
  | verack => ascii "verack"
  | addr _ => ascii "addr"
  | alert _ => ascii "alert"
  | inv _ => ascii "inv"
  | getdata _ => ascii "getdata"
  | getblocks _ _ => ascii "getblocks"
  | getheaders _ _ => ascii "getheaders"
  | headers _ => ascii "headers"
  | tx _ => ascii "tx"
  | block _ => ascii "block"
  | getaddr => ascii "getaddr"
  | ping _ => ascii "ping"
  | pong _ => ascii "pong"
  | mempool => ascii "mempool"

/-- `msg_getblocks.msg_ser` and `msg_getheaders.msg_ser`: BM:278-280, BM:301-303. -/
def serLocator (l : CBlockLocator) (hashstop : Bytes) : Py Bytes := do
  let a ← l.ser
  return a ++ hashstop

/-- `msg_ser` of each class: BM:151-159, 176-177, 196-197, 216-217, 236-237, 256-257, 278-280, 301-303, 322-323, 342-343, 362-363,
379-380, 399-400, 419-420, 436-437. -/
def Msg.ser (aton : List Char → Py Bytes) : Msg → Py Bytes
  | version m => m.ser aton
  | verack => .ok []
  | addr as => serVector (CAddress.ser aton false) as
  | alert a => a.ser
  | inv is => serVector CInv.ser is
  | getdata is => serVector CInv.ser is
  | getblocks l h => serLocator l h
  | getheaders l h => serLocator l h
  | headers hs => serVector CBlock.ser hs
  | tx t => t.ser
  | block b => b.ser
  | getaddr => .ok []
  | ping n => packU 8 n
  | pong n => packU 8 n
  | mempool => .ok []

/-- `msg_getblocks.msg_deser` and `msg_getheaders.msg_deser`: BM:271-276, BM:294-299. -/
def deserLocator : P (CBlockLocator × Bytes) := do
  let l ← CBlockLocator.deser
  let h ← serRead 32
  return (l, h)

/-- `messagemap`, BM:447-449, with the `msg_deser` of each class: BM:127-149, 172-174, 190-194, 210-214, 230-234, 250-254, 271-276,
294-299, 316-320, 336-340, 356-360, 375-377, 393-397, 413-417, 432-434. -/
def messagemap (H : HashFns) : List (Bytes × P Msg) := [
  (ascii "version", do let m ← VersionMsg.deser; return .version m),
  (ascii "verack", return .verack),
  (ascii "addr", do let a ← deserVector (CAddress.deser false); return .addr a),
  (ascii "alert", do let a ← CAlert.deser; return .alert a),
  (ascii "inv", do let i ← deserVector CInv.deser; return .inv i),
  (ascii "getdata", do let i ← deserVector CInv.deser; return .getdata i),
  (ascii "getblocks", do let (l, h) ← deserLocator; return .getblocks l h),
  (ascii "getheaders", do let (l, h) ← deserLocator; return .getheaders l h),
  (ascii "headers", do let h ← deserVector (CBlock.deser H); return .headers h),
  (ascii "tx", do let t ← CTransaction.deser; return .tx t),
  (ascii "block", do let b ← CBlock.deser H; return .block b),
  (ascii "getaddr", return .getaddr),
  (ascii "ping", do let n ← serRead 8; return .ping (unpackU n)),
  (ascii "pong", do let n ← serRead 8; return .pong (unpackU n)),
  (ascii "mempool", return .mempool)]

/-- `MsgSerializable.to_bytes`, BM:54-70; `magic` is `params.MESSAGE_START`. -/
def Msg.toBytes (H : HashFns) (aton : List Char → Py Bytes) (magic : Bytes) (m : Msg) : Py Bytes := do
  let body ← m.ser aton
  let l ← packU 4 body.length
  return magic ++ m.command ++ List.replicate (12 - m.command.length) 0#8 ++ l ++ (H.hash256 body).take 4 ++ body

/-- `ser_read` (BS:70-82) of a number that may be negative: `f.read` then returns all that is left. -/
def serReadInt (n : Int) : P Bytes := fun s => if n < 0 then .ok (s, []) else serRead n.toNat s

/-- `MsgSerializable.stream_deserialize`, BM:77-106; `none` is the `None` returned for an unknown command. -/
def Msg.streamDeser (H : HashFns) (magic : Bytes) : P (Option Msg) := do
  let head ← serRead 24
  if head.take 4 ≠ magic then P.fail .valueError
  else do
    let command := ((head.drop 4).take 12).takeWhile (· ≠ 0#8)
    let msglen := unpackS 4 ((head.drop 16).take 4)
    let checksum := (head.drop 20).take 4
    let more ← serReadInt msglen
    let msg ← P.lift (pySlice (head ++ more) ⟨some 24, some (24 + msglen), none⟩)
    if checksum ≠ (H.hash256 msg).take 4 then P.fail .valueError
    else match (messagemap H).lookup command with
      | some de => do
        let r ← P.lift (de msg)
        return some r.1
      | none => if command.all (·.toNat < 128) then return none else P.fail .valueError

/-- `MainParams.MESSAGE_START`, lib/python-bitcoinlib/bitcoin/__init__.py:17. -/
def mainMagic : Bytes := [0xf9#8, 0xbe#8, 0xb4#8, 0xd9#8]
/-- `TestNetParams.MESSAGE_START`, lib/python-bitcoinlib/bitcoin/__init__.py:30. -/
def testMagic : Bytes := [0x0b#8, 0x11#8, 0x09#8, 0x07#8]
/-- `RegTestParams.MESSAGE_START`, lib/python-bitcoinlib/bitcoin/__init__.py:40. -/
def regMagic : Bytes := [0xfa#8, 0xbf#8, 0xb5#8, 0xda#8]

/-- `MsgSerializable.from_bytes`, BM:72-75: whatever follows the message is ignored. -/
def Msg.fromBytes (H : HashFns) (b : Bytes) : Py (Option Msg) := do
  let r ← Msg.streamDeser H mainMagic b
  return r.1

end Verif.Btc
