import Verif.Model.Repr
import Verif.Model.Net
/-!
# Model of the text forms of messages

`BN` abbreviates `lib/python-bitcoinlib/bitcoin/net.py`, `BM` `lib/python-bitcoinlib/bitcoin/messages.py`.  `time.ctime`, which belongs to
the operating system and raises for times it cannot show, is an argument.
-/
namespace Verif.Rp
open Verif Verif.Btc Verif.Sus

/-- A character of the `repr` of a byte string, with `quote` around it. -/
def reprByte (quote : Char) (b : Byte) : Str :=
  if b = 0x5c#8 then ['\\', '\\']
  else if b.toNat = quote.toNat then ['\\', quote]
  else if b = 0x09#8 then ['\\', 't']
  else if b = 0x0a#8 then ['\\', 'n']
  else if b = 0x0d#8 then ['\\', 'r']
  else if 0x20 ≤ b.toNat ∧ b.toNat < 0x7f then [Char.ofNat b.toNat]
  else ['\\', 'x', hexChar (b.toNat / 16), hexChar (b.toNat % 16)]

/-- The `repr`, and the `str`, of a byte string. -/
def reprBytes (bs : Bytes) : Str :=
  let quote := if 0x27#8 ∈ bs ∧ 0x22#8 ∉ bs then '"' else '\''
  'b' :: quote :: (bs.flatMap (reprByte quote) ++ [quote])

/-- `CAddress.__repr__`, BN:56-57. -/
def reprAddress (a : CAddress) : Str :=
  "CAddress(nTime=".toList ++ (dec a.nTime ++ (" nServices=".toList ++ (dec a.nServices ++ (" ip=".toList ++ (a.ip ++ (" port=".toList ++
    (dec a.port ++ ")".toList)))))))

/-- `CInv.typemap`, BN:61-65. -/
def typemap (t : Int) : Py String :=
  if t = 0 then .ok "Error" else if t = 1 then .ok "TX" else if t = 2 then .ok "Block" else if t = 3 then .ok "FilteredBlock"
  else .error .keyError

/-- `CInv.__repr__`, BN:82-83; `hexlify` gives a byte string. -/
def reprInv (i : CInv) : Py Str := do
  let t ← typemap i.type
  return "CInv(type=".toList ++ (t.toList ++ (" hash=".toList ++ ("b'".toList ++ (b2x i.hash ++ "')".toList))))

/-- `CBlockLocator.__repr__`, BN:102-103. -/
def reprLocator (l : CBlockLocator) : Str :=
  "CBlockLocator(nVersion=".toList ++ (dec l.nVersion ++ (" vHave=".toList ++ (reprSeq true (l.vHave.map reprBytes) ++ ")".toList)))

/-- `CAlert.__repr__`, BN:175-176. -/
def reprAlert (a : CAlert) : Str :=
  "CAlert(vchMsg.sz ".toList ++ (decNat a.vchMsg.length ++ (", vchSig.sz ".toList ++ (decNat a.vchSig.length ++ ")".toList)))

/-- The `repr` of something that may be `None`. -/
def reprOr {α} (f : α → Str) : Option α → Str
  | some a => f a
  | none => "None".toList

/-- `msg_version.__repr__`, BM:161-162; `%i` and `%X` of `None` raise. -/
def reprVersion (ctime : Int → Py Str) (m : VersionMsg) : Py Str := do
  let t ← ctime m.nTime
  let n ← orRaise .typeError m.nNonce
  let h ← orRaise .typeError m.nStartingHeight
  return "msg_version(nVersion=".toList ++ (dec m.nVersion ++ (" nServices=".toList ++ (dec m.nServices ++ (" nTime=".toList ++ (t ++
    (" addrTo=".toList ++ (reprAddress m.addrTo ++ (" addrFrom=".toList ++ (reprOr reprAddress m.addrFrom ++ (" nNonce=0x".toList ++
      (zeros 16 ((hexInt n).map Char.toUpper) ++ (" strSubVer=".toList ++ (reprOr reprBytes m.strSubVer ++ (" nStartingHeight=".toList ++
        (dec h ++ ")".toList)))))))))))))))

/-- The `__repr__` of a `CBlock`, which is that of its header with another name of the class, bitcoin/core/__init__.py:434-437. -/
def reprBlock (b : CBlock) : Str := "CBlock".toList ++ (reprHeader b.header).drop "CBlockHeader".length

/-- `__repr__` of each class of messages: BM:161-162, 179-180, 199-200, 219-220, 239-240, 259-260, 282-283, 305-306, 325-326, 345-346,
365-366, 382-383, 402-403, 422-423, 439-440. -/
def reprMsg (ctime : Int → Py Str) : Msg → Py Str
  | .version m => reprVersion ctime m
  | .verack => .ok "msg_verack()".toList
  | .addr as => .ok ("msg_addr(addrs=".toList ++ (reprSeq true (as.map reprAddress) ++ ")".toList))
  | .alert a => .ok ("msg_alert(alert=".toList ++ (reprAlert a ++ ")".toList))
  | .inv is => do
    let ts ← is.mapM reprInv
    return "msg_inv(inv=".toList ++ (reprSeq true ts ++ ")".toList)
  | .getdata is => do
    let ts ← is.mapM reprInv
    return "msg_getdata(inv=".toList ++ (reprSeq true ts ++ ")".toList)
  | .getblocks l h => .ok ("msg_getblocks(locator=".toList ++ (reprLocator l ++ (" hashstop=".toList ++ (b2x h ++ ")".toList))))
  | .getheaders l h => .ok ("msg_getheaders(locator=".toList ++ (reprLocator l ++ (" hashstop=".toList ++ (b2x h ++ ")".toList))))
  | .headers hs => .ok ("msg_headers(headers=".toList ++ (reprSeq true (hs.map reprBlock) ++ ")".toList))
  | .tx t => do
    let s ← reprTx false t
    return "msg_tx(tx=".toList ++ (s ++ ")".toList)
  | .block b => .ok ("msg_block(block=".toList ++ (reprBlock b ++ ")".toList))
  | .getaddr => .ok "msg_getaddr()".toList
  | .ping n => .ok ("msg_ping(0x".toList ++ (hexInt n ++ ")".toList))
  | .pong n => .ok ("msg_pong(0x".toList ++ (hexInt n ++ ")".toList))
  | .mempool => .ok "msg_mempool()".toList

end Verif.Rp
