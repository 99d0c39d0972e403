import Verif.Model.Net
/-!
# What is expected of messages between nodes
-/
namespace Verif.Btc
open Verif

/-- What is assumed of `socket.inet_aton`: it gives four bytes, and understands what `inet_ntoa` writes. -/
structure Inet (aton : List Char → Py Bytes) : Prop where
  four : ∀ {t b}, aton t = .ok b → b.length = 4
  ntoa : ∀ {b : Bytes}, b.length = 4 → aton (ntoa b) = .ok b

/-- The reserved field has the length of the protocol; the time is written if it is to be read. -/
def CAddress.Fits (withoutTime : Bool) (a : CAddress) : Prop :=
  a.pchReserved.length = 12 ∧ (withoutTime = false → 31402 ≤ a.protover)

/-- Fields have the lengths of the protocol, and a version is one of those that send all fields. -/
def Msg.Fits : Msg → Prop
  | .version m => m.addrTo.Fits true ∧ (∀ a, m.addrFrom = some a → a.Fits true) ∧ 209 ≤ m.nVersion ∧ m.nVersion ≠ 10300
  | .addr as => ∀ a ∈ as, a.Fits false
  | .inv is => ∀ i ∈ is, i.hash.length = 32
  | .getdata is => ∀ i ∈ is, i.hash.length = 32
  | .getblocks _ h => h.length = 32
  | .getheaders _ h => h.length = 32
  | _ => True

/-- The address as the other side sees it: without a time if that is not sent, the IP address written as `inet_ntoa` does. -/
def CAddress.received (aton : List Char → Py Bytes) (withoutTime : Bool) (a : CAddress) : CAddress :=
  { nTime := if withoutTime then 0 else a.nTime
    nServices := a.nServices
    pchReserved := a.pchReserved
    ip := match aton a.ip with
      | .ok i => ntoa i
      | .error _ => a.ip
    port := a.port }

/-- The message as the other side sees it. -/
def Msg.received (aton : List Char → Py Bytes) : Msg → Msg
  | .version m => .version { m with addrTo := m.addrTo.received aton true, addrFrom := m.addrFrom.map (·.received aton true) }
  | .addr as => .addr (as.map (·.received aton false))
  | m => m

/-- A `version` as the other side sees it: 10300 is taken for 300, versions before 106 have no second address, number and name, those
before 209 no height. -/
def VersionMsg.arrives (aton : List Char → Py Bytes) (m : VersionMsg) : VersionMsg :=
  let v := if m.nVersion = 10300 then 300 else m.nVersion
  { m with
    nVersion := v
    addrTo := m.addrTo.received aton true
    addrFrom := if 106 ≤ v then m.addrFrom.map (·.received aton true) else none
    nNonce := if 106 ≤ v then m.nNonce else none
    strSubVer := if 106 ≤ v then m.strSubVer else none
    nStartingHeight := if 209 ≤ v then m.nStartingHeight else none }

/-- Nothing of an address is lost when it is sent. -/
def CAddress.Plain (withoutTime : Bool) (a : CAddress) : Prop :=
  a.protover = 60002 ∧ (withoutTime = true → a.nTime = 0) ∧ ∃ i : Bytes, i.length = 4 ∧ a.ip = ntoa i

/-- Nothing of a message is lost when it is sent. -/
def Msg.Plain : Msg → Prop
  | .version m => m.addrTo.Plain true ∧ ∀ a, m.addrFrom = some a → a.Plain true
  | .addr as => ∀ a ∈ as, a.Plain false
  | _ => True

/-- The bytes of a message on the wire: four bytes for the network, twelve for the command, four for the length of the body, four
for its checksum, the body. -/
inductive Frame (H : HashFns) (magic : Bytes) : Bytes → Bytes → Bytes → Prop
  | mk (command body : Bytes) : command.length = 12 → body.length < 2 ^ 32 →
      Frame H magic command body (magic ++ command ++ leBytes 4 body.length ++ (H.hash256 body).take 4 ++ body)

/-- What the body of a message stands for, given its command: an object of the class for the command, `none` if there is no such
class.  What follows the fields of the class in the body is ignored. -/
def decoded (H : HashFns) (command body : Bytes) : Py (Option Msg) :=
  match (messagemap H).lookup (command.takeWhile (· ≠ 0#8)) with
  | some de =>
    match de body with
    | .ok (m, _) => .ok (some m)
    | .error e => .error e
  | none => if (command.takeWhile (· ≠ 0#8)).all (·.toNat < 128) then .ok none else .error .valueError

/-- The bytes taken for the body if the length is `n`, from 2³¹ up to 2³², which is read as a negative number. -/
def negativeBody (n : Nat) (tail : Bytes) : Bytes :=
  if 2 ^ 32 - 24 ≤ n then [] else tail.take (tail.length - (2 ^ 32 - 24 - n))

end Verif.Btc
