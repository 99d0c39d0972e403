import Verif.Model.SusTool
/-!
# Model of `RawProxy.__init__`, lib/python-bitcoinlib/bitcoin/rpc.py:59-128

`RPC` is `lib/python-bitcoinlib/bitcoin/rpc.py`.  Where the server is found, and which name and password are sent to it: from `bitcoin.conf`, or from a URL.

Simplifications:
* `urlparse` is modelled as it is in Python 3.6 for URLs that begin with `http://` or `https://`; later versions remove tabs and line ends first, and raise
  `ValueError` for some texts in brackets and some characters outside ASCII.
* White space, upper case letters and digits outside ASCII are treated as any other character.
* The file is given as its lines.  Finding and opening it is not modelled.
* `base64` and `utf8` are not modelled: the text that is encoded in the header is the result.  Making a connection object succeeds.
-/
namespace Verif.Rpc
open Verif Sus

/-- What `str.strip` removes. -/
def confSpace (c : Char) : Bool := isSpace c || (28 ≤ c.toNat && c.toNat ≤ 31)

/-- `s.strip()`. -/
def confStrip (s : Str) : Str := ((s.dropWhile confSpace).reverse.dropWhile confSpace).reverse

/-- The body of the loop over the lines, RPC:84-89. -/
def confLine (line : Str) : Option (Str × Str) :=
  let l := line.takeWhile (· ≠ '#')
  if '=' ∈ l then some (confStrip (l.takeWhile (· ≠ '=')), confStrip ((l.dropWhile (· ≠ '=')).drop 1)) else none

/-- The loop, RPC:83-89: what is assigned later replaces what was before. -/
def confGet (lines : List Str) (k : String) : Option Str := (((lines.filterMap confLine).filter fun kv => kv.1 = k.toList).getLast?).map (·.2)

/-- `conf['rpcssl']`, RPC:94-101. -/
def confSsl (s : Str) : Py Bool :=
  let l := s.map Char.toLower
  if l = "0".toList ∨ l = "false".toList then .ok false
  else if l = "1".toList ∨ l = "true".toList then .ok true
  else .error .valueError

/-- `conf[k]`. -/
def confNeed (lines : List Str) (k : String) : Py Str :=
  match confGet lines k with
  | some v => .ok v
  | none => .error .keyError

/-- The port, RPC:91-93. -/
def confPort (lines : List Str) (port : Int) : Py Int :=
  match confGet lines "rpcport" with
  | some s => pyInt s
  | none => .ok port

/-- `'%s:%s@localhost:%d'`, RPC:103-106, without the scheme. -/
def confRest (user password : Str) (port : Int) : Str := user ++ ':' :: (password ++ ("@localhost:".toList ++ dec port))

/-- `service_url`, RPC:81-106: whether it is `https`, and what comes after the `//`.  `port` is `service_port`, or the default of the chain. -/
def confUrl (lines : List Str) (port : Int) : Py (Bool × Str) := do
  let p ← confPort lines port
  let ssl ← confSsl ((confGet lines "rpcssl").getD "0".toList)
  let u ← confNeed lines "rpcuser"
  let w ← confNeed lines "rpcpassword"
  return (ssl, confRest u w p)

/-- `s.rpartition(c)`: what is before and after the last `c`; without one, nothing and everything. -/
def rpart (c : Char) (s : Str) : Option Str × Str :=
  if c ∈ s then (some (((s.reverse.dropWhile (· ≠ c)).drop 1).reverse), (s.reverse.takeWhile (· ≠ c)).reverse) else (none, s)

/-- `s.partition(c)`: what is before and after the first `c`. -/
def lpart (c : Char) (s : Str) : Str × Option Str :=
  (s.takeWhile (· ≠ c), if c ∈ s then some ((s.dropWhile (· ≠ c)).drop 1) else none)

/-- `url.username` and `url.password` in the text `'%s:%s'`, RPC:114; what is missing is `None`. -/
def authText (netloc : Str) : Str :=
  match (rpart '@' netloc).1 with
  | none => "None:None".toList
  | some i => (lpart ':' i).1 ++ ':' :: ((lpart ':' i).2.getD "None".toList)

/-- Host name and port in the text of the URL. -/
def hostPort (netloc : Str) : Str × Str :=
  let h := (rpart '@' netloc).2
  match (lpart '[' h).2 with
  | some b => ((lpart ']' b).1, (lpart ':' ((lpart ']' b).2.getD [])).2.getD [])
  | none => ((lpart ':' h).1, (lpart ':' h).2.getD [])

/-- `url.port`, and 80 if there is none, RPC:109-112. -/
def urlPort (s : Str) : Py Int :=
  if s = [] then .ok 80
  else do
    let p ← pyInt s
    if 0 ≤ p ∧ p ≤ 65535 then return p else .error .valueError

/-- `url.path`: without the query, the fragment, and the parameters of the last segment. -/
def urlPath (s : Str) : Str :=
  let p := s.takeWhile fun c => c ≠ '?' ∧ c ≠ '#'
  match (rpart '/' p).1 with
  | some a => a ++ '/' :: (rpart '/' p).2.takeWhile (· ≠ ';')
  | none => p.takeWhile (· ≠ ';')

/-- A connection: its kind, where to, what is sent in the header, and the path of the requests. -/
structure Conn where
  https : Bool
  host : Option Str
  port : Int
  auth : Str
  path : Str
  deriving DecidableEq

/-- From the URL to the connection, RPC:108-128. -/
def connect (https : Bool) (rest : Str) : Py Conn := do
  let stop := fun c => c = '/' || c = '?' || c = '#'
  let netloc := rest.takeWhile (fun c => !stop c)
  if ('[' ∈ netloc) ≠ (']' ∈ netloc) then .error .valueError
  else
    let port ← urlPort (hostPort netloc).2
    let host := (hostPort netloc).1.map Char.toLower
    return ⟨https, if host = [] then none else some host, port, authText netloc, urlPath (rest.drop netloc.length)⟩

/-- `RawProxy(btc_conf_file=...)`, RPC:59-128. -/
def connectConf (lines : List Str) (port : Int) : Py Conn := do
  let u ← confUrl lines port
  connect u.1 u.2

end Verif.Rpc
