import Verif.Py
/-! # The networks, as they are known -/
namespace Verif.Btc
open Verif

/-- The three networks of Bitcoin. -/
inductive Network | main | test | reg
deriving DecidableEq

namespace Network

/-- The name by which a network is chosen. -/
def name : Network → List Char
  | main => "mainnet".toList
  | test => "testnet".toList
  | reg => "regtest".toList

/-- The network of a name. -/
def named (s : List Char) : Option Network :=
  if s = name main then some main else if s = name test then some test else if s = name reg then some reg else none

/-- Versions of the addresses of keys, of the addresses of scripts, and of secret keys. -/
def keyVersion : Network → Nat
  | main => 0
  | _ => 111
def scriptVersion : Network → Nat
  | main => 5
  | _ => 196
def secretVersion : Network → Nat
  | main => 128
  | _ => 239

/-- The first bytes of a message. -/
def start : Network → List Nat
  | main => [0xf9, 0xbe, 0xb4, 0xd9]
  | test => [0x0b, 0x11, 0x09, 0x07]
  | reg => [0xfa, 0xbf, 0xb5, 0xda]

/-- The port of the RPC server. -/
def rpc : Network → Nat
  | main => 8332
  | _ => 18332

/-- The highest target there may be. -/
def easiest : Network → Nat
  | reg => 2 ^ 255 - 1
  | _ => 2 ^ 224 - 1

/-- The number of blocks after which the reward is halved. -/
def halving : Network → Nat
  | reg => 150
  | _ => 210000

/-- The hash of the first block, as it is written. -/
def genesisHash : Network → String
  | main => "000000000019d6689c085ae165831e934ff763ae46a2a6c172b3f1b60a8ce26f"
  | test => "000000000933ea01ad0ee984209779baaec3ced90fa3f408719526f8d77f4943"
  | reg => "0f9188f13cb7b2c71f2a335e3a4fc328bf5beb436012afca590b1a11466e2206"

/-- The network that was chosen last, at first the main network; names of no network change nothing. -/
def last (names : List (List Char)) : Network := ((names.filterMap named).getLast?).getD main

end Network
end Verif.Btc
