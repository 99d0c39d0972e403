import Verif.Model.Chain
import Verif.Model.Rpc
/-!
# Model of lib/python-bitcoinlib/examples/make-bootstrap-rpc.py

`MB` is this file.  Its arguments, the network it chooses, the node it talks to, and what it writes to its standard output.

Simplifications: the clock is given by whether it shows, at the height `i`, another time than at the start (MB:55 divides by the difference); what is printed to the
standard error is left out; writing to the standard output succeeds.
-/
namespace Verif.Boot
open Verif Btc Rpc
open Verif.Sus (Str pyInt)

/-- How the program ends: with the usage message (MB:38), by an exception, or normally. -/
inductive Ending where
  | usage
  | died (e : RErr)
  | done

section
variable {σ : Type} (S : Server σ) (H : HashFns) (magic : Bytes) (clock : Nat → Bool)

/-- What comes before the writing, MB:49-57: the block of a height, serialized. -/
def blockBytes (i : Nat) : RM σ Bytes := do
  let hash ← getblockhash S i
  let block ← getblock S H hash
  let raw ← RM.lift block.ser
  if clock i = false then RM.fail (.py .other)
  return raw

/-- The writing, MB:59-61; `l` is the result of `struct.pack`, before which the first bytes have been written. -/
def write (raw : Bytes) (l : Py Bytes) (st : PSt σ) : Bytes × Ending × PSt σ :=
  match l with
  | .ok l => (magic ++ (l ++ raw), .done, st)
  | .error e => (magic, .died (.py e), st)

/-- One pass of the loop, MB:48-61: what is written and what happens. -/
def step (i : Nat) (st : PSt σ) : Bytes × Ending × PSt σ :=
  match blockBytes S H clock i st with
  | (.error e, st) => ([], .died e, st)
  | (.ok raw, st) => write magic raw (packS 4 raw.length) st

/-- The loop from the height `i` on, `k` times. -/
def loop (i : Nat) : Nat → PSt σ → Bytes × Ending × PSt σ
  | 0, st => ([], .done, st)
  | k + 1, st =>
    match step S H magic clock i st with
    | (o, .done, st) => (o ++ (loop (i + 1) k st).1, (loop (i + 1) k st).2)
    | r => r

end

/-- The arguments, MB:29-39; `none` if the usage message is printed.  The first one is the name of the program. -/
def arguments (argv : List Str) (g : Globals) : Option (Int × Globals) :=
  match argv with
  | [_, n] => match pyInt n with
    | .ok n => some (n, g)
    | .error _ => none
  | [_, n, network] => match pyInt n with
    | .ok n => match selectParams network g with
      | (.ok (), g) => some (n, g)
      | (.error _, _) => none
    | .error _ => none
  | _ => none

/-- The program, MB:29-61: what it writes and how it ends.  `lines` are those of bitcoin.conf, `node` is who answers on a connection. -/
def run {σ : Type} (H : HashFns) (clock : Nat → Bool) (lines : List Str) (node : Conn → Server σ) (s : σ) (argv : List Str) : Bytes × Ending :=
  match arguments argv atImport with
  | none => ([], .usage)
  | some (n, g) =>
    match connectNow g lines with
    | .error e => ([], .died (.py e))
    | .ok conn =>
      let r := loop (node conn) H g.params.magic clock 0 (n + 1).toNat ⟨0, s⟩
      (r.1, r.2.1)

end Verif.Boot
