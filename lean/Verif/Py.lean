/-!
# Python-level vocabulary shared by the whole model

Bytes, exceptions as values, and reading from an in-memory byte stream.
-/
namespace Verif

/-- A byte.  `BitVec 8` so that the shifts and masks of the source can be written literally. -/
abbrev Byte := BitVec 8

/-- A Python `bytes` object. -/
abbrev Bytes := List Byte

/-- The exception classes the modelled code can raise.  Only the class matters, never the message. -/
inductive PyErr where
  | truncation        -- proofmarshal TruncationError (a DeserializationError)  serialize.py:65
  | deserialization   -- proofmarshal DeserializationError                      serialize.py:62
  | serType           -- proofmarshal SerializerTypeError (a TypeError)         serialize.py:69
  | serValue          -- proofmarshal SerializerValueError (a ValueError)       serialize.py:72
  | typeError | valueError | indexError | keyError | attributeError | nameError
  | assertion | notImplemented | structError
  | pruned            -- proofmarshal PrunedError                               proof.py:25
  | btcSer            -- bitcoinlib SerializationError                          bitcoin/core/serialize.py:48
  | btcTrunc          -- bitcoinlib SerializationTruncationError                bitcoin/core/serialize.py:52
  | btcExtra          -- bitcoinlib DeserializationExtraDataError               bitcoin/core/serialize.py:58
  | scriptInvalid     -- bitcoinlib CScriptInvalidError, CScriptTruncatedPushDataError  bitcoin/core/script.py:493-501
  | overflow
  | validation        -- bitcoinlib ValidationError and its subclasses              bitcoin/core/__init__.py:103, 581-673
  | evalScript        -- bitcoinlib EvalScriptError and its subclasses              bitcoin/core/scripteval.py:47-93
  | base58            -- bitcoinlib Base58Error and its subclasses                  bitcoin/base58.py:31-95
  | systemExit | fileExists | fileNotFound
  | other
deriving DecidableEq, Repr

/-- `except DeserializationError` catches these (serialize.py:62-66). -/
def PyErr.isDeserialization : PyErr → Bool
  | .truncation | .deserialization => true
  | _ => false

/-- The outcome of a Python call: a value, or an exception. -/
abbrev Py (α : Type) := Except PyErr α

instance {ε α : Type} [DecidableEq ε] [DecidableEq α] : DecidableEq (Except ε α) := fun a b =>
  match a, b with
  | .ok x, .ok y => if h : x = y then isTrue (by rw [h]) else isFalse (by intro h'; cases h'; exact h rfl)
  | .error x, .error y => if h : x = y then isTrue (by rw [h]) else isFalse (by intro h'; cases h'; exact h rfl)
  | .ok _, .error _ => isFalse (by intro h; cases h)
  | .error _, .ok _ => isFalse (by intro h; cases h)

/-- `assert cond` -/
def pyAssert (c : Bool) : Py Unit := if c then .ok () else .error .assertion

/-- Code reading from an `io.BytesIO`: takes the unread bytes, returns a value and the bytes still
unread.  (What is left of the stream after an exception is not modelled; nothing in the modelled code
catches an exception and goes on reading.) -/
def P (α : Type) := Bytes → Py (α × Bytes)

namespace P
def pure {α} (a : α) : P α := fun s => .ok (a, s)
def bind {α β} (p : P α) (f : α → P β) : P β := fun s =>
  match p s with
  | .ok (a, s') => f a s'
  | .error e => .error e
def fail {α} (e : PyErr) : P α := fun _ => .error e
/-- Lift a computation that does not read the stream. -/
def lift {α} (x : Py α) : P α := fun s =>
  match x with
  | .ok a => .ok (a, s)
  | .error e => .error e
instance : Monad P where
  pure := P.pure
  bind := P.bind

@[simp] theorem pure_apply {α} (a : α) (s : Bytes) : (Pure.pure a : P α) s = .ok (a, s) := rfl
@[simp] theorem fail_apply {α} (e : PyErr) (s : Bytes) : (fail e : P α) s = .error e := rfl
theorem bind_apply {α β} (p : P α) (f : α → P β) (s : Bytes) :
    (p >>= f) s = match p s with
      | .ok (a, s') => f a s'
      | .error e => .error e := rfl
theorem bind_ok {α β} {p : P α} {f : α → P β} {s s' : Bytes} {a : α} (h : p s = .ok (a, s')) :
    (p >>= f) s = f a s' := by rw [bind_apply, h]
theorem bind_error {α β} {p : P α} {f : α → P β} {s : Bytes} {e : PyErr} (h : p s = .error e) :
    (p >>= f) s = .error e := by rw [bind_apply, h]
theorem lift_ok {α} {x : Py α} {a : α} {s : Bytes} (h : x = .ok a) : lift x s = .ok (a, s) := by rw [h]; rfl
theorem lift_error {α} {x : Py α} {e : PyErr} {s : Bytes} (h : x = .error e) : lift x s = .error e := by rw [h]; rfl
end P

end Verif
