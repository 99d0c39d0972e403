import Verif.Py
/-!
# Python slices (CPython's `slice.indices` and sequence slicing)

This models the interpreter, not the repository; `bits.py:155`, `bits.py:173` and `mmr.py:301,345,417`
rely on it.  Non-integer slice parameters (a `TypeError`) are not modelled.
-/
namespace Verif

/-- `slice(start, stop, step)`; `none` is Python's `None`. -/
structure PySlice where
  start : Option Int
  stop : Option Int
  step : Option Int
deriving DecidableEq, Repr

/-- `slice.indices(length)` of CPython (sliceobject.c, `_PySlice_GetLongIndices`). -/
def PySlice.indices (s : PySlice) (length : Nat) : Py (Int × Int × Int) :=
  let step := s.step.getD 1
  if step = 0 then .error .valueError
  else
    let lower : Int := if step < 0 then -1 else 0
    let upper : Int := if step < 0 then (length : Int) - 1 else length
    let clamp (x : Int) : Int :=
      if x < 0 then (if x + length < lower then lower else x + length)
      else (if x > upper then upper else x)
    let start := match s.start with
      | none => if step < 0 then upper else lower
      | some x => clamp x
    let stop := match s.stop with
      | none => if step < 0 then lower else upper
      | some x => clamp x
    .ok (start, stop, step)

/-- Number of elements of `range(start, stop, step)`, `step ≠ 0`. -/
def pyRangeLen (start stop step : Int) : Nat :=
  if 0 < step then (if start < stop then ((stop - start - 1) / step + 1).toNat else 0)
  else (if stop < start then ((start - stop - 1) / (-step) + 1).toNat else 0)

/-- `list(range(start, stop, step))`, `step ≠ 0`. -/
def pyRange (start stop step : Int) : List Int :=
  (List.range (pyRangeLen start stop step)).map fun (i : Nat) => start + (i : Int) * step

/-- `xs[i]` for a list/tuple/bytes `xs` and an integer `i`: negative indexes count from the end. -/
def pyGetItem {α} (xs : List α) (i : Int) : Py α :=
  let j := if i < 0 then i + xs.length else i
  if j < 0 then .error .indexError
  else match xs[j.toNat]? with
    | some a => .ok a
    | none => .error .indexError

/-- `xs[s]` for a list/tuple `xs` and a slice `s`. -/
def pySlice {α} (xs : List α) (s : PySlice) : Py (List α) :=
  match s.indices xs.length with
  | .error e => .error e
  | .ok (start, stop, step) => .ok ((pyRange start stop step).filterMap fun i => xs[i.toNat]?)

end Verif
