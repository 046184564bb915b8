import Verif.Py.Basic

/-!
# Python list indexing with slices

`l[start:stop:step]`, following `slice.indices` / `PySlice_AdjustIndices` of CPython.
-/

namespace HW

/-- A `slice` object whose parts are ints or `None`. -/
structure PySlice where
  start : Option Int
  stop : Option Int
  step : Option Int
  deriving DecidableEq, Repr

/-- Clamp one slice bound (CPython `PySlice_AdjustIndices`): negative bounds count from the end,
then bounds are clamped to `[lower, upper]`. -/
def clampBound (len lower upper b : Int) : Int :=
  if b < 0 then max (b + len) lower else min b upper

/-- `slice.indices(len)`: `(start, stop, step)`; step 0 raises `ValueError`. -/
def PySlice.indices (s : PySlice) (len : Nat) : PyM (Int × Int × Int) :=
  let step := s.step.getD 1
  if step = 0 then .error .valueError
  else
    let lower : Int := if step < 0 then -1 else 0
    let upper : Int := if step < 0 then (len : Int) - 1 else len
    let start := match s.start with
      | none => if step < 0 then upper else lower
      | some b => clampBound len lower upper b
    let stop := match s.stop with
      | none => if step < 0 then lower else upper
      | some b => clampBound len lower upper b
    .ok (start, stop, step)

/-- `len(range(start, stop, step))`. -/
def rangeLen (start stop step : Int) : Nat :=
  if 0 < step then (if start < stop then ((stop - start - 1) / step + 1).toNat else 0)
  else if step < 0 then (if stop < start then ((start - stop - 1) / (-step) + 1).toNat else 0)
  else 0

/-- `list(range(start, stop, step))`. -/
def pyRange (start stop step : Int) : List Int :=
  (List.range (rangeLen start stop step)).map fun (j : Nat) => start + (j : Int) * step

/-- `l[s]` for a slice `s`. -/
def pySliceList {α : Type} (l : List α) (s : PySlice) : PyM (List α) := do
  let (start, stop, step) ← s.indices l.length
  return (pyRange start stop step).filterMap fun i => l[i.toNat]?

end HW
