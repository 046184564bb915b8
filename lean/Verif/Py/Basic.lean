import Mathlib.Data.Int.Bitwise
import Mathlib.Tactic.Ring

/-!
# Python semantics used by the model: errors and unbounded integers

Exceptions are values.  `inconsistentSize` is `InconsistentSizeError`, a *subclass* of
`TypeError` (`hwtypes/bit_vector_abc.py` line 14), so `except TypeError` catches it too.
-/

namespace HW

/-- Exception classes that the modelled code can raise. -/
inductive PyErr
  | typeError
  | inconsistentSize   -- hwtypes.InconsistentSizeError(TypeError), bit_vector_abc.py:14
  | valueError
  | indexError
  | keyError
  | attributeError
  | nameError
  | notImplementedError
  | assertionError
  | zeroDivisionError
  | overflowError
  | reservedNameError  -- adt_meta.ReservedNameError
  | z3Exception        -- z3.Z3Exception
  deriving DecidableEq, Repr, Inhabited

/-- `isinstance(e, TypeError)`: what an `except TypeError` clause catches. -/
def PyErr.isTypeError : PyErr → Bool
  | .typeError => true
  | .inconsistentSize => true
  | _ => false

/-- A Python computation: a value or an exception. -/
abbrev PyM (α : Type) := Except PyErr α

instance {α : Type} [DecidableEq α] : DecidableEq (PyM α) := fun a b =>
  match a, b with
  | .ok x, .ok y => if h : x = y then isTrue (by rw [h]) else isFalse (by simp [h])
  | .error x, .error y => if h : x = y then isTrue (by rw [h]) else isFalse (by simp [h])
  | .ok _, .error _ => isFalse (by simp)
  | .error _, .ok _ => isFalse (by simp)

/-! ### Integers.  Python ints are unbounded; `& | ^ ~` act on infinite two's complement. -/

/-- Python `~v`. -/
def pyNot (v : Int) : Int := -v - 1

/-- Python `a & b` on unbounded ints. -/
def pyAnd : Int → Int → Int
  | .ofNat m, .ofNat n => .ofNat (m &&& n)
  | .ofNat m, .negSucc n => .ofNat (m ^^^ (m &&& n))
  | .negSucc m, .ofNat n => .ofNat (n ^^^ (n &&& m))
  | .negSucc m, .negSucc n => .negSucc (m ||| n)

/-- Python `a | b` on unbounded ints (De Morgan of `pyAnd`). -/
def pyOr (a b : Int) : Int := pyNot (pyAnd (pyNot a) (pyNot b))

/-- Python `a ^ b` on unbounded ints. -/
def pyXor : Int → Int → Int
  | .ofNat m, .ofNat n => .ofNat (m ^^^ n)
  | .ofNat m, .negSucc n => .negSucc (m ^^^ n)
  | .negSucc m, .ofNat n => .negSucc (m ^^^ n)
  | .negSucc m, .negSucc n => .ofNat (m ^^^ n)

/-- Python `v << k`: negative counts raise `ValueError`. -/
def pyShl (v k : Int) : PyM Int :=
  if k < 0 then .error .valueError else .ok (v * 2 ^ k.toNat)

/-- Python `v >> k`: floor division by `2**k`; negative counts raise `ValueError`. -/
def pyShr (v k : Int) : PyM Int :=
  if k < 0 then .error .valueError else .ok (Int.fdiv v (2 ^ k.toNat))

/-- Python `a // b` (floor), `ZeroDivisionError` on zero. -/
def pyFloorDiv (a b : Int) : PyM Int :=
  if b = 0 then .error .zeroDivisionError else .ok (Int.fdiv a b)

/-- Python `a % b` (sign of the divisor), `ZeroDivisionError` on zero. -/
def pyMod (a b : Int) : PyM Int :=
  if b = 0 then .error .zeroDivisionError else .ok (Int.fmod a b)

/-- `int(b)` for a bool. -/
def b2i (b : Bool) : Int := if b then 1 else 0

/-- `v.bit_length()`: number of binary digits of `|v|`. -/
def pyBitLength (v : Int) : Nat := if v.natAbs = 0 then 0 else Nat.log2 v.natAbs + 1

end HW
