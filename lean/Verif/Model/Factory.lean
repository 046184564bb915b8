import Verif.Model.ClassHeap
import Verif.Model.Smt.Vector
import Verif.Model.Z3.Vector

/-!
# `random` and `make_constant`

`random.randint(lo, hi)` is an argument: the number drawn.
-/

namespace HW

/-- The class whose `random` a class inherits, which is also the class of the result: static methods of `BitVector`
(bit_vector.py:498-500), `UIntVector` (510-512), `SIntVector` (583-586); `NumVector` has none. -/
def Root.randomOwner : Root → Root
  | .bv => .bv
  | .num => .bv
  | .uint => .uint
  | .sint => .sint

/-- The bounds given to `randint`; `1 << width` and `1 << (width - 1)` raise for a negative amount. -/
def Root.randomBounds (T : Root) (width : Int) : PyM (Int × Int) :=
  match T.randomOwner with
  | .sint => do
      let p ← pyShl 1 (width - 1)
      return (-p, p - 1)
  | _ => do
      let p ← pyShl 1 width
      return (0, p - 1)

/-- `T.random(width)`, `drawn` being the result of `randint` (`width` is not negative once the bounds exist, except
that `SIntVector.random` raises already for 0). -/
def Root.random (T : Root) (width drawn : Int) : PyM BVal := do
  let _ ← T.randomBounds width
  mkBV (.root T.randomOwner) width.toNat (.int drawn)

/-- `Bit.random()` (bit_vector.py:130-132); `getrandbits(1)` is `drawn`. -/
def bitRandom (drawn : Int) : PyM Bool := mkBit (.int drawn)

/-- `T[size]` (bit_vector_abc.py:82-85) as far as the size decides. -/
def sized {α : Type} (size : Int) (f : Nat → PyM α) : PyM α :=
  if size < 0 then .error .valueError else f size.toNat

/-- `make_constant(value, size)` (bit_vector.py:207-212), a class method: called on a class or an instance of class `k`,
of size `own` (`none` for an unsized class). -/
def makeConstant (k : Kind) (own : Option Nat) (value : Obj) : Option Int → PyM BVal
  | none => match own with
      | some n => mkBV k n value
      | none => mkUnsized k value
  | some s => sized s fun n => mkBV k n value

/-- `x.make_constant(value, size)` (smt_bit_vector.py:295-298). -/
def Smt.SBV.makeConstant (S : Smt.Simplifier) (x : Smt.SBV) (value : Smt.SObj) : Option Int → PyM Smt.SBV
  | none => Smt.mkSBV S x.kind x.size value
  | some s => sized s fun n => Smt.mkSBV S x.kind n value

/-- `T.make_constant(value, size)` on a class: the function is not a class method, so the first argument is taken for
`self`.  An argument other than a vector has no `size` attribute (295-297), and no `unsized_t` in its class (298). -/
def Smt.classMakeConstant (S : Smt.Simplifier) (value : Smt.SObj) : Option Smt.SObj → PyM Smt.SBV
  | none => .error .typeError
  | some size => match value with
      | .bv x => x.makeConstant S size none
      | _ => .error .attributeError

/-- `x.make_constant(value, size)` (z3_bit_vector.py:246-249). -/
def Z3.ZBV.makeConstant (x : Z3.ZBV) (value : Z3.ZObj) : Option Int → PyM Z3.ZBV
  | none => Z3.mkZBV x.root x.size value
  | some s => sized s fun n => Z3.mkZBV x.root n value

/-- The same on a class. -/
def Z3.classMakeConstant (value : Z3.ZObj) : Option Z3.ZObj → PyM Z3.ZBV
  | none => .error .typeError
  | some size => match value with
      | .bv x => x.makeConstant size none
      | .bvRef _ => .error .attributeError   -- a z3 expression has a method `size`, but its class no `unsized_t`
      | _ => .error .attributeError

end HW
