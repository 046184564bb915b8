import Verif.Model.Smt.Bit
import Verif.Model.Z3.Vector

/-!
# Operators between objects of different families

A concrete vector or bit (bit_vector.py) meets a symbolic one (smt_bit_vector.py, z3_bit_vector.py).  Neither
class derives from the other, so each family sees the other's objects as arbitrary Python objects:

* concrete vectors and bits have `__int__` and `__bool__` (bit_vector.py:118-122, 454-458, 518-519) and are neither
  ints nor `Sequence`s: the symbolic constructors take them through `__int__` or `__bool__`;
* `SMTBitVector`, `z3BitVector` and `z3Bit` have neither method, and `SMTBit.__bool__` raises `TypeError`
  (smt_bit_vector.py:168-169): the concrete constructors raise `TypeError` for all of them.

Only predefined classes; `ite` between families is in `Model/MixedIte.lean`, `concat` is not modelled.
-/

namespace HW.Mixed
open HW Smt

/-- An object of the concrete family. -/
inductive CVal
  | bv (X : BVal)
  | bit (b : Bool)
  deriving DecidableEq, Repr

def CVal.obj : CVal → Obj
  | .bv X => .bv X
  | .bit b => .bit b

/-- What `int(c)` and `bool(c)` give. -/
def CVal.attrs : CVal → PyM (Int × Bool)
  | .bv X => do return (← X.toInt, ← X.toBool)
  | .bit b => .ok (b2i b, b)

/-- The concrete object among the operands of the symbolic families. -/
def CVal.toSmt (c : CVal) : PyM SObj := do
  let (i, b) ← c.attrs
  return .other (some i) (some b)
def CVal.toZ3 (c : CVal) : PyM Z3.ZObj := do
  let (i, b) ← c.attrs
  return .other (some i) (some b)

/-- A symbolic object among the operands of the concrete family. -/
def symObj : Obj := .other none none

/-- A symbolic operand; a vector with its class. -/
inductive Sym
  | bv (r : Root) (x : SBV)
  | bit (t : Term)

/-- The result of a mixed expression: an object of either family, or the bool of an identity comparison. -/
inductive MRes
  | bv (x : SBV)
  | bit (t : Term)
  | conc (o : Obj)
  | py (b : Bool)

/-- The operators of `SMTBit` (smt_bit_vector.py:119-152). -/
def bitOp? : AOp → Option BitOp
  | .and => some .and
  | .or => some .or
  | .xor => some .xor
  | _ => none
def bitCmp? : COp → Option BitOp
  | .eq => some .eq
  | .ne => some .ne
  | _ => none

section
variable (S : Simplifier)

/-- `type(s).__op__(s, o)`. -/
def symFwdA (op : AOp) (s : Sym) (o : SObj) : PyM (Option MRes) :=
  match s with
  | .bv r x => do return (← sfwdA S op r x o).map .bv
  | .bit t => match bitOp? op with
    | some b => do return (← b.fwd S t o).map .bit
    | none => .ok none

/-- `type(s).__rop__(s, o)`. -/
def symRevA (op : AOp) (s : Sym) (o : SObj) : PyM (Option MRes) :=
  match s with
  | .bv r x => do return (← srevA S op r x o).map .bv
  | .bit t => match bitOp? op with
    | some b => do return (← b.rev S t o).map .bit
    | none => .ok none

/-- `type(s).__cmp__(s, o)`. -/
def symFwdC (op : COp) (s : Sym) (o : SObj) : PyM (Option MRes) :=
  match s with
  | .bv r x => do return (← sfwdC S op r x o).map .bit
  | .bit t => match bitCmp? op with
    | some b => do return (← b.fwd S t o).map .bit
    | none => .ok none

/-- Both sides decline a comparison: `==` and `!=` compare identities. -/
def mixDefault : COp → PyM MRes
  | .eq => .ok (.py false)
  | .ne => .ok (.py true)
  | _ => .error .typeError

/-- `s op c`, the symbolic operand on the left (CPython `binary_op1`). -/
def symLeft (op : AOp) (s : Sym) (c : CVal) : PyM MRes := do
  match ← symFwdA S op s (← c.toSmt) with
  | some v => return v
  | none => match (← revA op symObj c.obj 0).1 with
    | some v => return .conc v
    | none => .error .typeError

/-- `c op s`, the symbolic operand on the right. -/
def symRight (op : AOp) (c : CVal) (s : Sym) : PyM MRes := do
  match (← fwdA op c.obj symObj 0).1 with
  | some v => return .conc v
  | none => match ← symRevA S op s (← c.toSmt) with
    | some v => return v
    | none => .error .typeError

/-- `s cmp c` (CPython `do_richcompare`). -/
def symLeftC (op : COp) (s : Sym) (c : CVal) : PyM MRes := do
  match ← symFwdC S op s (← c.toSmt) with
  | some v => return v
  | none => match ← fwdC op.swap c.obj symObj with
    | some v => return .conc (.bit v)
    | none => mixDefault op

/-- `c cmp s`. -/
def symRightC (op : COp) (c : CVal) (s : Sym) : PyM MRes := do
  match ← fwdC op c.obj symObj with
  | some v => return .conc (.bit v)
  | none => match ← symFwdC S op.swap s (← c.toSmt) with
    | some v => return v
    | none => mixDefault op

end

/-! ### z3: no `NotImplemented`, no reflected operators (z3_bit_vector.py:447-491) -/

/-- `x op c` for a z3 vector `x`. -/
def zLeft (op : AOp) (x : Z3.ZBV) (c : CVal) : PyM Z3.ZBV := do Z3.zA op x.root x (← c.toZ3)

/-- `c op x`; the concrete method declines and `z3BitVector` has no reflected one. -/
def zRight (op : AOp) (c : CVal) (_ : Z3.ZBV) : PyM Obj := do
  match (← fwdA op c.obj symObj 0).1 with
  | some v => return v
  | none => .error .typeError

/-- `x cmp c`. -/
def zLeftC (op : COp) (x : Z3.ZBV) (c : CVal) : PyM Z3.BoolE := do Z3.zC op x.root x (← c.toZ3)

/-- `c cmp x`; the first component is the answer of the concrete method, if it gives one. -/
def zRightC (op : COp) (c : CVal) (x : Z3.ZBV) : PyM (Bool ⊕ Z3.BoolE) := do
  match ← fwdC op c.obj symObj with
  | some v => return .inl v
  | none => return .inr (← Z3.zC op.swap x.root x (← c.toZ3))

/-! ### pysmt with z3: each family sees an object without `__int__` (`.other none none`) -/

/-- `x op z` and `x cmp z` for an `SMTBitVector` `x` of class `r` and a `z3BitVector` `z`. -/
def smtZ3 (S : Simplifier) (op : AOp) (r : Root) (x : SBV) (_ : Z3.ZBV) : PyM SBV := do
  match ← sfwdA S op r x (.other none none) with
  | some v => return v
  | none => .error .typeError
def smtZ3C (S : Simplifier) (op : COp) (r : Root) (x : SBV) (z : Z3.ZBV) : PyM (Term ⊕ Z3.BoolE) := do
  match ← sfwdC S op r x (.other none none) with
  | some t => return .inl t
  | none => return .inr (← Z3.zC op.swap z.root z (.other none none))

/-- `z op x` and `z cmp x`. -/
def z3Smt (op : AOp) (z : Z3.ZBV) (_ : SBV) : PyM Z3.ZBV := Z3.zA op z.root z (.other none none)
def z3SmtC (op : COp) (z : Z3.ZBV) (_ : SBV) : PyM Z3.BoolE := Z3.zC op z.root z (.other none none)

end HW.Mixed
