import Verif.Model.Circuit

/-!
# pysmt formulas as values and operands

The constructors of the symbolic family take pysmt formulas (`FNode`s), and `x.value` returns one; so do methods and
operators for their second operand.  `Model/Smt/Vector.lean` has formulas inside the methods only; here they come from
the caller.  Vectors are of the predefined classes.
-/

namespace HW.Smt
open HW

section
variable (S : Simplifier)

/-- `SMTBitVector.value`, `SMTBit.value` (smt_bit_vector.py:115-117, 300-302). -/
def SBV.value (x : SBV) : Term := x.term

/-- An element of a sequence: as before, or a formula. -/
inductive FElem
  | elem (e : SElem)
  | formula (t : Term)

/-- What the caller hands over. -/
inductive FObj
  | obj (o : SObj)
  | formula (t : Term)
  /-- a sequence with formulas in it -/
  | seq (l : List FElem)

/-- `SMTBit(value)` (smt_bit_vector.py:84-107). -/
def mkBitN : FObj → PyM Term
  | .formula t => bitF S t                                                 -- 86-90
  | .obj o => mkSBit S o
  | .seq _ => .error .typeError

/-- `B1(elem)` (smt_bit_vector.py:281-282). -/
def mkElemN (k : SKind) : FElem → PyM SBV
  | .formula t => bvF S k 1 t
  | .elem e => mkElem S k e

/-- `reduce(lambda acc, elem: acc.concat(elem), map(B1, value))` after the first element. -/
def concatElemsN (k : SKind) : SBV → List FElem → PyM SBV
  | acc, [] => .ok acc
  | acc, e :: l => do
      let x ← mkElemN S k e
      let acc' ← acc.concat S x
      concatElemsN k acc' l

/-- `T[n](value)` (smt_bit_vector.py:250-293). -/
def mkN (k : SKind) (n : Nat) : FObj → PyM SBV
  | .formula t => bvF S k n t                                              -- 254-259
  | .obj o => mkSBV S k n o
  | .seq l =>                                                              -- 277-282
      if l.length ≠ n then .error .valueError
      else match l with
        | [] => .error .typeError
        | e :: l => do
            let x ← mkElemN S k e
            let y ← concatElemsN S k x l
            bvF S k n y.term

/-- `_coerce` (smt_bit_vector.py:172-178): what is not a vector goes through the constructor. -/
def coerceN (k : SKind) (n : Nat) : FObj → PyM SBV
  | .obj o => scoerce S k n o
  | v => mkN S k n v

/-- `x.method(v)` behind `bv_cast` (smt_bit_vector.py:181-186): the body sees a vector of the width of `x`, which
`m` takes as it is. -/
def SBV.methodN {α : Type} (m : SBV → SObj → PyM α) (x : SBV) (v : FObj) : PyM α := do
  m x (.bv (← coerceN S x.kind x.size v))

/-- `x.__op__(v)`, `x.__cmp__(v)` (`dispatch_oper`, smt_bit_vector.py:197-206); `none` is `NotImplemented`, after
which Python asks `v`. -/
def opN (op : AOp) (r : Root) (x : SBV) (v : FObj) : PyM (Option SBV) := tryOper (x.methodN S (AOp.smtM S op r) v)
def cmpN (op : COp) (r : Root) (x : SBV) (v : FObj) : PyM (Option Term) := tryOper (x.methodN S (COp.smtM S op r) v)

/-- `a.__op__(v)` on bits (`bit_cast`, smt_bit_vector.py:46-57). -/
def BitOp.fwdN (op : BitOp) (a : Term) (v : FObj) : PyM (Option Term) :=
  match v with
  | .obj o => op.fwd S a o
  | v => match mkBitN S v with
    | .ok b => do return some (← bitF S (← node (op.term a b)))
    | .error e => if e.isTypeError then .ok none else .error e

/-- `x.adc(v, c)` (smt_bit_vector.py:471-487). -/
def SBV.adcN (x : SBV) (v c : FObj) : PyM (SBV × Term) := do
  let v ← coerceN S x.kind x.size v
  let c ← coerceN S x.kind 1 c
  x.adc S (.bv v) (.bv c)

/-- `x.concat(v)` (smt_bit_vector.py:371-375): `v` has to be a vector. -/
def SBV.concatN (x : SBV) : FObj → PyM SBV
  | .obj (.bv y) => x.concat S y
  | _ => .error .typeError

/-- `x[i] = v` (smt_bit_vector.py:351-365). -/
def SBV.setitemN (x : SBV) (i : Int) : FObj → PyM SBV
  | .obj o => x.setitem S i o
  | _ => .error .valueError

end

end HW.Smt
