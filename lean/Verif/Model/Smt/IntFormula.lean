import Verif.Model.Smt.Vector

/-!
# pysmt formulas as symbolic integers

`SMTInt` takes pysmt formulas of integer and of bit-vector sort, as values and as operands (through `int_cast`).
-/

namespace HW.Smt

section
variable (S : Simplifier)

/-- What the caller hands over. -/
inductive NObj
  | val (o : IObj)
  | formula (t : Term)

/-- `SMTInt(value)` (smt_int.py:47-70). -/
def mkIntN : NObj → PyM Term
  | .formula t => match t.ty? with
      | some .int => .ok (S.run t)                             -- 50-51
      | some (.bv _) => do return S.run (← node (.un .bv2nat t)) -- 52-53
      | _ => .error .typeError                                 -- 54-55
  | .val o => mkSInt S o

/-- `int_cast` (smt_int.py:13-24). -/
def castIntN : NObj → PyM Term
  | .val o => castInt S o
  | .formula t => mkIntN S (.formula t)

/-- `a.__op__(other)` for an `SMTInt` `a` (smt_int.py:85-137); `none` is `NotImplemented`. -/
def intFwdN (op : IOp) (a : Term) (o : NObj) : PyM (Option Term) :=
  match castIntN S o with
  | .ok b => do return some (S.run (← node (op.term a b)))
  | .error e => if e.isTypeError then .ok none else .error e

/-- `a.__rsub__(other)`, `a.__rfloordiv__(other)`, `a.__radd__(other)`, `a.__rmul__(other)` (smt_int.py:89-113). -/
def intRevN (op : IOp) (b : Term) (o : NObj) : PyM (Option Term) :=
  match op with
  | .sub | .floordiv =>
      match castIntN S o with
      | .ok a => do return some (S.run (← node (op.term a b)))
      | .error e => if e.isTypeError then .ok none else .error e
  | op => intFwdN S op.swap b o

end
end HW.Smt
