import Verif.Model.Operators

/-!
# Expressions that can be run on vectors and on Python ints

An expression with the operators both have (`& | ^ << >> + - * // %`, unary `-` and `~`; bit_vector.py:402-441,
521-553).  Run on vectors, the literals are Python ints, and an operator with two ints is the one of Python.
-/

namespace HW

inductive Expr
  /-- an argument of the function -/
  | var (i : Nat)
  /-- an int literal -/
  | lit (c : Int)
  | neg (a : Expr)
  | inv (a : Expr)
  | op (o : AOp) (a b : Expr)
  deriving DecidableEq, Repr

/-- The operators of Python ints. -/
def AOp.int : AOp → Int → Int → PyM Int
  | .and, a, b => .ok (pyAnd a b)
  | .or, a, b => .ok (pyOr a b)
  | .xor, a, b => .ok (pyXor a b)
  | .shl, a, b => pyShl a b
  | .shr, a, b => pyShr a b
  | .add, a, b => .ok (a + b)
  | .sub, a, b => .ok (a - b)
  | .mul, a, b => .ok (a * b)
  | .fdiv, a, b => pyFloorDiv a b
  | .mod, a, b => pyMod a b

/-- On ints. -/
def Expr.evalInt (v : Nat → Int) : Expr → PyM Int
  | .var i => .ok (v i)
  | .lit c => .ok c
  | .neg a => do return -(← a.evalInt v)
  | .inv a => do return pyNot (← a.evalInt v)
  | .op o a b => do
      let x ← a.evalInt v
      let y ← b.evalInt v
      o.int x y

/-- `-x`, `~x` on an int or a hwtypes value. -/
def negObj : Obj → PyM Obj
  | .int v => .ok (.int (-v))
  | o => unNeg o
def invObj : Obj → PyM Obj
  | .int v => .ok (.int (pyNot v))
  | o => unInvert o

/-- `l o r` on ints and hwtypes values. -/
def opObj (o : AOp) : Obj → Obj → PyM Obj
  | .int a, .int b => do return .int (← o.int a b)
  | l, r => do return (← binA o l r 0).1

/-- On vectors. -/
def Expr.evalObj (x : Nat → BVal) : Expr → PyM Obj
  | .var i => .ok (.bv (x i))
  | .lit c => .ok (.int c)
  | .neg a => do negObj (← a.evalObj x)
  | .inv a => do invObj (← a.evalObj x)
  | .op o a b => do
      let l ← a.evalObj x
      let r ← b.evalObj x
      opObj o l r

end HW
