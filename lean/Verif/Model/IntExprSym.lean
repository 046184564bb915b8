import Verif.Model.IntExpr
import Verif.Model.Smt.Bit
import Verif.Model.Z3.Vector

/-!
# The expressions of `Verif.Model.IntExpr` on symbolic vectors
-/

namespace HW

section
open Smt
variable (S : Simplifier)

/-- `-x`, `~x` on an int or an `SMTBitVector` (smt_bit_vector.py:520, 537). -/
def negSmt : SObj → PyM SObj
  | .int v => .ok (.int (-v))
  | .bv x => do return .bv (← x.bvneg S)
  | _ => .error .typeError
def invSmt : SObj → PyM SObj
  | .int v => .ok (.int (pyNot v))
  | .bv x => do return .bv (← x.bvnot S)
  | _ => .error .typeError

/-- `l o r` on ints and vectors of the predefined classes (smt_bit_vector.py:522-556, 611-643). -/
def opSmt (o : AOp) : SObj → SObj → PyM SObj
  | .int a, .int b => do return .int (← o.int a b)
  | .bv x, .bv y => match x.kind, y.kind with
    | .root r, .root r' => do return .bv (← svecVec S o r r' x y)
    | _, _ => .error .typeError
  | .bv x, .int b => match x.kind with
    | .root r => do return .bv (← svecLeft S o r x (.int b))
    | _ => .error .typeError
  | .int a, .bv y => match y.kind with
    | .root r => do return .bv (← svecRight S o r (.int a) y)
    | _ => .error .typeError
  | _, _ => .error .typeError

def Expr.evalSmt (x : Nat → SBV) : Expr → PyM SObj
  | .var i => .ok (.bv (x i))
  | .lit c => .ok (.int c)
  | .neg a => do negSmt S (← a.evalSmt x)
  | .inv a => do invSmt S (← a.evalSmt x)
  | .op o a b => do
      let l ← a.evalSmt x
      let r ← b.evalSmt x
      opSmt S o l r

end

section
open Z3

/-- `-x`, `~x` on an int or a `z3BitVector` (z3_bit_vector.py:471, 479). -/
def negZ3 : ZObj → PyM ZObj
  | .int v => .ok (.int (-v))
  | .bv x => do return .bv (← x.bvneg)
  | _ => .error .typeError
def invZ3 : ZObj → PyM ZObj
  | .int v => .ok (.int (pyNot v))
  | .bv x => do return .bv (← x.bvnot)
  | _ => .error .typeError

def Z3.ZRes.obj : ZRes → ZObj
  | .bv x => .bv x
  | .bit b => .bit b

/-- `l o r` on ints and vectors. -/
def opZ3 (o : AOp) : ZObj → ZObj → PyM ZObj
  | .int a, .int b => do return .int (← o.int a b)
  | l, r => do return (← zBinA o l r).obj

def Expr.evalZ3 (x : Nat → ZBV) : Expr → PyM ZObj
  | .var i => .ok (.bv (x i))
  | .lit c => .ok (.int c)
  | .neg a => do negZ3 (← a.evalZ3 x)
  | .inv a => do invZ3 (← a.evalZ3 x)
  | .op o a b => do
      let l ← a.evalZ3 x
      let r ← b.evalZ3 x
      opZ3 o l r

end
end HW
