import Verif.Model.Operators
import Verif.Model.Smt.Ite

/-!
# Model of `SMTBit`'s operators, the symbolic vector operators, and `smt_utils.py`

`NotImplemented` is `none`, dispatch as in `Verif.Model.Operators`.  Only the predefined vector classes
(`SMTBitVector`, `SMTNumVector`, `SMTUIntVector`, `SMTSIntVector`) have operators here; the `VCall`s of
symbolic polymorphic classes are not modelled.
-/

namespace HW.Smt
open HW

section
variable (S : Simplifier)

/-! ### `SMTBit` -/

/-- Bit operators; `^` is there twice and `__rxor__` is missing (smt_bit_vector.py:119-152). -/
inductive BitOp | and | or | xor | eq | ne
  deriving DecidableEq, Repr

/-- The term for `self.value`, `other.value`; pysmt's `Xor(a, b)` is `Not(Iff(a, b))`. -/
def BitOp.term : BitOp → Term → Term → Term
  | .and, a, b => .bin .and a b
  | .or, a, b => .bin .or a b
  | .xor, a, b => .un .not (.bin .iff b a)     -- the second `__xor__` wins: `Xor(other, self)` (150-152)
  | .eq, a, b => .bin .iff a b
  | .ne, a, b => .un .not (.bin .iff a b)

/-- Operand conversion of `bit_cast` (smt_bit_vector.py:49-55). -/
def castBit : SObj → PyM Term
  | .bit t => .ok t
  | o => mkSBit S o

/-- `__op__` behind `bit_cast` (smt_bit_vector.py:46-57): `TypeError` of `SMTBit(other)` is
`NotImplemented`, `ValueError` (an int other than 0, 1) is not. -/
def BitOp.fwd (op : BitOp) (a : Term) (o : SObj) : PyM (Option Term) :=
  match castBit S o with
  | .ok b => do return some (← bitF S (← node (op.term a b)))
  | .error e => if e.isTypeError then .ok none else .error e

/-- `__rand__`, `__ror__` (smt_bit_vector.py:134-144), none for `^`; `==`, `!=` are their own
reflections. -/
def BitOp.rev (op : BitOp) (b : Term) (o : SObj) : PyM (Option Term) :=
  match op with
  | .xor => .ok none
  | .eq | .ne => op.fwd S b o
  | op =>
    match castBit S o with
    | .ok a => do return some (← bitF S (← node (op.term a b)))
    | .error e => if e.isTypeError then .ok none else .error e

/-- `l op r` with an `SMTBit` on the left and something that is not a vector on the right. -/
def bitLeft (op : BitOp) (a : Term) (r : SObj) : PyM IRes := do
  match ← op.fwd S a r with
  | some t => return .sym t
  | none => match op with
    | .eq => .ok (.py false)
    | .ne => .ok (.py true)
    | _ => .error .typeError

/-- `l op r` with an `SMTBit` on the right and a plain Python object on the left. -/
def bitRight (op : BitOp) (l : SObj) (b : Term) : PyM IRes := do
  match ← op.rev S b l with
  | some t => return .sym t
  | none => match op with
    | .eq => .ok (.py false)
    | .ne => .ok (.py true)
    | _ => .error .typeError

/-- `~x` (smt_bit_vector.py:127-128). -/
def bitInvert (a : Term) : PyM Term := do bitF S (← node (.un .not a))

/-! ### Vector operators -/

/-- smt_bit_vector.py:522-559. -/
def AOp.smtU : AOp → SBV → SObj → PyM SBV
  | .and => SBV.bvand S
  | .or => SBV.bvor S
  | .xor => SBV.bvxor S
  | .shl => SBV.bvshl S
  | .shr => SBV.bvlshr S
  | .add => SBV.bvadd S
  | .sub => SBV.bvsub S
  | .mul => SBV.bvmul S
  | .fdiv => SBV.bvudiv S
  | .mod => SBV.bvurem S

/-- smt_bit_vector.py:615-643. -/
def AOp.smtS : AOp → SBV → SObj → PyM SBV
  | .shr => SBV.bvashr S
  | .fdiv => SBV.bvsdiv S
  | .mod => SBV.bvsrem S
  | op => AOp.smtU S op

def COp.smtU : COp → SBV → SObj → PyM Term
  | .eq => SBV.bveq S
  | .ne => SBV.bvne S
  | .ge => SBV.bvuge S
  | .gt => SBV.bvugt S
  | .le => SBV.bvule S
  | .lt => SBV.bvult S

/-- smt_bit_vector.py:645-675. -/
def COp.smtS : COp → SBV → SObj → PyM Term
  | .ge => SBV.bvsge S
  | .gt => SBV.bvsgt S
  | .le => SBV.bvsle S
  | .lt => SBV.bvslt S
  | op => COp.smtU S op

/-- The method an arithmetic operator of class `r` calls. -/
def AOp.smtM (op : AOp) (r : Root) : SBV → SObj → PyM SBV :=
  if op.signDep && r == .sint then AOp.smtS S op else AOp.smtU S op
def COp.smtM (op : COp) (r : Root) : SBV → SObj → PyM Term :=
  if op.signDep && r == .sint then COp.smtS S op else COp.smtU S op

/-- `__op__` (`dispatch_oper`, smt_bit_vector.py:197-206). -/
def sfwdA (op : AOp) (r : Root) (x : SBV) (o : SObj) : PyM (Option SBV) := tryOper (AOp.smtM S op r x o)
def sfwdC (op : COp) (r : Root) (x : SBV) (o : SObj) : PyM (Option Term) := tryOper (COp.smtM S op r x o)

/-- `__rop__` (`dispatch_roper`, smt_bit_vector.py:210-220, with the same misspelled handler as in
bit_vector.py; `SMTBitVector.__rrshift__` is made with `dispatch_oper`, 535). -/
def srevA (op : AOp) (r : Root) (self : SBV) (other : SObj) : PyM (Option SBV) :=
  if op = .shr ∧ r ≠ .sint then sfwdA S op r self other
  else match scoerce S self.kind self.size other with
    | .ok y => sfwdA S op r y (.bv self)
    | .error _ => .error .nameError

/-- `x op o` for a vector `x` of predefined class `r` and a right operand that is not a vector. -/
def svecLeft (op : AOp) (r : Root) (x : SBV) (o : SObj) : PyM SBV := do
  match ← sfwdA S op r x o with
  | some v => return v
  | none => .error .typeError

/-- `o op x` for a vector `x` and a left operand that is neither a vector nor a `SMTBit`. -/
def svecRight (op : AOp) (r : Root) (o : SObj) (x : SBV) : PyM SBV := do
  match ← srevA S op r x o with
  | some v => return v
  | none => .error .typeError

/-- `x op y` for two vectors of predefined classes: the reflected method goes first if the right class
is a proper subclass with its own method. -/
def svecVec (op : AOp) (r r' : Root) (x y : SBV) : PyM SBV := do
  if ¬ (r = r' ∧ x.size = y.size) ∧ y.size = x.size ∧ r'.isSub r ∧ op.signDep ∧ (r' = .sint ↔ ¬ r = .sint) then
    match ← srevA S op r' y (.bv x) with
    | some v => return v
    | none => match ← sfwdA S op r x (.bv y) with
      | some v => return v
      | none => .error .typeError
  else match ← sfwdA S op r x (.bv y) with
    | some v => return v
    | none =>
      if r = r' ∧ x.size = y.size then .error .typeError
      else match ← srevA S op r' y (.bv x) with
        | some v => return v
        | none => .error .typeError

/-- Fallback of a comparison both sides decline. -/
def sdefaultC : COp → PyM IRes
  | .eq => .ok (.py false)
  | .ne => .ok (.py true)
  | _ => .error .typeError

/-- `x cmp o`, the right operand not a vector. -/
def scmpLeft (op : COp) (r : Root) (x : SBV) (o : SObj) : PyM IRes := do
  match ← sfwdC S op r x o with
  | some t => return .sym t
  | none => sdefaultC op

/-- `o cmp x`, the left operand neither a vector nor a `SMTBit`. -/
def scmpRight (op : COp) (r : Root) (o : SObj) (x : SBV) : PyM IRes := do
  match ← sfwdC S op.swap r x o with
  | some t => return .sym t
  | none => sdefaultC op

/-- `x cmp y` for two vectors of predefined classes: a right operand of a proper subclass goes first. -/
def scmpVec (op : COp) (r r' : Root) (x y : SBV) : PyM IRes := do
  if ¬ (r = r' ∧ x.size = y.size) ∧ y.size = x.size ∧ r'.isSub r then
    match ← sfwdC S op.swap r' y (.bv x) with
    | some t => return .sym t
    | none => match ← sfwdC S op r x (.bv y) with
      | some t => return .sym t
      | none => sdefaultC op
  else match ← sfwdC S op r x (.bv y) with
    | some t => return .sym t
    | none => match ← sfwdC S op.swap r' y (.bv x) with
      | some t => return .sym t
      | none => sdefaultC op

/-! ### Formulas (smt_utils.py) -/

/-- `And(values)`, `Or(values)`, `Implies(p, q)` (smt_utils.py:40-76); `bit` is an `SMTBit`. -/
inductive Formula
  | bit (t : Term)
  | and (l : List Formula)
  | or (l : List Formula)
  | implies (p q : Formula)
  deriving Repr

/-- `a & b`, `a | b` of two `SMTBit`s. -/
def bitBin (op : BitOp) (a b : Term) : PyM Term := do
  match ← bitLeft S op a (.bit b) with
  | .sym t => return t
  | .py _ => .error .typeError

/-- `functools.reduce` from a given start. -/
def reduceBits (op : BitOp) : Term → List Term → PyM Term
  | acc, [] => .ok acc
  | acc, t :: l => do reduceBits op (← bitBin S op acc t) l

mutual
/-- `to_hwtypes` (smt_utils.py:48-51, 61-64, 75-76). -/
def Formula.toHw : Formula → PyM Term
  | .bit t => .ok t
  | .and l => do
      match ← Formula.toHws l with
      | [] => mkSBit S (.bool true)
      | t :: ts => reduceBits S .and t ts
  | .or l => do
      match ← Formula.toHws l with
      | [] => mkSBit S (.bool false)
      | t :: ts => reduceBits S .or t ts
  | .implies p q => do
      let a ← p.toHw
      let na ← bitInvert S a
      let b ← q.toHw
      bitBin S .or na b
/-- `_to_hwtypes(v) for v in values`.  (`reduce` interleaves evaluation and combination; neither has
effects.) -/
def Formula.toHws : List Formula → PyM (List Term)
  | [] => .ok []
  | f :: l => do return (← f.toHw) :: (← Formula.toHws l)
end

/-- What can be given to the constructors: formulas, `SMTBit`s, and other objects. -/
inductive FArg
  | ok (f : Formula)
  | bad
  deriving Repr

def FArg.isBad : FArg → Bool
  | .bad => true
  | .ok _ => false
def FArg.formula? : FArg → Option Formula
  | .ok f => some f
  | .bad => none

/-- An iterable argument: a list (or other re-iterable), or an iterator that can be consumed once. -/
inductive Iter
  | list (l : List FArg)
  | once (l : List FArg)
  deriving Repr

/-- `_check(values)` (smt_utils.py:36-38) iterates over all items (stopping at a bad one), then
`list(values)` (43, 57) iterates again. -/
def checkList (it : Iter) : PyM (List Formula) :=
  let items := match it with | .list l => l | .once l => l
  if items.any FArg.isBad then .error .valueError
  else .ok (match it with
    | .list l => l.filterMap FArg.formula?
    | .once _ => [])

/-- `And(it)`, `Or(it)`. -/
def mkAnd (it : Iter) : PyM Formula := do return .and (← checkList it)
def mkOr (it : Iter) : PyM Formula := do return .or (← checkList it)
/-- `Implies(p, q)`. -/
def mkImplies : FArg → FArg → PyM Formula
  | .ok p, .ok q => .ok (.implies p q)
  | _, _ => .error .valueError

end
end HW.Smt
