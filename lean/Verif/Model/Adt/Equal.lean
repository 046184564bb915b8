import Verif.Model.Adt.Value
import Verif.Model.PyProgram

/-!
# `==` and `!=` of ADT values with vectors and bits as fields (hwtypes/adt.py)

The same methods as `Val.eqv` (`Model/Adt/Value.lean`), with what they return rather than its truth value, on values
whose leaves are the vectors and bits of one family (`Model/Circuit.lean`): concrete, pysmt or z3.  `__eq__` of a
tuple takes the truth value of the comparison of each pair of fields, that of a sum returns the comparison itself.

`id` is the identity of an object: `tuple.__eq__` of CPython takes an object to be equal to itself without asking.

Simplified: no cyclic values; no other leaves than vectors, bits and enum members.
-/

namespace HW.Adt
open HW Circuit

inductive SVal (V B : Type)
  | vec (id : Nat) (x : V)
  | bit (id : Nat) (b : B)
  | enum (id : Nat) (e : EnumT) (i : Nat)
  | tup (id : Nat) (T : Ty) (asgn : Bool) (vs : List (SVal V B))
  | sum (id : Nat) (T : Ty) (v : SVal V B)
  | tag (id : Nat) (T : Ty) (i : Nat) (v : SVal V B)

def SVal.id {V B : Type} : SVal V B → Nat
  | .vec i _ => i
  | .bit i _ => i
  | .enum i _ _ => i
  | .tup i _ _ _ => i
  | .sum i _ _ => i
  | .tag i _ _ _ => i

/-- The class, of an ADT value. -/
def SVal.cls? {V B : Type} : SVal V B → Option Ty
  | .vec _ _ => none
  | .bit _ _ => none
  | .enum _ e _ => some (.enum e)
  | .tup _ T _ _ => some T
  | .sum _ T _ => some T
  | .tag _ T _ _ => some T

/-- What `==` returns: a Python `bool`, or a bit. -/
inductive ERes (B : Type)
  | py (b : Bool)
  | bit (b : B)

/-- How leaves of different sorts compare. -/
structure LeafEq (F : Family) where
  /-- `bit == vector` -/
  bitVec : F.B → F.V → PyM (ERes F.B)
  /-- a vector or a bit `==` an ADT value, or the other way round -/
  alien : PyM Bool

/-- `Bit.__eq__` converts the vector with `Bit(·)` (bit_vector.py:27-37, 63-65); both `BitVector(·)` and `Bit(·)` of an
ADT value raise `TypeError`, so that `__eq__` returns `NotImplemented` (bit_vector.py:151-158). -/
def cLeafEq : LeafEq concrete where
  bitVec a y := do match ← binC .eq (.bit a) (.bv y) with
    | .bit b => return .bit b
    | _ => return .py false
  alien := .ok false

/-- `SMTBit(vector)` raises `TypeError`, so that `SMTBit.__eq__` returns `NotImplemented`
(smt_bit_vector.py:46-57, 119-121) and `SMTBitVector.__eq__` is asked. -/
def sLeafEq (S : Smt.Simplifier) : LeafEq (smt S) where
  bitVec a y := do return .bit (← (smt S).opC .eq y (.bit a))
  alien := .ok false

/-- `z3Bit(vector)` raises `TypeError`, and so do `z3Bit(·)` and `z3BitVector(·)` of an ADT value
(z3_bit_vector.py:44-51, 89-90, 164-169, 240-241). -/
def zLeafEq : LeafEq z3 where
  bitVec _ _ := .error .typeError
  alien := .error .typeError

section
variable (F : Family) (T : Truth F) (L : LeafEq F) (W : World)

/-- `bool(r)` -/
def ERes.truth : ERes F.B → PyM Bool
  | .py b => .ok b
  | .bit b => T.bit b

/-- Two leaves, the left one first. -/
def leafEq (x y : Reg F.V F.B) : PyM (ERes F.B) :=
  match x, y with
  | .vec x, .vec y => do return .bit (← F.opC .eq x (.vec y))
  | .vec x, .bit b => do return .bit (← F.opC .eq x (.bit b))
  | .bit a, .vec y => L.bitVec a y
  | .bit a, .bit b => do return .bit (← F.bit .eq a b)

/-- `x == y`, or `y == x` if `flip`. -/
def leafEqF (flip : Bool) (x y : Reg F.V F.B) : PyM (ERes F.B) := if flip then leafEq F L y x else leafEq F L x y

mutual
/-- `x == y`, or `y == x` if `flip`: `__eq__` of Tuple (adt.py:33-37), Sum (adt.py:137-141), TaggedUnion
(adt.py:226-230), Enum (adt.py:266-270); who is asked, as in `Val.eqv`. -/
def SVal.eqv : Bool → SVal F.V F.B → SVal F.V F.B → PyM (ERes F.B)
  | f, .vec _ x, .vec _ y => leafEqF F L f (.vec x) (.vec y)
  | f, .vec _ x, .bit _ b => leafEqF F L f (.vec x) (.bit b)
  | f, .bit _ a, .vec _ y => leafEqF F L f (.bit a) (.vec y)
  | f, .bit _ a, .bit _ b => leafEqF F L f (.bit a) (.bit b)
  | _, .vec _ _, _ => do return .py (← L.alien)
  | _, .bit _ _, _ => do return .py (← L.alien)
  | _, _, .vec _ _ => do return .py (← L.alien)
  | _, _, .bit _ _ => do return .py (← L.alien)
  | f, .enum _ e i, .enum _ e' i' =>
      match decides W f (.enum e) (.enum e') with
      | some _ => return .py (decide (e.value i = e'.value i'))
      | none => return .py false
  | f, .tup _ C a vs, .tup _ C' a' vs' =>
      match decides W f C C' with
      | some f' =>
        if a = a' then
          if a = true ∧ vs.length ≠ vs'.length then return .py false
          else do return .py (← SVal.eqvs f' vs vs')
        else return .py false
      | none => return .py false
  | f, .sum _ C v, .sum _ C' v' =>
      match decides W f C C' with
      | some f' => SVal.eqv f' v v'
      | none => return .py false
  | f, .sum _ C v, .tag _ C' _ v' =>
      match decides W f C C' with
      | some false => SVal.eqv false v v'
      | _ => return .py false
  | f, .tag _ C _ v, .sum _ C' v' =>
      match decides W f C C' with
      | some true => SVal.eqv true v v'
      | _ => return .py false
  | f, .tag _ C i v, .tag _ C' i' v' =>
      match decides W f C C' with
      | some f' => if i = i' then SVal.eqv f' v v' else return .py false
      | none => return .py false
  | _, _, _ => return .py false
/-- Two tuples, or two lists: the first pair that is not the same object and does not compare true decides.  Lists of
different lengths are unequal before any item is looked at (`SVal.eqv`), tuples only after. -/
def SVal.eqvs : Bool → List (SVal F.V F.B) → List (SVal F.V F.B) → PyM Bool
  | _, [], [] => return true
  | f, x :: xs, y :: ys =>
      if x.id = y.id then SVal.eqvs f xs ys
      else do
        let r ← SVal.eqv f x y
        if ← r.truth F T then SVal.eqvs f xs ys else return false
  | _, _, _ => return false
end

/-- `x == y` -/
def SVal.eq (x y : SVal F.V F.B) : PyM (ERes F.B) := SVal.eqv F T L W false x y

/-- Whether the second class is a proper subclass of the first. -/
def swaps : Option Ty → Option Ty → Bool
  | some a, some b => decide (a ≠ b) && W.sub b a
  | _, _ => false

/-- `not r` -/
def ERes.neg (r : ERes F.B) : PyM Bool := (r.truth F T).map not

/-- `x != y` of two ADT values: `not (self == other)` (adt.py:39-40, 143-144, 272-273), asked of the right operand
first if its class is a proper subclass. -/
def SVal.ne (x y : SVal F.V F.B) : PyM Bool :=
  if swaps W x.cls? y.cls? then SVal.eq F T L W y x >>= ERes.neg F T else SVal.eq F T L W x y >>= ERes.neg F T

end

end HW.Adt
