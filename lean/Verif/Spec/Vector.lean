import Verif.Model.BitVector
import Verif.Spec.Bits

/-!
# Specification vocabulary for vector objects

Uses only the *data types* of the model (`BVal`, `Obj`), none of its functions.
-/

namespace HW
open Spec

/-- The integer an object denotes when a vector is built from it. -/
def Obj.denotes : Obj → Option Int
  | .int v => some v
  | .bool b => some (if b then 1 else 0)
  | .bit b => some (if b then 1 else 0)
  | .bv b => some b.value
  | .seq l => some (ofBits l)
  | .other i _ => i

/-- Canonical range of a vector. -/
def BVal.WF (x : BVal) : Prop := 0 ≤ x.value ∧ x.value < 2 ^ x.size

instance (x : BVal) : Decidable x.WF := inferInstanceAs (Decidable (_ ∧ _))

/-- Objects whose vectors are canonical. -/
def Obj.WF : Obj → Prop
  | .bv b => b.WF
  | _ => True

/-- Position addressed by the Python index `i` in a sequence of `n` elements. -/
def Spec.pyIndex? (n : Nat) (i : Int) : Option Nat :=
  if 0 ≤ i ∧ i < n then some i.toNat
  else if -(n : Int) ≤ i ∧ i < 0 then some (n + i).toNat
  else none

/-- Position of a bound of a step-1 slice of a sequence of `n` elements (before clamping above). -/
def Spec.slicePos (n : Nat) (i : Int) : Nat := if i < 0 then (n + i).toNat else i.toNat

/-- The number a right operand contributes to a width-`n` operation: a vector must have the same
width, anything else is reduced modulo `2^n`, non-numbers are `TypeError`. -/
def Spec.operand (n : Nat) (o : Obj) : PyM Int :=
  match o with
  | .bv b => if b.size = n then .ok b.value else .error .inconsistentSize
  | o => match o.denotes with
    | some v => .ok (wrap n v)
    | none => .error .typeError

end HW
