import Verif.Model.Smt.Vector
import Verif.Spec.Vector

/-!
# What a symbolic object denotes under an assignment

`Den e x X`: under the assignment `e` the symbolic vector `x` is the concrete vector `X`.  Uses the
meaning of terms (`Term.eval`) and the data types of the two families, none of their operations.
-/

namespace HW.Smt
open HW.Spec

/-- The concrete class a symbolic class becomes when its conditions are evaluated. -/
def SKind.At (e : Env) : SKind → Kind → Prop
  | .root r, K => K = .root r
  | .poly id t f sel, K => ∃ T F b, t.At e T ∧ f.At e F ∧ sel.eval e = some (.bool b) ∧ K = .poly id T F b

/-- `x` denotes `X`. -/
def Den (e : Env) (x : SBV) (X : BVal) : Prop :=
  x.kind.At e X.kind ∧ X.size = x.size ∧
    ∃ b : BitVec x.size, x.term.eval e = some (.bv x.size b) ∧ X.value = b.toNat

/-- The bit term `t` denotes `b`. -/
def DenBit (e : Env) (t : Term) (b : Bool) : Prop := t.eval e = some (.bool b)

/-- The integer term `t` denotes `v`. -/
def DenInt (e : Env) (t : Term) (v : Int) : Prop := t.eval e = some (.int v)

/-- A sequence element denotes its truth value. -/
inductive DenElem (e : Env) : SElem → Bool → Prop
  | bit {t b} : DenBit e t b → DenElem e (.bit t) b
  | bool {b} : DenElem e (.bool b) b
  | int {v} : DenElem e (.int v) (v != 0)

/-- Arguments. -/
inductive DenObj (e : Env) : SObj → Obj → Prop
  | int {v} : DenObj e (.int v) (.int v)
  | bool {b} : DenObj e (.bool b) (.bool b)
  | bit {t b} : DenBit e t b → DenObj e (.bit t) (.bit b)
  | bv {x X} : Den e x X → DenObj e (.bv x) (.bv X)
  | seq {l L} : List.Forall₂ (DenElem e) l L → DenObj e (.seq l) (.seq L)
  | other {i b} : DenObj e (.other i b) (.other i b)

/-- Arguments a width-`n` symbolic vector can be built from: a sequence must have exactly `n` elements
which are bits, bools or the ints 0 and 1, and an object with `__int__` must be in range.  (Ints,
bools, bits and vectors always qualify.) -/
def SObj.Fits (n : Nat) : SObj → Prop
  | .seq l => l.length = n ∧ ∀ v, SElem.int v ∈ l → v = 0 ∨ v = 1
  | .other (some v) _ => 0 ≤ v ∧ v < 2 ^ n
  | _ => True

/-- Both computations raise the same exception, or both return and the results are related. -/
def RelM {α β : Type} (R : α → β → Prop) : PyM α → PyM β → Prop
  | .ok a, .ok b => R a b
  | .error e, .error e' => e = e'
  | _, _ => False

end HW.Smt
