import Verif.Model.Z3.Vector
import Verif.Spec.Vector
import Mathlib.Data.List.Forall2

/-!
# What a z3 object denotes under an assignment

`Den e x X`: under the assignment `e` the z3 vector `x` is the concrete vector `X`.  Uses the data types
of the two families, none of their operations.
-/

namespace HW.Z3
open HW.Spec

/-- `x` denotes `X`; its expression has the sort of its class, which is not empty. -/
def Den (e : Env) (x : ZBV) (X : BVal) : Prop :=
  X.kind = .root x.root ∧ X.size = x.size ∧ 0 < x.size ∧
    ∃ d : Env → BitVec x.size, x.expr = ⟨x.size, d⟩ ∧ X.value = (d e).toNat

/-- The bit `b` denotes `B`. -/
def DenBit (e : Env) (b : BoolE) (B : Bool) : Prop := b e = B

/-- A sequence element denotes its truth value. -/
inductive DenElem (e : Env) : ZElem → Bool → Prop
  | bit {b B} : DenBit e b B → DenElem e (.bit b) B
  | bool {b} : DenElem e (.bool b) b
  | int {v} : DenElem e (.int v) (v != 0)

/-- Arguments. -/
inductive DenObj (e : Env) : ZObj → Obj → Prop
  | int {v} : DenObj e (.int v) (.int v)
  | bool {b} : DenObj e (.bool b) (.bool b)
  | bit {b B} : DenBit e b B → DenObj e (.bit b) (.bit B)
  | bv {x X} : Den e x X → DenObj e (.bv x) (.bv X)
  | seq {l L} : List.Forall₂ (DenElem e) l L → DenObj e (.seq l) (.seq L)
  | other {i b} : DenObj e (.other i b) (.other i b)

/-- Arguments a width-`n` vector can be built from: a sequence must have exactly `n` elements which are
bits, bools or the ints 0 and 1.  (Everything else qualifies.) -/
def ZObj.Fits (n : Nat) : ZObj → Prop
  | .seq l => l.length = n ∧ ∀ v, ZElem.int v ∈ l → v = 0 ∨ v = 1
  | _ => True

/-- Both computations return and the results are related, or both raise the same exception, except that
the z3 family raises a plain `TypeError` where the concrete one raises `InconsistentSizeError`. -/
def RelE {α β : Type} (R : α → β → Prop) : PyM α → PyM β → Prop
  | .ok a, .ok b => R a b
  | .error e, .error e' => e = e' ∨ (e = .typeError ∧ e' = .inconsistentSize)
  | _, _ => False

end HW.Z3
