import Verif.Model.Adt.ClassCache

/-! # When two class statements declare the same thing -/

namespace HW.Adt.Cache.Spec

open Heap

/-- Same fields, order included. -/
def SameFields (a b : FArg) : Prop := a = b

/-- Same named fields, in any order. -/
def SameFieldSet : FArg → FArg → Prop
  | .types l, .types l' => ∀ x, x ∈ l ↔ x ∈ l'
  | .vals l, .vals l' => ∀ x, x ∈ l ↔ x ∈ l'
  | _, _ => False

/-- The body assigns value `v` to the attribute `n`, which is neither a field nor a dunder. -/
def Assigns (s : Stmt) (n : Name) (v : Nat) : Prop := ∃ a ∈ s.body, a.dunder = false ∧ a.name = n ∧ a.val = v

/-- Same name, bases, fields (in the same order for products) and other attributes except dunders. -/
def SameDecl (m : Meta) (s s' : Stmt) : Prop :=
  s.name = s'.name ∧ s.bases = s'.bases ∧ (∀ n v, Assigns s n v ↔ Assigns s' n v) ∧
    if m = .product then SameFields s.fields s'.fields else SameFieldSet s.fields s'.fields

end HW.Adt.Cache.Spec
