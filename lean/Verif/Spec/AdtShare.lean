import Verif.Spec.AdtHeap
import Verif.Model.Adt.Value

/-! # Specification vocabulary for shared ADT values -/

namespace HW.Adt

/-- The objects that an object holds. -/
def Obj.parts : Obj → List Ref
  | .leaf _ _ => []
  | .enum _ _ => []
  | .tup _ _ vs => vs
  | .sum _ v => [v]
  | .tag _ _ v => [v]

/-- `s` is `r`, a part of `r`, a part of a part, and so on. -/
inductive Reach (h : Store) : Ref → Ref → Prop
  | self (r) : Reach h r r
  | part {r o t s} : h[r]? = some o → t ∈ o.parts → Reach h t s → Reach h r s

/-- The value of the object `r` is the tree `v`. -/
def Store.Reads (h : Store) (r : Ref) (v : Val) : Prop := ∃ n, h.read n r = some v

/-- All objects of `h` are as they were. -/
def Extends (h h' : Store) : Prop := ∀ r : Ref, r < h.length → h'[r]? = h[r]?

end HW.Adt
