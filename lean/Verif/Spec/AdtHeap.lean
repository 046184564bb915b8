import Verif.Spec.Adt
import Verif.Model.Adt.Heap

/-!
# Specification vocabulary for stores of ADT values
-/

namespace HW.Adt

/-- The object `r` exists and its class derives from `T`. -/
def Inst (W : World) (h : Store) (r : Ref) (T : Ty) : Prop := ∃ o, h[r]? = some o ∧ W.sub o.cls T = true

/-- Each field holds a value of its declared type; a sum one of an alternative, a tagged union one of the type of its
tag. -/
def Obj.Typed (W : World) (h : Store) : Obj → Prop
  | .leaf T _ => T.view = none
  | .enum _ _ => True
  | .tup T _ vs => ∃ k fs, T.view = some (k, fs) ∧ k.shape ≠ .sum ∧ k.shape ≠ .tagged ∧ vs.length = fs.length ∧
      ∀ (i : Nat) v t, vs[i]? = some v → fs[i]? = some t → Inst W h v t
  | .sum T v => ∃ k fs, T.view = some (k, fs) ∧ k.shape = .sum ∧ ∃ t ∈ fs, Inst W h v t
  | .tag T i v => ∃ k fs t, T.view = some (k, fs) ∧ k.shape = .tagged ∧ fs[i]? = some t ∧ Inst W h v t

/-- Every object is well-typed. -/
def Store.Typed (W : World) (h : Store) : Prop := ∀ (r : Ref) (o : Obj), h[r]? = some o → o.Typed W h

/-- No assignment with a slice. -/
def Op.NoSlice : Op → Prop
  | .setItem _ (.slice _) _ => False
  | _ => True

/-- The class exists. -/
def Op.Known (W : World) : Op → Prop
  | .new T _ _ => Built W T
  | .other T _ => Built W T
  | _ => True

/-- The operation addresses field `p` of the tuple or product `r`, which has `n` fields, called `names`. -/
def Op.Writes (r : Ref) (names : List Name) (n p : Nat) : Op → Prop
  | .setItem r' (.int i) _ => r' = r ∧ i % n = p
  | .setItem r' (.slice _) _ => r' = r
  | .setAttr r' m _ => r' = r ∧ names[p]? = some m
  | _ => False

/-- The operation assigns a field of the tagged union `r`. -/
def Op.Tags (r : Ref) (names : List Name) : Op → Prop
  | .setAttr r' m _ => r' = r ∧ m ∈ names
  | _ => False

end HW.Adt
