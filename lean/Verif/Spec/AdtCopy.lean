import Verif.Spec.AdtShare

/-! # Specification vocabulary for copies of ADT values -/

namespace HW.Adt

/-- `o'` has the class and the attributes of `o`, up to their parts, which are related by `φ`.  The copy of an enum member
with an `Auto` value is an object of the class that is no member. -/
inductive CopyOf (φ : Ref → Ref → Prop) : Obj → Obj → Prop
  | leaf (T p) : CopyOf φ (.leaf T p) (.leaf T p)
  | enum {e i} : (∀ k, e.value i ≠ some (.auto k)) → CopyOf φ (.enum e i) (.enum e i)
  | auto {e i k} (p) : e.value i = some (.auto k) → CopyOf φ (.enum e i) (.leaf (.enum e) p)
  | tup {T a vs vs'} : List.Forall₂ φ vs vs' → CopyOf φ (.tup T a vs) (.tup T a vs')
  | sum {T v v'} : φ v v' → CopyOf φ (.sum T v) (.sum T v')
  | tag {T i v v'} : φ v v' → CopyOf φ (.tag T i v) (.tag T i v')

/-- An `AnonymousProduct` or `Product` value with fields. -/
def Obj.IsProduct (o : Obj) : Prop :=
  ∃ T a vs k fs, o = .tup T a vs ∧ T.view = some (k, fs) ∧ k.shape ≠ .tuple ∧ k.names ≠ []

/-- An enum member whose value is an `Auto` object. -/
def Obj.IsAuto (o : Obj) : Prop := ∃ e i k, o = .enum e i ∧ e.value i = some (.auto k)

end HW.Adt
