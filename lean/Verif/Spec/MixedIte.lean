import Verif.Model.MixedIte
import Verif.Spec.Smt
import Verif.Spec.Z3

/-!
# What `ite` over several families should do
-/

namespace HW.Mixed
open HW Smt

/-- The contents of a bit or a vector: its width and its value, read as an unsigned number. -/
inductive Content
  | bit (b : Bool)
  | vec (n : Nat) (v : Int)

/-- The leaf has these contents, under assignments of the symbols of the two symbolic families. -/
def Leaf.Holds (e : Smt.Env) (z : Z3.Env) : Leaf → Content → Prop
  | .cbit b, .bit B => b = B
  | .cbv x, .vec n v => x.WF ∧ x.size = n ∧ x.value = v
  | .sbit t, .bit B => DenBit e t B
  | .sbv x, .vec n v => ∃ X, Den e x X ∧ X.size = n ∧ X.value = v
  | .zbit b, .bit B => Z3.DenBit z b B
  | .zbv x, .vec n v => ∃ X, Z3.Den z x X ∧ X.size = n ∧ X.value = v
  | _, _ => False

/-- The leaves of a branch, from left to right. -/
inductive IsLeaf (l : Leaf) : XBranch → Prop
  | leaf : IsLeaf l (.leaf l)
  | tup {bs b} : b ∈ bs → IsLeaf l b → IsLeaf l (.tup bs)

/-- Every leaf has contents: its term is of the right sort and its symbols have values. -/
def XBranch.Meaningful (e : Smt.Env) (z : Z3.Env) (b : XBranch) : Prop := ∀ l, IsLeaf l b → ∃ c, l.Holds e z c

mutual
/-- The branches have the same tuple structure and at each place two objects of one class, or two vectors of one width,
both of the family `s`. -/
inductive Fits (s : Fam) : XBranch → XBranch → Prop
  | same {t f : Leaf} : t.cls = f.cls → Fits s (.leaf t) (.leaf f)
  | poly {t f : Leaf} {n : Nat} : t.cls.family = s → f.cls.family = s → t.cls.width = some n → f.cls.width = some n →
      Fits s (.leaf t) (.leaf f)
  | tup {ts fs} : FitsAll s ts fs → Fits s (.tup ts) (.tup fs)
inductive FitsAll (s : Fam) : List XBranch → List XBranch → Prop
  | nil : FitsAll s [] []
  | cons {t f ts fs} : Fits s t f → FitsAll s ts fs → FitsAll s (t :: ts) (f :: fs)
end

mutual
/-- `w` is the branch selected by `b`: the same tuple structure, and at each place an object of the same family with the
same contents, of the class of both if they are of one class. -/
inductive Picks (e : Smt.Env) (z : Z3.Env) (b : Bool) : XBranch → XBranch → XBranch → Prop
  | leaf {t f w : Leaf} : w.cls.family = t.cls.family → w.cls.family = f.cls.family →
      (∀ c, (if b then t else f).Holds e z c → w.Holds e z c) → (t.cls = f.cls → w.cls = t.cls) →
      Picks e z b (.leaf t) (.leaf f) (.leaf w)
  | tup {ts fs ws} : PicksAll e z b ts fs ws → Picks e z b (.tup ts) (.tup fs) (.tup ws)
inductive PicksAll (e : Smt.Env) (z : Z3.Env) (b : Bool) : List XBranch → List XBranch → List XBranch → Prop
  | nil : PicksAll e z b [] [] []
  | cons {t f w ts fs ws} : Picks e z b t f w → PicksAll e z b ts fs ws →
      PicksAll e z b (t :: ts) (f :: fs) (w :: ws)
end

/-- The selector is `b`. -/
def Sel.Is (e : Smt.Env) : Sel → Bool → Prop
  | .conc b, B => b = B
  | .smt t, B => DenBit e t B

end HW.Mixed
