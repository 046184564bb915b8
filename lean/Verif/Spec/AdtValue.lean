import Verif.Spec.AdtHeap
import Verif.Model.Adt.Value

/-!
# Specification vocabulary for ADT values as trees
-/

namespace HW.Adt

/-- `w` occurs in `v` (or is `v`). -/
inductive Val.In (w : Val) : Val → Prop
  | self : Val.In w w
  | tup {T a vs v} : v ∈ vs → Val.In w v → Val.In w (.tup T a vs)
  | sum {T v} : Val.In w v → Val.In w (.sum T v)
  | tag {T i v} : Val.In w v → Val.In w (.tag T i v)

/-- The fields hold instances of their types, a sum an instance of an alternative, a tagged union one of the type of
its tag. -/
def Val.Ok (W : World) : Val → Prop
  | .leaf T _ => T.view = none
  | .enum e i => i < e.members.length
  | .tup T _ vs => ∃ k fs, T.view = some (k, fs) ∧ k.shape ≠ .sum ∧ k.shape ≠ .tagged ∧ vs.length = fs.length ∧
      ∀ (i : Nat) v t, vs[i]? = some v → fs[i]? = some t → W.sub v.cls t = true
  | .sum T v => ∃ k fs, T.view = some (k, fs) ∧ k.shape = .sum ∧ ∃ t ∈ fs, W.sub v.cls t = true
  | .tag T i v => ∃ k fs t, T.view = some (k, fs) ∧ k.shape = .tagged ∧ fs[i]? = some t ∧ W.sub v.cls t = true

/-- Well-typed throughout. -/
def Val.WT (W : World) (v : Val) : Prop := ∀ w : Val, w.In v → w.Ok W

mutual
/-- The value and its components, from the outside in, left to right. -/
def Val.parts : Val → List Val
  | .leaf T p => [.leaf T p]
  | .enum e i => [.enum e i]
  | .tup T a vs => .tup T a vs :: Val.partsL vs
  | .sum T v => .sum T v :: v.parts
  | .tag T i v => .tag T i v :: v.parts
def Val.partsL : List Val → List Val
  | [] => []
  | v :: vs => v.parts ++ Val.partsL vs
end

open Classical in
/-- The handler for a value, by what it is an instance of. -/
noncomputable def Val.ev : Val → IEv
  | .leaf T p => .visitLeaf (.leaf T p)
  | .enum e i => .visitEnum (.enum e i)
  | .tup T a vs => if ∃ k fs, T.view = some (k, fs) ∧ k.shape = .product then .visitProduct (.tup T a vs)
      else .visitTuple (.tup T a vs)
  | .sum T v => .visitSum (.sum T v)
  | .tag T i v => .visitTaggedUnion (.tag T i v)

/-- Sums hold an instance of one alternative only. -/
def Val.Apart (W : World) (v : Val) : Prop :=
  ∀ T w, (Val.sum T w).In v → ∀ k fs, T.view = some (k, fs) → ∀ t ∈ fs, ∀ t' ∈ fs,
    W.sub w.cls t = true → W.sub w.cls t' = true → t = t'

/-- Subclassing is antisymmetric, as it is in Python. -/
def World.Antisymm (W : World) : Prop := ∀ a b, W.sub a b = true → W.sub b a = true → a = b

/-- No class of a part of `x` is a proper subclass of the class of a part of `y`, or conversely. -/
def Unrelated (W : World) (x y : Val) : Prop :=
  ∀ u v : Val, u.In x → v.In y → (W.sub u.cls v.cls = true ∨ W.sub v.cls u.cls = true) → u.cls = v.cls

/-- The `Sum`s in `x` are not of a base class of the `TaggedUnion`s in `y`. -/
def SumApart (W : World) (x y : Val) : Prop :=
  ∀ S v U i u, (Val.sum S v).In x → (Val.tag U i u).In y → W.sub U S = false

/-- Fresh values of exactly the class `T`, with parts of exactly the declared classes down to enum members. -/
inductive Exact : Ty → Val → Prop
  | enum (e : EnumT) (i : Nat) : i < e.members.length → Exact (.enum e) (.enum e i)
  | tup {T k fs vs} : T.view = some (k, fs) → k.shape ≠ .sum → k.shape ≠ .tagged → vs.length = fs.length →
      (∀ (i : Nat) v t, vs[i]? = some v → fs[i]? = some t → Exact t v) → Exact T (.tup T false vs)
  | sum {T k fs t v} : T.view = some (k, fs) → k.shape = .sum → t ∈ fs → Exact t v → Exact T (.sum T v)
  | tag {T k fs i t v} : T.view = some (k, fs) → k.shape = .tagged → fs[i]? = some t → Exact t v →
      Exact T (.tag T i v)

/-- ADTs over enums; a modifier may be on anything but an enum. -/
inductive OverEnums : Ty → Prop
  | enum (e) : OverEnums (.enum e)
  | node (k fs) : (∀ t ∈ fs, OverEnums t) → OverEnums (.node k fs)
  | mod (m t) : t.view ≠ none → OverEnums t → OverEnums (.mod m t)

/-- Number of values: sums for sums, products for products. -/
def Ty.card : Ty → Nat
  | .leaf _ => 0
  | .enum e => e.members.length
  | .node k fs => if k.shape = .sum ∨ k.shape = .tagged then (cards fs).sum else (cards fs).prod
  | .mod _ t => t.card
where
  cards : List Ty → List Nat
    | [] => []
    | t :: ts => t.card :: cards ts

/-- Members of one enum have distinct values, alternatives of one sum are not subclasses of each other. -/
inductive Distinct (W : World) : Ty → Prop
  | leaf (l) : Distinct W (.leaf l)
  | enum (e) : (e.members.map Prod.snd).Nodup → Distinct W (.enum e)
  | node (k fs) : (k.shape = .sum → ∀ t ∈ fs, ∀ t' ∈ fs, W.sub t t' = true → t = t') → (∀ t ∈ fs, Distinct W t) →
      Distinct W (.node k fs)
  | mod (m t) : Distinct W t → Distinct W (.mod m t)

/-- A world in which the classes `l` derive from `b`. -/
noncomputable def World.under (b : Ty) (l : List Ty) : World :=
  { World.std with
    sub := fun a c => decide (a = c) || (decide (c = b) && decide (a ∈ l))
    sub_refl := by simp
    sub_trans := by
      intro x y z h1 h2
      simp only [Bool.or_eq_true, Bool.and_eq_true, decide_eq_true_eq] at h1 h2 ⊢
      rcases h1 with rfl | ⟨rfl, h⟩
      · exact h2
      · rcases h2 with rfl | ⟨rfl, _⟩
        · exact .inr ⟨rfl, h⟩
        · exact .inr ⟨rfl, h⟩ }

end HW.Adt
