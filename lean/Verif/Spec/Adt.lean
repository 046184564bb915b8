import Mathlib.Data.Finset.Dedup
import Mathlib.Data.Multiset.Basic
import Verif.Model.Adt.Type

/-!
# Specification vocabulary for ADT classes
-/

namespace HW.Adt

/-- The classes a program can build. -/
inductive Built (W : World) : Ty → Prop
  | leaf (l) : Built W (.leaf l)
  | enum (e) : Built W (.enum e)
  | tuple (b fs) : (∀ t ∈ fs, Built W t) → Built W (mkTuple b fs)
  | anon (b names fs) : names.length = fs.length → names.Nodup → (∀ t ∈ fs, Built W t) →
      Built W (mkAnon b names fs)
  | sum (b fs) : (∀ t ∈ fs, Built W t) → Built W (mkSum W b fs)
  | product (b name ns names fs) : names.length = fs.length → names.Nodup → (∀ t ∈ fs, Built W t) →
      Built W (mkProduct b name ns names fs)
  | tagged (b name ns names fs) : names.length = fs.length → names.Nodup → (∀ t ∈ fs, Built W t) →
      Built W (mkTagged W b name ns names fs)
  | mod (m t t') : Built W t → applyMod m t = .ok t' → Built W t'

/-- Everywhere in the field tree `P` holds of the classes with fields, and `M` of the modified ones. -/
inductive Ty.All (P : Con → Prop) (M : ModId → Ty → Prop) : Ty → Prop
  | leaf (l) : All P M (.leaf l)
  | enum (e) : All P M (.enum e)
  | node (k fs) : P k → (∀ t ∈ fs, All P M t) → All P M (.node k fs)
  | mod (m t) : M m t → All P M t → All P M (.mod m t)

/-- No `AnonymousProduct`. -/
def Con.Named (k : Con) : Prop := k.shape ≠ .anon

/-- No `AnonymousProduct`, and no class body besides the fields. -/
def Con.Bare (k : Con) : Prop := k.shape ≠ .anon ∧ k.ns = 0

/-- Not a class with fields. -/
def Ty.Fieldless (t : Ty) : Prop := t.view = none

/-- `t` is a field of `T`. -/
def Ty.HasField (T t : Ty) : Prop := ∃ k fs, T.view = some (k, fs) ∧ t ∈ fs

/-- `t` occurs in the field tree below `T`. -/
inductive Ty.Below : Ty → Ty → Prop
  | field {t T} : T.HasField t → Below t T
  | deep {t s T} : T.HasField s → Below t s → Below t T

/-- `T'` is `T` with every topmost class `t` of the field tree with `f t = some t'` replaced by `t'`
and nothing else changed; a modifier `m` not replaced becomes `w m`. Alternatives of a `Sum` are a set, the
fields of a `TaggedUnion` a dictionary. -/
inductive Maps (f : Ty → Option Ty) (w : ModId → Ty → Ty) : Ty → Ty → Prop
  | hit {T T'} : f T = some T' → Maps f w T T'
  | leaf {l} : f (.leaf l) = none → Maps f w (.leaf l) (.leaf l)
  | enum {e} : f (.enum e) = none → Maps f w (.enum e) (.enum e)
  | mod {m t t'} : f (.mod m t) = none → Maps f w t t' → Maps f w (.mod m t) (w m t')
  | ordered {k} {fs fs' : List Ty} : f (.node k fs) = none → k.shape ≠ .sum → k.shape ≠ .tagged →
      fs.length = fs'.length →
      (∀ (i : Nat) (t t' : Ty), fs[i]? = some t → fs'[i]? = some t' → Maps f w t t') →
      Maps f w (.node k fs) (.node k fs')
  | sum {k} {fs fs' : List Ty} (g : Ty → Ty) : f (.node k fs) = none → k.shape = .sum → fs'.Nodup →
      (∀ t ∈ fs, Maps f w t (g t)) → (∀ t', t' ∈ fs' ↔ ∃ t ∈ fs, g t = t') →
      Maps f w (.node k fs) (.node k fs')
  | tagged {k names'} {fs fs' : List Ty} : f (.node k fs) = none → k.shape = .tagged →
      names'.Perm k.names → fs.length = k.names.length → fs'.length = names'.length →
      (∀ n t t', (n, t) ∈ k.names.zip fs → (n, t') ∈ names'.zip fs' → Maps f w t t') →
      Maps f w (.node k fs) (.node { k with names := names' } fs')

/-- `Maps` of the fields of a class, the class itself being kept (it does not occur below itself). -/
def MapsFields (f : Ty → Option Ty) (T T' : Ty) : Prop :=
  Maps (fun t => if t = T then none else f t) Ty.mod T T'

/-- The occurrences of `A` (and of its subtypes) are replaced by `B`; a modified class is no occurrence of the
class it modifies. -/
def replaced (W : World) (A B : Ty) (subs : Bool) (t : Ty) : Option Ty :=
  if t = A ∨ subs = true ∧ W.sub t A = true then some B
  else if t.isModified then some t else none

/-- The vector class of family `k` and size `s` derives from the vector class of `V`. -/
def VecSel.Derives (V : VecSel) (k : Nat) (s : Option Nat) : Prop :=
  V.vsub k V.k0 = true ∧ (V.size0 = none ∨ s = V.size0)

/-- Each vector class deriving from the first class of `V` becomes the second one of the same size; with
`keep` under its modifiers, otherwise they are dropped. -/
inductive VecImage (V : VecSel) (keep : Bool) : Ty → Option Ty → Prop
  | vec {T k s ms} : T.unwrap = (.leaf (.vec k s), ms) → V.Derives k s → (keep = true → ms = []) →
      VecImage V keep T (some (.leaf (.vec V.k1 s)))
  | under {T} : keep = true → T.isModified = true → VecImage V keep T none
  | keep {T} : keep = false → T.isModified = true → (∀ k s ms, T.unwrap = (.leaf (.vec k s), ms) → ¬ V.Derives k s) →
      VecImage V keep T (some T)
  | other {T} : T.isModified = false → (∀ k s, T = .leaf (.vec k s) → ¬ V.Derives k s) → VecImage V keep T none

/-- Each class deriving from `A` becomes `B`, under its modifiers. -/
def keepF (W : World) (A B : Ty) (t : Ty) : Option Ty :=
  if t.isModified then none else if W.sub t A then some B else none

/-- A class deriving from `A`, perhaps modified, is `t` or occurs below. -/
def HasHit (W : World) (A : Ty) (t : Ty) : Prop := ∃ s, (s = t ∨ s.Below t) ∧ W.sub s.unwrap.1 A = true

/-- In no class of the field tree does a field type that contains a class deriving from `A` occur below
a field. -/
inductive Apart (W : World) (A : Ty) : Ty → Prop
  | leaf (l) : Apart W A (.leaf l)
  | enum (e) : Apart W A (.enum e)
  | mod (m t) : Apart W A t → Apart W A (.mod m t)
  | node (k fs) : (∀ f ∈ fs, HasHit W A f → ∀ x ∈ fs, ¬ f.Below x) → (∀ t ∈ fs, Apart W A t) →
      Apart W A (.node k fs)

/-- No modified class in the field tree. -/
abbrev Ty.NoMods (T : Ty) : Prop := T.All (fun _ => True) (fun _ _ => False)

/-- No modifier occurs twice on a path to a leaf; `ms`: the path so far. -/
inductive PathsNodup : List ModId → Ty → Prop
  | leaf {ms l} : ms.Nodup → PathsNodup ms (.leaf l)
  | enum {ms e} : ms.Nodup → PathsNodup ms (.enum e)
  | mod {ms m t} : PathsNodup (m :: ms) t → PathsNodup ms (.mod m t)
  | node {ms k fs} : (∀ t ∈ fs, PathsNodup ms t) → PathsNodup ms (.node k fs)

/-- `T'` is `T` with all modifiers moved to the leaves: each leaf carries those on the path to it, innermost
first. `ms`: the path so far. -/
inductive Pushed : List ModId → Ty → Ty → Prop
  | leaf {ms l T'} : T'.unwrap = (.leaf l, ms) → Pushed ms (.leaf l) T'
  | enum {ms e T'} : T'.unwrap = (.enum e, ms) → Pushed ms (.enum e) T'
  | mod {ms m t T'} : Pushed (m :: ms) t T' → Pushed ms (.mod m t) T'
  | ordered {ms k} {fs fs' : List Ty} : k.shape ≠ .sum → k.shape ≠ .tagged → fs.length = fs'.length →
      (∀ (i : Nat) (t t' : Ty), fs[i]? = some t → fs'[i]? = some t' → Pushed ms t t') →
      Pushed ms (.node k fs) (.node k fs')
  | sum {ms k} {fs fs' : List Ty} (g : Ty → Ty) : k.shape = .sum → fs'.Nodup →
      (∀ t ∈ fs, Pushed ms t (g t)) → (∀ t', t' ∈ fs' ↔ ∃ t ∈ fs, g t = t') →
      Pushed ms (.node k fs) (.node k fs')
  | tagged {ms k names'} {fs fs' : List Ty} : k.shape = .tagged →
      names'.Perm k.names → fs.length = k.names.length → fs'.length = names'.length →
      (∀ n t t', (n, t) ∈ k.names.zip fs → (n, t') ∈ names'.zip fs' → Pushed ms t t') →
      Pushed ms (.node k fs) (.node { k with names := names' } fs')

mutual
/-- The classes below `T` in the field tree, in preorder, left to right, each with its modifiers. -/
def Ty.subnodes : Ty → List Ty
  | .leaf _ => []
  | .enum _ => []
  | .mod _ t => t.subnodes
  | .node _ fs => Ty.nodesL fs
def Ty.nodesL : List Ty → List Ty
  | [] => []
  | t :: ts => (t :: t.subnodes) ++ Ty.nodesL ts
end

/-- … including `T`. -/
def Ty.nodes (T : Ty) : List Ty := T :: T.subnodes

/-- A class without fields that is not an enum. -/
def Ty.isLeaf (t : Ty) : Bool := match t.unwrap.1 with | .leaf _ => true | _ => false

/-- The leaves, left to right. -/
def Ty.leaves (T : Ty) : List Ty := T.nodes.filter Ty.isLeaf

/-- The handler for a class. -/
def Ty.ev (t : Ty) : Ev :=
  match t.unwrap.1 with
  | .enum _ => .visitEnum t
  | .node k _ => match k.shape with
    | .product => .visitProduct t
    | .anon => .visitTuple t
    | .tuple => .visitTuple t
    | .tagged => .visitTaggedUnion t
    | .sum => .visitSum t
  | _ => .visitLeaf t

/-- A world: no subclasses, and some order on each `frozenset`. -/
noncomputable def World.std : World where
  sub a b := decide (a = b)
  sub_refl a := by simp
  sub_trans a b c h h' := by simp_all
  canon l := l.toFinset.toList
  mem_canon l t := by simp
  nodup_canon l := Finset.nodup_toList _
  canon_congr l l' h := by
    have : l.toFinset = l'.toFinset := by ext t; simpa using h t
    rw [this]
  canonF _ l := (l : Multiset (Name × Ty)).toList
  perm_canonF _ l := Multiset.coe_eq_coe.1 (by simp)
  canonF_congr _ _ l l' _ _ _ h := by
    have : (l : Multiset (Name × Ty)) = l' := Multiset.coe_eq_coe.2 h
    rw [this]

end HW.Adt
