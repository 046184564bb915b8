import Mathlib.Data.List.Nodup
import Mathlib.Data.List.Perm.Basic
import Mathlib.Data.Nat.Pairing
import Verif.Py.Basic

/-!
# ADT classes (hwtypes/adt.py, adt_meta.py, modifiers.py)

A class is a tree: the type machinery interns classes by content (`_class_cache`, `_sub_class_cache`;
modelled and proved in `Model/Adt/ClassCache.lean`), so class identity is equality of trees.

Simplified:
* only classes in the caches (`cache=True`), each alive throughout;
* bound classes come from an unbound base directly (`Tuple[..]`, `class P(Product)`, `from_fields`), not from
  a subclass statement on a bound class;
* names are numbers.
-/

namespace HW.Adt

abbrev Name := Nat
abbrev ModId := Nat

/-- Classes without fields: vector classes `vec k size` (family `k`, e.g. `BitVector`, `SIntVector`,
`z3BitVector`; `none` for the unsized class) and all others. -/
inductive Leaf
  | cls (c : Nat)
  | vec (k : Nat) (size : Option Nat)
  deriving DecidableEq, Repr

/-- Value of an enum member (`FIELDS_T = int, Auto`, adt_meta.py:588). -/
inductive EVal
  | int (v : Int)
  | auto (i : Nat)
  deriving DecidableEq, Repr

/-- An enum class: its identity and the names and values of its members (adt_meta.py:591-617). -/
structure EnumT where
  id : Nat
  members : List (Name × EVal)
  deriving DecidableEq, Repr

inductive Shape | tuple | anon | product | sum | tagged
  deriving DecidableEq, Repr

/-- An unbound class: `Tuple`, `Product`, … or a user's unbound subclass of one (`user n`), or a modified
unbound class. -/
inductive Base
  | user (n : Nat)
  | mod (m : ModId) (b : Base)
  deriving DecidableEq, Repr

/-- What a bound class has besides its field types: its `unbound_t`; for `Product` and `TaggedUnion` its
`__name__` and the attributes of its body that are neither fields nor dunders (numbered, 0 for none:
adt_meta.py:154-157); the field names. -/
structure Con where
  shape : Shape
  base : Base
  name : Name
  ns : Nat
  names : List Name
  deriving DecidableEq, Repr

inductive Ty
  | leaf (l : Leaf)
  | enum (e : EnumT)
  | node (k : Con) (fs : List Ty)
  | mod (m : ModId) (t : Ty)
  deriving Repr

mutual
def Ty.beq : Ty → Ty → Bool
  | .leaf a, .leaf b => a = b
  | .enum a, .enum b => a = b
  | .node k fs, .node k' fs' => decide (k = k') && Ty.beqs fs fs'
  | .mod m t, .mod m' t' => decide (m = m') && Ty.beq t t'
  | _, _ => false
def Ty.beqs : List Ty → List Ty → Bool
  | [], [] => true
  | a :: l, b :: l' => Ty.beq a b && Ty.beqs l l'
  | _, _ => false
end

mutual
theorem Ty.beq_iff : ∀ a b : Ty, Ty.beq a b = true ↔ a = b
  | .leaf a, b => by cases b <;> simp [Ty.beq]
  | .enum a, b => by cases b <;> simp [Ty.beq]
  | .node k fs, b => by
      cases b with
      | node k' fs' => simp [Ty.beq, Ty.beqs_iff fs fs']
      | _ => simp [Ty.beq]
  | .mod m t, b => by
      cases b with
      | mod m' t' => simp [Ty.beq, Ty.beq_iff t t']
      | _ => simp [Ty.beq]
theorem Ty.beqs_iff : ∀ a b : List Ty, Ty.beqs a b = true ↔ a = b
  | [], b => by cases b <;> simp [Ty.beqs]
  | a :: l, b => by
      cases b with
      | nil => simp [Ty.beqs]
      | cons b l' => simp [Ty.beqs, Ty.beq_iff a b, Ty.beqs_iff l l']
end

/-- Class identity. -/
instance : DecidableEq Ty := fun a b => decidable_of_iff _ (Ty.beq_iff a b)

theorem Ty.induct {P : Ty → Prop} (leaf : ∀ l, P (.leaf l)) (enum : ∀ e, P (.enum e))
    (node : ∀ k fs, (∀ t ∈ fs, P t) → P (.node k fs)) (mod : ∀ m t, P t → P (.mod m t)) (t : Ty) : P t := by
  induction t using Ty.rec (motive_2 := fun l => ∀ t ∈ l, P t) with
  | leaf l => exact leaf l
  | enum e => exact enum e
  | node k fs ih => exact node k fs ih
  | mod m t ih => exact mod m t ih
  | nil t ht => exact absurd ht (by simp)
  | cons a l h1 h2 t ht =>
      rcases List.mem_cons.1 ht with h | h
      · exact h ▸ h1
      · exact h2 t h

/-- What the rest of the program decides: the subclass relation, and the iteration order of the
`frozenset`s that key the unordered classes. -/
structure World where
  /-- `issubclass` -/
  sub : Ty → Ty → Bool
  sub_refl : ∀ a, sub a a = true
  sub_trans : ∀ a b c, sub a b = true → sub b c = true → sub a c = true
  /-- `list(frozenset(l))` -/
  canon : List Ty → List Ty
  mem_canon : ∀ l t, t ∈ canon l ↔ t ∈ l
  nodup_canon : ∀ l, (canon l).Nodup
  canon_congr : ∀ l l', (∀ t, t ∈ l ↔ t ∈ l') → canon l = canon l'
  /-- The order in which the cached `TaggedUnion` with these named fields was defined (the cache key
  is a `frozenset`, adt_meta.py:159-162). -/
  canonF : Con → List (Name × Ty) → List (Name × Ty)
  perm_canonF : ∀ k l, (canonF k l).Perm l
  canonF_congr : ∀ k k' l l', k.base = k'.base → k.name = k'.name → k.ns = k'.ns → l.Perm l' →
    canonF k l = canonF k' l'
  /-- The name of a modified class: that of the modifier followed by that of the class (modifiers.py:52). -/
  modName : ModId → Name → Name := fun m n => Nat.pair m n

/-! ### Class construction -/

/-- `unbound[fs]` for `Tuple` (adt_meta.py:78-107, 353-357). -/
def mkTuple (b : Base) (fs : List Ty) : Ty := .node ⟨.tuple, b, 0, 0, []⟩ fs

/-- `unbound[{names: fs}]` for `AnonymousProduct` (adt_meta.py:376-379). -/
def mkAnon (b : Base) (names : List Name) (fs : List Ty) : Ty := .node ⟨.anon, b, 0, 0, names⟩ fs

/-- `unbound[fs]` for `Sum`: the fields are a `frozenset` (adt_meta.py:90-93). -/
def mkSum (W : World) (b : Base) (fs : List Ty) : Ty := .node ⟨.sum, b, 0, 0, []⟩ (W.canon fs)

/-- `class name(b): names = fs`, `b.from_fields(name, …)` for `Product` (adt_meta.py:466-486). -/
def mkProduct (b : Base) (name : Name) (ns : Nat) (names : List Name) (fs : List Ty) : Ty :=
  .node ⟨.product, b, name, ns, names⟩ fs

/-- … for `TaggedUnion` (adt_meta.py:525-563): the cached class with these fields in any order. -/
def mkTagged (W : World) (b : Base) (name : Name) (ns : Nat) (names : List Name) (fs : List Ty) : Ty :=
  let p := W.canonF ⟨.tagged, b, name, ns, names⟩ (names.zip fs)
  .node ⟨.tagged, b, name, ns, p.map Prod.fst⟩ (p.map Prod.snd)

/-! ### Modifiers (modifiers.py) -/

/-- `is_modified` (modifiers.py:74-75). -/
def Ty.isModified : Ty → Bool
  | .mod _ _ => true
  | _ => false

/-- `unwrap_modifier` (modifiers.py:119-126): modifiers innermost first. -/
def Ty.unwrap : Ty → Ty × List ModId
  | .mod m t => let (u, ms) := t.unwrap; (u, ms ++ [m])
  | t => (t, [])

def Base.hasMod (m : ModId) : Base → Bool
  | .user _ => false
  | .mod m' b => decide (m = m') || b.hasMod m

/-- The modifier is among the ancestors' modifiers. -/
def Ty.hasMod (m : ModId) : Ty → Bool
  | .mod m' t => decide (m = m') || t.hasMod m
  | .node k _ => k.base.hasMod m
  | _ => false

/-- `M(T)` (modifiers.py:39-57).  Applying `M` where `M` is already present repeats a base class:
`TypeError`. -/
def applyMod (m : ModId) (t : Ty) : PyM Ty := if t.hasMod m then .error .typeError else .ok (.mod m t)

/-- `for mod in mods: wrapped = mod(wrapped)`. -/
def applyMods : List ModId → Ty → PyM Ty
  | [], t => .ok t
  | m :: ms, t => do applyMods ms (← applyMod m t)

/-- `wrap_modifier` (modifiers.py:128-134). -/
def wrap (t : Ty) (mods : List ModId) : PyM Ty :=
  if mods.Nodup then applyMods mods t else .error .typeError

/-- Fields and the rest of a bound class with fields; a modified class inherits both, but its `unbound_t` is
the modified unbound class (adt_meta.py:247-280).  `name` is the name of the class without its modifiers. -/
def Ty.view : Ty → Option (Con × List Ty)
  | .node k fs => some (k, fs)
  | .mod m t => t.view.map fun (k, fs) => ({ k with base := .mod m k.base }, fs)
  | _ => none

/-- `T.__name__` of a `Product` or `TaggedUnion`, perhaps modified. -/
def Ty.cname (W : World) : Ty → Name
  | .node k _ => k.name
  | .mod m t => W.modName m (t.cname W)
  | _ => 0

/-- `isinstance(T, BoundMeta)`. -/
def Ty.isBound : Ty → Bool
  | .leaf _ => false
  | .enum _ => true
  | .node _ _ => true
  | .mod _ t => t.isBound

/-- `strip_modifiers` (modifiers.py:137-149). `AnonymousProduct[list]` is a `TypeError` (adt_meta.py:376-378),
`from_fields` drops the class body. -/
def buildSame (W : World) (k : Con) (fs : List Ty) : PyM Ty :=
  match k.shape with
  | .tuple => .ok (mkTuple k.base fs)
  | .anon => .error .typeError
  | .sum => .ok (mkSum W k.base fs)
  | .product => .ok (mkProduct k.base k.name 0 k.names fs)
  | .tagged => .ok (mkTagged W k.base k.name 0 k.names fs)

mutual
def Ty.strip (W : World) : Ty → PyM Ty
  | .mod _ t => t.strip W
  | .node k fs => do buildSame W k (← Ty.strips W fs)
  | t => .ok t
def Ty.strips (W : World) : List Ty → PyM (List Ty)
  | [] => .ok []
  | t :: ts => do
      let t' ← t.strip W
      return t' :: (← Ty.strips W ts)
end

mutual
/-- `push_modifiers` (modifiers.py:152-163); `mods = new_mods + mods` with `new_mods` innermost first. -/
def Ty.push (W : World) : Ty → List ModId → PyM Ty
  | .mod m t, mods => t.push W (m :: mods)
  | .node k fs, mods => do buildSame W k (← Ty.pushs W fs mods)
  | t, mods => wrap t mods
def Ty.pushs (W : World) : List Ty → List ModId → PyM (List Ty)
  | [], _ => .ok []
  | t :: ts, mods => do
      let t' ← t.push W mods
      return t' :: (← Ty.pushs W ts mods)
end

/-! ### `rebind` (adt_meta.py:113-122, 209-222, 631-634) -/

/-- The end of `rebind` for the class `T` with the rest `k`, fields `fs` and new fields `fs'`. -/
def rebuild (W : World) (T : Ty) (k : Con) (fs fs' : List Ty) : PyM Ty :=
  match k.shape with
  | .tuple => .ok (mkTuple k.base fs')
  | .anon => .error .typeError
  | .sum => .ok (mkSum W k.base fs')
  | .product => if fs' = fs then .ok T else .ok (mkProduct k.base k.name 0 k.names fs')
  | .tagged => if fs' = fs then .ok T else .ok (mkTagged W k.base k.name 0 k.names fs')

/-- The end of `rebind`, given the new fields; classes without fields return themselves. -/
def Ty.finishRebind (W : World) (T : Ty) (fs' : List Ty) : PyM Ty :=
  match T.view with
  | some (k, fs) => rebuild W T { k with name := T.cname W } fs fs'
  | none => .ok T

/-- `T == A or (rebind_sub_types and _issubclass(T, A))`. -/
def hit (W : World) (A : Ty) (subs : Bool) (T : Ty) : Bool := decide (T = A) || (subs && W.sub T A)

mutual
/-- The new fields of a class. -/
def Ty.rebFields (W : World) (A B : Ty) (subs rec : Bool) : Ty → PyM (List Ty)
  | .node _ fs => Ty.rebList W A B subs rec fs
  | .mod _ t => Ty.rebFields W A B subs rec t
  | _ => .ok []
def Ty.rebList (W : World) (A B : Ty) (subs rec : Bool) : List Ty → PyM (List Ty)
  | [] => .ok []
  | T :: Ts =>
      (if hit W A subs T then .ok B
        else if rec && T.isBound then Ty.rebFields W A B subs rec T >>= T.finishRebind W
        else .ok T) >>= fun T' => do
      return T' :: (← Ty.rebList W A B subs rec Ts)
end

/-- `T.rebind(A, B, rebind_sub_types, rebind_recursive)`. -/
def Ty.rebind (W : World) (A B : Ty) (subs rec : Bool) (T : Ty) : PyM Ty :=
  if T.isBound then Ty.rebFields W A B subs rec T >>= T.finishRebind W else .error .attributeError

/-! ### adt_util.py -/

/-- The vector class a class derives from. -/
def Ty.asVec : Ty → Option (Nat × Option Nat)
  | .leaf (.vec k s) => some (k, s)
  | .mod _ t => t.asVec
  | _ => none

/-- A vector class given to `rebind_bitvector`: family and size (`none`: unsized), with the
subclass relation between families. -/
structure VecSel where
  vsub : Nat → Nat → Bool
  k0 : Nat
  size0 : Option Nat
  k1 : Nat

/-- `_issubclass(adt, bv_type_0)` -/
def VecSel.selects (V : VecSel) (t : Ty) : Option (Option Nat) :=
  match t.asVec with
  | some (k, s) => if V.vsub k V.k0 ∧ (V.size0 = none ∨ s = V.size0) then some s else none
  | none => none

/-- `new_adt.rebind(field, new_field, rebind_recursive=False)` for each pair in turn (adt_util.py:94-98). -/
def rebindSeq (W : World) : List (Ty × Ty) → Ty → PyM Ty
  | [], t => .ok t
  | (f, f') :: ps, t => do rebindSeq W ps (← Ty.rebind W f f' false false t)

/-- `wrap_modifier(…, mods)` where `keep_modifiers and is_modified(adt)`. -/
def wrapIf (mods : List ModId) (t : Ty) : PyM Ty := if mods = [] then .ok t else wrap t mods

mutual
/-- `rebind_bitvector` (adt_util.py:75-100).  `mods`: the modifiers taken off by the enclosing
`unwrap_modifier`.  `bv_type_1` is an unsized vector class. -/
def Ty.rebindBV (W : World) (V : VecSel) (keep : Bool) : Ty → List ModId → PyM Ty
  | .mod m t, mods =>
      if keep then t.rebindBV W V keep (m :: mods)
      else match V.selects (.mod m t) with
        | some s => .ok (.leaf (.vec V.k1 s))
        | none => if t.isBound then do rebindSeq W (← t.bvPairs W V keep) (.mod m t) else .ok (.mod m t)
  | .leaf l, mods =>
      match V.selects (.leaf l) with
      | some s => wrapIf mods (.leaf (.vec V.k1 s))
      | none => wrapIf mods (.leaf l)
  | .enum e, mods => wrapIf mods (.enum e)
  | .node k fs, mods => do
      let r ← rebindSeq W (← Ty.bvList W V keep fs) (.node k fs)
      wrapIf mods r
/-- `_to_new` (adt_util.py:90-93). -/
def Ty.bvPairs (W : World) (V : VecSel) (keep : Bool) : Ty → PyM (List (Ty × Ty))
  | .node _ fs => Ty.bvList W V keep fs
  | .mod _ t => t.bvPairs W V keep
  | _ => .ok []
def Ty.bvList (W : World) (V : VecSel) (keep : Bool) : List Ty → PyM (List (Ty × Ty))
  | [] => .ok []
  | t :: ts => do
      let t' ← t.rebindBV W V keep []
      return (t, t') :: (← Ty.bvList W V keep ts)
end

mutual
/-- `rebind_keep_modifiers` (adt_util.py:102-116). -/
def Ty.rebindKeep (W : World) (A B : Ty) : Ty → List ModId → PyM Ty
  | .mod m t, mods => Ty.rebindKeep W A B t (m :: mods)
  | .leaf l, mods => wrapIf mods (if W.sub (.leaf l) A then B else .leaf l)
  | .enum e, mods => wrapIf mods (if W.sub (.enum e) A then B else .enum e)
  | .node k fs, mods => do
      let r ← if W.sub (.node k fs) A then .ok B else Ty.keepLoop W A B fs (.node k fs)
      wrapIf mods r
/-- `for field in adt.fields: …` -/
def Ty.keepLoop (W : World) (A B : Ty) : List Ty → Ty → PyM Ty
  | [], acc => .ok acc
  | f :: fs, acc => do
      let f' ← Ty.rebindKeep W A B f []
      Ty.keepLoop W A B fs (← Ty.rebind W f f' false true acc)
end

/-- `rebind_type` (adt_util.py:123-137).  `V` selects `AbstractBitVector` and names `family.BitVector`.
`get_modifier`, called on modified classes, is not imported there. -/
def rebindType (W : World) (V : VecSel) (absBit famBit : Ty) : Ty → PyM Ty
  | .mod _ _ => .error .nameError
  | .leaf l =>
      if (V.selects (.leaf l)).isSome then Ty.rebindBV W V false (.leaf l) []
      else if W.sub (.leaf l) absBit then .ok famBit
      else .ok (.leaf l)
  | .node k fs => do
      let t ← Ty.rebindBV W V false (.node k fs) []
      Ty.rebind W absBit famBit true true t
  | .enum e => .ok (.enum e)

/-! ### Visitors (adt_util.py:12-60) -/

/-- A call of a handler. -/
inductive Ev
  | visitEnum (t : Ty)
  | visitProduct (t : Ty)
  | visitTuple (t : Ty)
  | visitTaggedUnion (t : Ty)
  | visitSum (t : Ty)
  | visitLeaf (t : Ty)
  deriving DecidableEq

/-- The test order of `visit` (adt_util.py:13-27): `AnonymousProduct` is a `Tuple`. -/
def Shape.ev : Shape → Ty → Ev
  | .product, t => .visitProduct t
  | .anon, t => .visitTuple t
  | .tuple, t => .visitTuple t
  | .tagged, t => .visitTaggedUnion t
  | .sum, t => .visitSum t

mutual
/-- `ADTVisitor.visit(T)`, where `whole` is `T` with the modifiers the recursion has passed.  The handlers
record their call and go on as the base class does.  `hasLeaf`: the visitor has a method `visit_leaf` (the base
class only has `visit_Leaf`). -/
def Ty.visitFrom (hasLeaf : Bool) (whole : Ty) : Ty → PyM (List Ev)
  | .leaf _ => if hasLeaf then .ok [.visitLeaf whole] else .error .attributeError
  | .enum _ => .ok [.visitEnum whole]
  | .node k fs => do return k.shape.ev whole :: (← Ty.visits hasLeaf fs)
  | .mod _ t => Ty.visitFrom hasLeaf whole t
def Ty.visits (hasLeaf : Bool) : List Ty → PyM (List Ev)
  | [] => .ok []
  | t :: ts => do
      let a ← t.visitFrom hasLeaf t
      return a ++ (← Ty.visits hasLeaf ts)
end

def Ty.visit (hasLeaf : Bool) (t : Ty) : PyM (List Ev) := t.visitFrom hasLeaf t

end HW.Adt
