import Verif.Model.Adt.Heap

/-!
# ADT values as trees (hwtypes/adt.py, adt_meta.py)

What an ADT value is at one moment: equality, hashing, `value_dict`, `from_values`, `enumerate`.

Simplified:
* cyclic values (a tuple stored in itself) have no tree;
* equality means the truth value of the result; objects that are not ADT values compare and hash as an
  arbitrary equivalence with compatible hash (`Leaves`), and are never equal to ADT values;
* the identity shortcut of tuple comparison changes nothing, as equality is reflexive.
-/

namespace HW.Adt

inductive Val
  | leaf (T : Ty) (p : Nat)
  | enum (e : EnumT) (i : Nat)
  | tup (T : Ty) (asgn : Bool) (vs : List Val)
  | sum (T : Ty) (v : Val)
  | tag (T : Ty) (i : Nat) (v : Val)

/-- `type(v)` -/
def Val.cls : Val → Ty
  | .leaf T _ => T
  | .enum e _ => .enum e
  | .tup T _ _ => T
  | .sum T _ => T
  | .tag T _ _ => T

/-- `isinstance(v, T)` -/
def Val.isinst (W : World) (v : Val) (T : Ty) : Bool := W.sub v.cls T

/-- The tree of an object, up to depth `n`. -/
def Store.read (h : Store) : Nat → Ref → Option Val
  | 0, _ => none
  | n + 1, r =>
      match h[r]? with
      | none => none
      | some (.leaf T p) => some (.leaf T p)
      | some (.enum e i) => some (.enum e i)
      | some (.tup T a vs) => (vs.mapM (h.read n)).map (.tup T a)
      | some (.sum T v) => (h.read n v).map (.sum T)
      | some (.tag T i v) => (h.read n v).map (.tag T i)

/-! ### Equality -/

/-- Equality and hash of the other objects. -/
structure Leaves where
  eq : Ty × Nat → Ty × Nat → Bool
  refl : ∀ a, eq a a = true
  symm : ∀ a b, eq a b = eq b a
  trans : ∀ a b c, eq a b = true → eq b c = true → eq a c = true
  hash : Ty × Nat → Int
  hash_eq : ∀ a b, eq a b = true → hash a = hash b
  /-- `hash` of an `Auto` object -/
  hashAuto : Nat → Int
  /-- `hash` of a tuple, from the hashes of its items -/
  hashTuple : List Int → Int

/-- CPython's `a == b` for objects whose `__eq__` answers instances of their own class only: which object's
`__eq__` decides (`true`: that of `a`), `none` if neither does.  The right operand is asked first if its class is a
proper subclass. -/
def dispatch (W : World) (a b : Ty) : Option Bool :=
  if a ≠ b ∧ W.sub b a then (if W.sub a b then some false else some true)
  else if W.sub b a then some true
  else if W.sub a b then some false
  else none

/-- For `x == y`, or `y == x` if `flip`: whether `y.__eq__(x)` decides. -/
def decides (W : World) (flip : Bool) (x y : Ty) : Option Bool :=
  if flip then dispatch W y x else (dispatch W x y).map not

/-- `member._value_` -/
def EnumT.value (e : EnumT) (i : Nat) : Option EVal := e.members[i]?.map Prod.snd

mutual
/-- `x == y`, or `y == x` if `flip`: `__eq__` of Tuple (adt.py:33-37), Sum (adt.py:137-141), TaggedUnion
(adt.py:226-230), Enum (adt.py:266-270).  `_value_ == other._value_` is the same problem one level down, with the
receiver's value on the left. -/
def Val.eqv (W : World) (L : Leaves) : Bool → Val → Val → Bool
  | f, .leaf T p, .leaf T' p' => if f then L.eq (T', p') (T, p) else L.eq (T, p) (T', p')
  | f, .enum e i, .enum e' i' =>
      match decides W f (.enum e) (.enum e') with
      | some _ => decide (e.value i = e'.value i')
      | none => false
  | f, .tup T a vs, .tup T' a' vs' =>
      match decides W f T T' with
      | some f' => decide (a = a') && Val.eqvs W L f' vs vs'
      | none => false
  | f, .sum T v, .sum T' v' =>
      match decides W f T T' with
      | some f' => Val.eqv W L f' v v'
      | none => false
  | f, .sum T v, .tag T' _ v' =>
      match decides W f T T' with
      | some false => Val.eqv W L false v v'
      | _ => false
  | f, .tag T _ v, .sum T' v' =>
      match decides W f T T' with
      | some true => Val.eqv W L true v v'
      | _ => false
  | f, .tag T i v, .tag T' i' v' =>
      match decides W f T T' with
      | some f' => decide (i = i') && Val.eqv W L f' v v'
      | none => false
  | _, _, _ => false
/-- Two tuples, or two lists. -/
def Val.eqvs (W : World) (L : Leaves) : Bool → List Val → List Val → Bool
  | _, [], [] => true
  | f, x :: xs, y :: ys => Val.eqv W L f x y && Val.eqvs W L f xs ys
  | _, _, _ => false
end

/-- `x == y` -/
def Val.eq (W : World) (L : Leaves) (x y : Val) : Bool := Val.eqv W L false x y

/-- `x != y` of two ADT values: `not (self == other)` (adt.py:39-40, 143-144, 272-273), asked of the right operand
first if its class is a proper subclass; `__ne__` never returns `NotImplemented`. -/
def Val.ne (W : World) (L : Leaves) (x y : Val) : Bool :=
  if x.cls ≠ y.cls ∧ W.sub y.cls x.cls then !(Val.eq W L y x) else !(Val.eq W L x y)

/-! ### Hash -/

/-- `hash` of an int (64-bit CPython). -/
def hashInt (n : Int) : Int :=
  let m : Int := 2 ^ 61 - 1
  let h := if n < 0 then -((-n) % m) else n % m
  if h = -1 then -2 else h

/-- What `hash(x)` makes of the int that `__hash__` returns. -/
def hashSlot (n : Int) : Int :=
  if -(2 ^ 63) ≤ n ∧ n < 2 ^ 63 then (if n = -1 then -2 else n) else hashInt n

def Leaves.hashE (L : Leaves) : EVal → Int
  | .int v => hashInt v
  | .auto i => L.hashAuto i

mutual
/-- `hash(v)`: Tuple (adt.py:42-43; a list is not hashable), Sum (adt.py:146-147), TaggedUnion (adt.py:232-233), Enum
(adt.py:275-276). -/
def Val.hash (L : Leaves) : Val → PyM Int
  | .leaf T p => .ok (L.hash (T, p))
  | .enum e i => match e.value i with
    | some v => .ok (L.hashE v)
    | none => .error .attributeError
  | .tup _ a vs => if a then .error .typeError else do return L.hashTuple (← Val.hashes L vs)
  | .sum _ v => Val.hash L v
  | .tag _ i v => do return hashSlot (hashInt i + (← Val.hash L v))
def Val.hashes (L : Leaves) : List Val → PyM (List Int)
  | [] => .ok []
  | v :: vs => do
      let h ← Val.hash L v
      return h :: (← Val.hashes L vs)
end

/-! ### Dictionaries -/

/-- Keys of `field_dict`: positions (Tuple), names (products, TaggedUnion), types (Sum). -/
inductive Key
  | int (i : Nat)
  | name (n : Name)
  | ty (T : Ty)
  deriving DecidableEq

/-- `cls.field_dict` (adt_meta.py:370-372, 461-463, 520-522, 571-573). -/
def fieldDict (k : Con) (fs : List Ty) : List (Key × Ty) :=
  match k.shape with
  | .tuple => fs.mapIdx fun i t => (.int i, t)
  | .sum => fs.map fun t => (.ty t, t)
  | _ => (k.names.map Key.name).zip fs

/-- `type(None)` -/
def noneTy : Ty := .leaf (.cls 99)

/-- `None` -/
def noneV : Val := .leaf noneTy 0

/-- `v is None`; the class has no other instance. -/
def Val.isNone : Val → Bool
  | .leaf T _ => decide (T = noneTy)
  | _ => false

/-- `v.value_dict` (adt.py:59-64, 98-103, 168-176, 238-247; for unions without a field called `Match`). -/
def Val.valueDict (W : World) (v : Val) : PyM (List (Key × Val)) :=
  match v.cls.view with
  | none => .error .attributeError
  | some (k, fs) =>
      match v with
      | .tup _ _ vs =>
          if vs.length < fs.length then .error .indexError
          else .ok (((fieldDict k fs).map Prod.fst).zip vs)
      | .sum _ v => .ok (fs.map fun t => (.ty t, if v.isinst W t then v else noneV))
      | .tag _ i v => .ok (k.names.mapIdx fun j n => (.name n, if i = j then v else noneV))
      | _ => .error .attributeError

/-- `value_dict.keys() == cls.field_dict.keys()` -/
def sameKeys (d : List (Key × Val)) (fd : List (Key × Ty)) : Bool :=
  d.all (fun p => (fd.map Prod.fst).contains p.1) && fd.all (fun p => (d.map Prod.fst).contains p.1)

/-- `args[k] = v` -/
def putArg (l : List Val) (p : Key × Val) : List Val :=
  match p.1 with
  | .int i => l.set i p.2
  | _ => l

/-- `Tuple._from_kwargs` (adt.py:81-87). -/
def fromArgs (n : Nat) (d : List (Key × Val)) : List Val := d.foldl putArg (List.replicate n noneV)

def Key.asName : Key → Name
  | .name n => n
  | _ => 0

/-- The loop over `value_dict.items()`: every value an instance of the field's type (or `None`, where allowed). -/
def wellTyped (W : World) (none : Bool) (k : Con) (fs : List Ty) (d : List (Key × Val)) : Bool := d.all fun p =>
  match (fieldDict k fs).lookup p.1 with
  | some t => (none && p.2.isNone) || p.2.isinst W t
  | _ => false

/-- `cls.from_values(d)` (adt.py:66-87, 105-107, 178-201, 249-252); the keys of `d` are distinct. -/
def fromValues (W : World) (T : Ty) (d : List (Key × Val)) : PyM Val :=
  match T.view with
  | none => .error .attributeError
  | some (k, fs) =>
      if ¬ sameKeys d (fieldDict k fs) then .error .valueError
      else
        match k.shape with
        | .sum =>
            if ¬ wellTyped W true k fs d then .error .typeError
            else match d.filter (fun p => !p.2.isNone) with
              | [p] => do return .sum T (← callSum (fun v => some v.cls) fs [p.2] [])
              | _ => .error .valueError
        | .tagged =>
            if ¬ wellTyped W true k fs d then .error .typeError
            else match d.filter (fun p => !p.2.isNone) with
              | [p] => do
                  let (i, v) ← callTagged (Val.isinst W) k fs [] [(p.1.asName, p.2)]
                  return .tag T i v
              | _ => .error .valueError
        | .tuple =>
            if ¬ wellTyped W false k fs d then .error .typeError
            else do return .tup T false (← callTuple (Val.isinst W) k fs (fromArgs d.length d) [])
        | _ =>
            if ¬ wellTyped W false k fs d then .error .typeError
            else do return .tup T false (← callTuple (Val.isinst W) k fs [] (d.map fun p => (p.1.asName, p.2)))

/-! ### Enumeration -/

/-- What calls of classes without fields give: `field(0)` and `field()`. -/
structure Calls where
  zero : Ty → PyM Val
  none : Ty → PyM Val

/-- `T(*pos, **kw)` on trees. -/
def constructV (W : World) (T : Ty) (pos : List Val) (kw : List (Name × Val)) : PyM Val :=
  match T.view with
  | none => .error .typeError
  | some (k, fs) =>
      match k.shape with
      | .sum => do return .sum T (← callSum (fun v => some v.cls) fs pos kw)
      | .tagged => do
          let (i, v) ← callTagged (Val.isinst W) k fs pos kw
          return .tag T i v
      | _ => do return .tup T false (← callTuple (Val.isinst W) k fs pos kw)

/-- `itertools.product` -/
def product {α : Type} : List (List α) → List (List α)
  | [] => [[]]
  | l :: ls => l.flatMap fun a => (product ls).map (a :: ·)

/-- `enumerate` of a class like `k`, given what its fields enumerate
(adt_meta.py:359-368, 513-518, 575-580). -/
def enumerateWith (W : World) (T : Ty) (k : Con) (ls : List (List Val)) : PyM (List Val) :=
  match k.shape with
  | .sum => (ls.flatten).mapM fun v => constructV W T [v] []
  | .tagged => ((k.names.zip ls).flatMap fun p => p.2.map fun v => (p.1, v)).mapM fun p => constructV W T [] [p]
  | _ => (product ls).mapM fun args => constructV W T args []

/-- The class has `field(0)` called on it by `enumerate`, not `field()`. -/
def Con.zero (k : Con) : Bool := decide (k.shape ≠ .sum ∧ k.shape ≠ .tagged)

mutual
/-- `list(T.enumerate())`, as `cls` sees it (`cls` is `T` or a modification of it); Enum: adt_meta.py:628-629. -/
def Ty.enumAs (W : World) (C : Calls) (cls : Ty) : Ty → PyM (List Val)
  | .leaf _ => .error .attributeError
  | .enum e => .ok ((List.range e.members.length).map (.enum e))
  | .node k fs => do enumerateWith W cls k (← Ty.enumFields W C k.zero fs)
  | .mod _ t => Ty.enumAs W C cls t
/-- The iterators of the fields. -/
def Ty.enumFields (W : World) (C : Calls) (zero : Bool) : List Ty → PyM (List (List Val))
  | [] => .ok []
  | t :: ts => do
      let l ← if t.isBound then Ty.enumAs W C t t
        else (if zero then C.zero t else C.none t).map fun v => [v]
      return l :: (← Ty.enumFields W C zero ts)
end

/-- `list(T.enumerate())` -/
def Ty.enumerate (W : World) (C : Calls) (T : Ty) : PyM (List Val) := Ty.enumAs W C T T

/-! ### Instance visitor (adt_util.py:12-49, 63-73) -/

/-- A call of a handler, with its argument. -/
inductive IEv
  | visitEnum (v : Val)
  | visitProduct (v : Val)
  | visitTuple (v : Val)
  | visitTaggedUnion (v : Val)
  | visitSum (v : Val)
  | visitLeaf (v : Val)

/-- The test order of `visit`. -/
def Shape.iev : Shape → Val → IEv
  | .product, v => .visitProduct v
  | .anon, v => .visitTuple v
  | .tuple, v => .visitTuple v
  | .tagged, v => .visitTaggedUnion v
  | .sum, v => .visitSum v

mutual
/-- `ADTInstVisitor.visit(v)`; the handlers record their call and go on as the base class does: over the values of
`value_dict` that are not `None`. -/
def Val.visit (W : World) (hasLeaf : Bool) : Val → PyM (List IEv)
  | .leaf T p => if hasLeaf then .ok [.visitLeaf (.leaf T p)] else .error .attributeError
  | .enum e i => .ok [.visitEnum (.enum e i)]
  | .tup T a vs =>
      match T.view with
      | none => .error .attributeError
      | some (k, fs) =>
          if vs.length < fs.length then .error .indexError
          else do return k.shape.iev (.tup T a vs) :: (← Val.visits W hasLeaf fs.length vs)
  | .sum T v =>
      match T.view with
      | none => .error .attributeError
      | some (k, fs) => do
          let evs ← (fs.filter fun t => v.isinst W t && !v.isNone).mapM fun _ => Val.visit W hasLeaf v
          return k.shape.iev (.sum T v) :: evs.flatten
  | .tag T i v =>
      match T.view with
      | none => .error .attributeError
      | some (k, _) =>
          if i < k.names.length ∧ v.isNone = false then do
            return k.shape.iev (.tag T i v) :: (← Val.visit W hasLeaf v)
          else .ok [k.shape.iev (.tag T i v)]
/-- The first `n` values of a tuple. -/
def Val.visits (W : World) (hasLeaf : Bool) : Nat → List Val → PyM (List IEv)
  | n + 1, v :: vs => do
      let a ← if v.isNone then .ok [] else Val.visit W hasLeaf v
      return a ++ (← Val.visits W hasLeaf n vs)
  | _, _ => .ok []
end

/-! ### Enum members -/

/-- `getattr(member, n)` for a name that is not private (adt.py:278-287): member names are refused, anything else is
the ordinary lookup. -/
def EnumT.getattr {α : Type} (e : EnumT) (n : Name) (ordinary : PyM α) : PyM α :=
  if (e.members.map Prod.fst).contains n then .error .attributeError else ordinary

end HW.Adt
