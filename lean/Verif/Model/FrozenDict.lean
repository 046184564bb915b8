import Mathlib.Data.Multiset.Basic

/-! # `FrozenDict` and `OrderedFrozenDict` (hwtypes/util.py:6-40)

Keys and values are Python objects of a type `α` with any `==` that is an equivalence and any `__hash__` compatible
with it (`PyObj`).  A `dict` is its item list in insertion order.  `hash(tuple)` is an arbitrary function of the
sequence of element hashes, `hash(frozenset)` an arbitrary function of the multiset of element hashes.  Identity as
a shortcut for `==` only matters for objects unequal to themselves, which are left out; so are unhashable values,
for which the constructor raises. -/

namespace HW.Frozen

/-- Objects with `==` and `hash`. -/
structure PyObj (α : Type) where
  eq : α → α → Bool
  hash : α → Int
  refl : ∀ a, eq a a = true
  symm : ∀ a b, eq a b = true → eq b a = true
  trans : ∀ a b c, eq a b = true → eq b c = true → eq a c = true
  compat : ∀ a b, eq a b = true → hash a = hash b
  /-- `hash((a, b, ...))` -/
  tupHash : List Int → Int
  /-- `hash(frozenset(...))` -/
  setHash : Multiset Int → Int

abbrev Items (α : Type) := List (α × α)

variable {α : Type} (O : PyObj α)

/-- `d[k]`. -/
def get (d : Items α) (k : α) : Option α := (d.find? fun e => O.eq e.1 k).map (·.2)

/-- `d[k] = v`: an existing key stays where and as it is. -/
def put : Items α → α → α → Items α
  | [], k, v => [(k, v)]
  | e :: d, k, v => if O.eq e.1 k then (e.1, v) :: d else e :: put d k v

/-- `dict(pairs)`, `OrderedDict(pairs)`. -/
def ofPairs (l : Items α) : Items α := l.foldl (fun d e => put O d e.1 e.2) []

/-- `dict.__eq__` on two dicts. -/
def sameMap (d d' : Items α) : Bool :=
  d.length == d'.length && d.all fun e => match get O d' e.1 with
    | some v => O.eq e.2 v
    | none => false

/-- `all(map(eq, self, other))`. -/
def sameKeys : Items α → Items α → Bool
  | e :: d, e' :: d' => O.eq e.1 e'.1 && sameKeys d d'
  | _, _ => true

inductive Kind
  | dict | odict | fdict | ofdict
  deriving DecidableEq

/-- A dictionary of one of the four classes; for the frozen ones the items of `_d`. -/
structure Obj (α : Type) where
  kind : Kind
  items : Items α

/-- The result of `x == y` for `dict` and `OrderedDict` objects: `OrderedDict.__eq__` is asked first if either is an
`OrderedDict`, and compares the order only against another one. -/
def rawEq (x y : Obj α) : Bool :=
  if x.kind = .odict ∧ y.kind = .odict then sameMap O x.items y.items && sameKeys O x.items y.items
  else sameMap O x.items y.items

/-- The attribute `_d` (util.py:10, 39). -/
def Obj.d (x : Obj α) : Obj α :=
  match x.kind with
  | .ofdict => ⟨.odict, x.items⟩
  | _ => ⟨.dict, x.items⟩

def Kind.frozen : Kind → Bool
  | .fdict | .ofdict => true
  | _ => false

/-- `isinstance` between the frozen classes. -/
def Kind.isinstance : Kind → Kind → Bool
  | .fdict, .fdict | .ofdict, .fdict | .ofdict, .ofdict => true
  | _, _ => false

/-- `FrozenDict.__eq__` against a `dict` or an `OrderedDict`: `self._d == other` (util.py:25-26). -/
def frozenRaw (x y : Obj α) : Bool := rawEq O x.d y

/-- `FrozenDict.__eq__` (util.py:22-26).  In `self._d == other` with `other` frozen, the dict's `__eq__` returns
`NotImplemented` and `other.__eq__(self._d)` decides. -/
def frozenEq (x y : Obj α) : Bool :=
  if y.kind.isinstance x.kind then rawEq O x.d y.d
  else if y.kind.frozen then frozenRaw O y x.d
  else frozenRaw O x y

/-- `x == y`: the method of a right operand of a proper subclass comes first; a dict's `__eq__` returns
`NotImplemented` for frozen ones. -/
def pyEq (x y : Obj α) : Bool :=
  match x.kind.frozen, y.kind.frozen with
  | true, true => if x.kind = .fdict ∧ y.kind = .ofdict then frozenEq O y x else frozenEq O x y
  | true, false => frozenEq O x y
  | false, true => frozenEq O y x
  | false, false => rawEq O x y

/-- `x != y` (util.py:28-29; for `dict` the inverted `__eq__`). -/
def pyNe (x y : Obj α) : Bool := !pyEq O x y

/-- `hash((k, v))`. -/
def itemHash (e : α × α) : Int := O.tupHash [O.hash e.1, O.hash e.2]

/-- `hash(x)` (util.py:11, 31-32, 40); `dict` and `OrderedDict` are not hashable. -/
def pyHash (x : Obj α) : Option Int :=
  match x.kind with
  | .fdict => some (O.setHash (x.items.map (itemHash O)))
  | .ofdict => some (O.tupHash (x.items.map (itemHash O)))
  | _ => none

/-- The constructors. -/
def make (k : Kind) (l : Items α) : Obj α := ⟨k, ofPairs O l⟩

end HW.Frozen
