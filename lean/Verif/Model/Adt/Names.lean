import Verif.Py.Basic

/-! # Attribute names in ADT classes

Which entries of a class body become fields (adt_meta.py:17-59, 128-146), the check of `from_fields`
(adt_meta.py:187-192), the namespace of an anonymous product (adt_meta.py:248-250, 436-459), and the constructor
whose source it generates from the field names (adt_meta.py:395-412). -/

namespace HW.Adt.Names

abbrev Str := List Char

/-- adt_meta.py:17-20. -/
def isDunder (n : Str) : Bool :=
  decide (4 < n.length) && n.take 2 == ['_', '_'] && n.drop (n.length - 2) == ['_', '_'] &&
    n[2]? != some '_' && n[n.length - 3]? != some '_'

/-- adt_meta.py:23-26. -/
def isSunder (n : Str) : Bool :=
  decide (2 < n.length) && n[0]? == some '_' && n[n.length - 1]? == some '_' &&
    n[1]? != some '_' && n[n.length - 2]? != some '_'

/-- adt_meta.py:39-47. -/
def reservedNames : List Str :=
  [['e', 'n', 'u', 'm', 'e', 'r', 'a', 't', 'e'],
   ['f', 'i', 'e', 'l', 'd', 's'],
   ['f', 'i', 'e', 'l', 'd', '_', 'd', 'i', 'c', 't'],
   ['i', 's', '_', 'b', 'o', 'u', 'n', 'd'],
   ['i', 's', '_', 'c', 'a', 'c', 'h', 'e', 'd'],
   ['v', 'a', 'l', 'u', 'e', '_', 'd', 'i', 'c', 't'],
   ['f', 'r', 'o', 'm', '_', 'v', 'a', 'l', 'u', 'e', 's']]

/-- adt_meta.py:49-57. -/
def reservedSunders : List Str :=
  [['_', 'v', 'a', 'l', 'u', 'e', '_'],
   ['_', 't', 'a', 'g', '_'],
   ['_', 'c', 'a', 'c', 'h', 'e', 'd', '_'],
   ['_', 'f', 'i', 'e', 'l', 'd', 's', '_'],
   ['_', 'f', 'i', 'e', 'l', 'd', '_', 't', 'a', 'b', 'l', 'e', '_'],
   ['_', 'u', 'n', 'b', 'o', 'u', 'n', 'd', '_', 'b', 'a', 's', 'e', '_'],
   ['_', 's', 'y', 'n', 't', 'a', 'x', '_']]

/-- adt_meta.py:59. -/
def reservedAttrs : List Str := reservedNames ++ reservedSunders

/-- What is asked of a value: `_is_descriptor(v)`, `isinstance(v, type)`, `isinstance(v, (int, Auto))`. -/
structure Obj where
  id : Nat
  descr : Bool := false
  isType : Bool := false
  isInt : Bool := false
  deriving DecidableEq

/-- The metaclasses with class syntax. -/
inductive Meta
  | product | tagged | enum
  deriving DecidableEq

/-- `isinstance(v, mcs.FIELDS_T)` (adt_meta.py:467, 526, 588). -/
def Meta.isField : Meta → Obj → Bool
  | .enum, v => v.isInt
  | _, v => v.isType

/-- The loop of `_AttrSyntax.__new__` (adt_meta.py:132-146): fields and the rest. -/
def scan (m : Meta) : List (Str × Obj) → PyM (List (Str × Obj) × List (Str × Obj))
  | [] => .ok ([], [])
  | (k, v) :: l =>
      if k ∈ reservedSunders then .error .reservedNameError
      else if isDunder k || isSunder k || v.descr then do
        let r ← scan m l
        return (r.1, (k, v) :: r.2)
      else if k ∈ reservedNames then .error .reservedNameError
      else if m.isField v then do
        let r ← scan m l
        return ((k, v) :: r.1, r.2)
      else do
        let r ← scan m l
        return (r.1, (k, v) :: r.2)

/-- `from_fields` up to `_cache_handler` (adt_meta.py:182-202): the fields it passes on. -/
def fromFields (bound : Bool) (fields : List (Str × Obj)) : PyM (List (Str × Obj)) :=
  if bound then .error .typeError
  else if fields.any fun e => decide (e.1 ∈ reservedAttrs) then .error .reservedNameError
  else .ok fields

def modName : Str := ['_', '_', 'm', 'o', 'd', 'u', 'l', 'e', '_', '_']
def qualName : Str := ['_', '_', 'q', 'u', 'a', 'l', 'n', 'a', 'm', 'e', '_', '_']

/-- `AnonymousProduct[idx]`: `_namespace_from_idx` (adt_meta.py:436-459), then the check in `BoundMeta.__new__`
(adt_meta.py:248-250).  The field names. -/
def anonymous (idx : List (Str × Obj)) : PyM (List Str) :=
  if idx.any fun e => decide (e.1 = modName) then .error .assertionError
  else if idx.any fun e => decide (e.1 ∈ reservedSunders) then .error .reservedNameError
  else .ok (idx.map (·.1))

/-! ## The generated constructor -/

def clsName : Str := ['c', 'l', 's']
def selfName : Str := ['s', 'e', 'l', 'f']
def superName : Str := ['s', 'u', 'p', 'e', 'r']

/-- `def f(first, *names)` compiles: every name is an identifier (not a keyword) and none occurs twice. -/
def compiles (ident : Str → Bool) (first : Str) (names : List Str) : Bool :=
  names.all ident && decide (first :: names).Nodup

/-- Both functions compile (adt_meta.py:398-412). -/
def creates (ident : Str → Bool) (names : List Str) : Bool :=
  compiles ident clsName names && compiles ident selfName names

def look {V : Type} (env : List (Str × V)) (n : Str) : Option V := (env.find? fun e => e.1 = n).map (·.2)

/-- Binding of a call's arguments to parameters: the values in parameter order. -/
def bindRest {V : Type} (params : List Str) (kw : List (Str × V)) : PyM (List (Str × V)) :=
  match params with
  | [] => .ok []
  | p :: ps => match look kw p with
    | none => .error .typeError
    | some v => do
        let r ← bindRest ps kw
        return (p, v) :: r

def bindArgs {V : Type} (params : List Str) (pos : List V) (kw : List (Str × V)) : PyM (List (Str × V)) :=
  if params.length < pos.length then .error .typeError
  else if kw.any fun e => decide (e.1 ∉ params.drop pos.length) then .error .typeError
  else do
    let r ← bindRest (params.drop pos.length) kw
    return params.zip pos ++ r

/-- What the body `super(uname, first).__new__(first, *names)` does. -/
inductive Outcome (V : Type)
  /-- hands these values to the tuple class -/
  | passes (vs : List V)
  /-- calls an argument: `super` is a parameter -/
  | calls (v : V)
  /-- `super` gets an argument in place of the class -/
  | superOf (v : V)
  deriving DecidableEq

/-- `def __new__(first, *names): return super(uname, first).__new__(first, *names)` called with `pos` and `kw`
(without `first`). -/
def construct {V : Type} (uname : Str) (names : List Str) (pos : List V) (kw : List (Str × V)) : PyM (Outcome V) := do
  let env ← bindArgs names pos kw
  match look env superName with
  | some v => return .calls v
  | none => match look env uname with
    | some v => return .superOf v
    | none => return .passes (names.filterMap (look env))

end HW.Adt.Names
