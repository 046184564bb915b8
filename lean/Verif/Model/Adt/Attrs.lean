import Verif.Model.Adt.Names

/-! # Attribute access on ADT classes with class syntax

Where `C.k` and `x.k` lead for a class `C` declared in class syntax (Product, TaggedUnion, Enum) and its instances `x`: the
attributes of the library (adt.py, adt_meta.py), of the user's class body and base classes, and the descriptors made for the
fields.  Python's rule is that of `type.__getattribute__` and `object.__getattribute__` (CPython Objects/typeobject.c,
object.c): a data descriptor found on the type wins, then the object's own dictionary (for a class: those of its MRO), then
what the type has.

Left out: dunder attributes and those of `object`, and the private methods of the metaclasses, which are only called on classes
that have no fields yet; attributes assigned after the class statement. -/

namespace HW.Adt.Attrs
open Names

def nEnumerate : Str := ['e', 'n', 'u', 'm', 'e', 'r', 'a', 't', 'e']
def nFields : Str := ['f', 'i', 'e', 'l', 'd', 's']
def nFieldDict : Str := ['f', 'i', 'e', 'l', 'd', '_', 'd', 'i', 'c', 't']
def nIsBound : Str := ['i', 's', '_', 'b', 'o', 'u', 'n', 'd']
def nIsCached : Str := ['i', 's', '_', 'c', 'a', 'c', 'h', 'e', 'd']
def nUnboundT : Str := ['u', 'n', 'b', 'o', 'u', 'n', 'd', '_', 't']
def nRebind : Str := ['r', 'e', 'b', 'i', 'n', 'd']
def nFromFields : Str := ['f', 'r', 'o', 'm', '_', 'f', 'i', 'e', 'l', 'd', 's']
def nOrdered : Str := ['O', 'R', 'D', 'E', 'R', 'E', 'D']
def nFieldsT : Str := ['F', 'I', 'E', 'L', 'D', 'S', '_', 'T']
def nAuto : Str := ['A', 'u', 't', 'o']
def nMro : Str := ['m', 'r', 'o']
def nValueDict : Str := ['v', 'a', 'l', 'u', 'e', '_', 'd', 'i', 'c', 't']
def nFromValues : Str := ['f', 'r', 'o', 'm', '_', 'v', 'a', 'l', 'u', 'e', 's']
def nFromKwargs : Str := ['_', 'f', 'r', 'o', 'm', '_', 'k', 'w', 'a', 'r', 'g', 's']
def nValue : Str := ['v', 'a', 'l', 'u', 'e']
def nMatch : Str := ['M', 'a', 't', 'c', 'h']
def nName : Str := ['n', 'a', 'm', 'e']
def sValue : Str := ['_', 'v', 'a', 'l', 'u', 'e', '_']
def sTag : Str := ['_', 't', 'a', 'g', '_']
def sName : Str := ['_', 'n', 'a', 'm', 'e', '_']

/-- The classes of the library that define attributes. -/
inductive Owner
  | type | getitemSyntax | attrSyntax | boundMeta | tupleMeta | anonymousProductMeta | productMeta | sumMeta | taggedUnionMeta
  | enumMeta | tuple | anonymousProduct | sum | taggedUnion | enum
  deriving DecidableEq

/-- What a class dictionary holds: `lib o d` is the attribute of that name in the class `o` of the library, `d` says whether
it is a data descriptor (a property); `user v d` an object of the user; `typed i` the `TypedProperty` of the `i`-th field;
`elem i` the `i`-th enum member. -/
inductive Attr
  | lib (o : Owner) (data : Bool)
  | user (v : Nat) (data : Bool)
  | typed (i : Nat)
  | elem (i : Nat)
  deriving DecidableEq

/-- `hasattr(type(v), '__set__')`: properties and `TypedProperty` (util.py:43-126). -/
def Attr.isData : Attr → Bool
  | .lib _ d => d
  | .user _ d => d
  | .typed _ => true
  | .elem _ => false

abbrev Dict := List (Str × Attr)

/-- First class of the MRO that has the name. -/
def find : List Dict → Str → Option Attr
  | [], _ => none
  | d :: l, n => (Names.look d n).orElse fun _ => find l n

/-- adt_meta.py:225-227, 321-347. -/
def boundMetaDict : Dict :=
  [(nOrdered, .lib .boundMeta false), (nFields, .lib .boundMeta true), (nFieldDict, .lib .boundMeta true),
   (nIsBound, .lib .boundMeta true), (nUnboundT, .lib .boundMeta true), (nIsCached, .lib .boundMeta true)]

/-- adt_meta.py:73-122; `type.mro`. -/
def getitemSyntaxDict : Dict := [(nOrdered, .lib .getitemSyntax false), (nRebind, .lib .getitemSyntax false)]
def typeDict : Dict := [(nMro, .lib .type false)]

/-- adt_meta.py:126-130, 182-222. -/
def attrSyntaxDict : Dict :=
  [(nFieldsT, .lib .attrSyntax false), (nOrdered, .lib .attrSyntax false), (nFromFields, .lib .attrSyntax false),
   (nRebind, .lib .attrSyntax false)]

/-- The MRO of the metaclass (adt_meta.py:350-372, 375-463, 466-495, 498-522, 525-580, 583-634). -/
def metaMro : Meta → List Dict
  | .product => [
      [(nFieldsT, .lib .productMeta false), (nOrdered, .lib .productMeta false)],
      attrSyntaxDict,
      [(nFieldDict, .lib .anonymousProductMeta true)],
      [(nOrdered, .lib .tupleMeta false), (nEnumerate, .lib .tupleMeta false), (nFieldDict, .lib .tupleMeta true)],
      boundMetaDict, getitemSyntaxDict, typeDict]
  | .tagged => [
      [(nFieldsT, .lib .taggedUnionMeta false), (nOrdered, .lib .taggedUnionMeta false),
       (nFieldDict, .lib .taggedUnionMeta true), (nEnumerate, .lib .taggedUnionMeta false)],
      attrSyntaxDict,
      [(nOrdered, .lib .sumMeta false), (nEnumerate, .lib .sumMeta false), (nFieldDict, .lib .sumMeta true)],
      boundMetaDict, getitemSyntaxDict, typeDict]
  | .enum => [
      [(nAuto, .lib .enumMeta false), (nFieldsT, .lib .enumMeta false), (nOrdered, .lib .enumMeta false),
       (nFieldDict, .lib .enumMeta true), (nEnumerate, .lib .enumMeta false), (nRebind, .lib .enumMeta false)],
      attrSyntaxDict, boundMetaDict, getitemSyntaxDict, typeDict]

/-- A class: its fields in order, the other entries of its body, and the dictionaries of the user's base classes between it
and the class of the library (single inheritance). -/
structure Cls where
  m : Meta
  fields : List Str
  own : Dict
  bases : List Dict

/-- `TypedProperty`s or members under the names of the fields. -/
def fieldDict (mk : Nat → Attr) : Nat → List Str → Dict
  | _, [] => []
  | i, k :: l => (k, mk i) :: fieldDict mk (i + 1) l

/-- adt.py:59-87. -/
def tupleDict : Dict :=
  [(nValueDict, .lib .tuple true), (nFromValues, .lib .tuple false), (nFromKwargs, .lib .tuple false), (nValue, .lib .tuple true)]

/-- The MRO of the class.  The properties of a Product are in its base `AnonymousProduct[fields]` (adt_meta.py:436-459, 481-482),
after the user's base classes; those of a TaggedUnion (adt_meta.py:543-559) and the members of an Enum (adt_meta.py:604-609)
are in the class itself. -/
def Cls.mro (c : Cls) : List Dict :=
  match c.m with
  | .product => c.own :: (c.bases ++ [fieldDict .typed 0 c.fields,
      [(nValueDict, .lib .anonymousProduct true), (nFromKwargs, .lib .anonymousProduct false)], tupleDict])
  | .tagged => (fieldDict .typed 0 c.fields ++ c.own) :: (c.bases ++ [
      [(nValueDict, .lib .taggedUnion true), (nFromKwargs, .lib .taggedUnion false)],
      [(nMatch, .lib .sum false), (nValueDict, .lib .sum true), (nFromValues, .lib .sum false), (nFromKwargs, .lib .sum false),
       (nValue, .lib .sum true)]])
  | .enum => (fieldDict .elem 0 c.fields ++ c.own) :: (c.bases ++ [[(nName, .lib .enum true), (nValue, .lib .enum true)]])

/-- What an attribute access gives. -/
inductive Got
  | lib (o : Owner)
  | user (v : Nat)
  | fieldType (i : Nat)
  | fieldValue (i : Nat)
  | elem (i : Nat)
  | stored
  | called (g : Got) (i : Nat)
  | attributeError
  deriving DecidableEq

/-- Read on the class; `TypedProperty.__get__(None, cls)` is the type (util.py:93-98). -/
def Attr.onClass : Attr → Got
  | .lib o _ => .lib o
  | .user v _ => .user v
  | .typed i => .fieldType i
  | .elem i => .elem i

/-- `C.n` (`type.__getattribute__`). -/
def Cls.classGet (c : Cls) (n : Str) : Got :=
  match find (metaMro c.m) n with
  | some a => if a.isData then a.onClass else match find c.mro n with
      | some b => b.onClass
      | none => a.onClass
  | none => match find c.mro n with
      | some b => b.onClass
      | none => .attributeError

/-- Read on an instance.  The getter of a Product field is `self[i]` (adt_meta.py:443-445); that of a TaggedUnion field calls
`type(self).Match` (544-547): `called g i` is what a call of `g` gives. -/
def Cls.onInst (c : Cls) : Attr → Got
  | .lib o _ => .lib o
  | .user v _ => .user v
  | .typed i => match c.m with
    | .tagged => match c.classGet nMatch with
      | .lib .sum => .fieldValue i
      | g => .called g i
    | _ => .fieldValue i
  | .elem i => .elem i

/-- The dictionary of an instance (adt.py:31, 135, 257; adt_meta.py:551-552, 607). -/
def stores : Meta → List Str
  | .product => [sValue]
  | .tagged => [sValue, sTag]
  | .enum => [sValue, sName]

/-- `x.n` (`object.__getattribute__`; for an Enum adt.py:278-287). -/
def Cls.instGet (c : Cls) (n : Str) : Got :=
  if c.m = .enum ∧ n ∈ c.fields then .attributeError
  else match find c.mro n with
    | some a => if a.isData then c.onInst a else if n ∈ stores c.m then .stored else c.onInst a
    | none => if n ∈ stores c.m then .stored else .attributeError

/-- The class statement, for a body that declares a field: the loop of `_AttrSyntax.__new__`, then `_from_fields`.  The members
of an Enum are set with `setattr(cls, name, elem)` (adt_meta.py:609), which the properties of the metaclass refuse. -/
def create (m : Meta) (body : List (Str × Names.Obj)) (data : Nat → Bool) (bases : List Dict) : PyM Cls := do
  let (fs, rest) ← scan m body
  let c : Cls := ⟨m, fs.map (·.1), rest.map fun e => (e.1, .user e.2.id (data e.2.id)), bases⟩
  if m = .enum ∧ c.fields.any (fun k => match find (metaMro m) k with | some a => a.isData | none => false) then
    .error .attributeError
  return c

/-- `x.value_dict` of a Product (adt.py:98-103): `getattr(self, k)` for each field. -/
def Cls.valueDict (c : Cls) : List (Str × Got) := c.fields.map fun k => (k, c.instGet k)

/-- `repr(e)` of an Enum member (adt.py:263-264) reads `self.name`. -/
def Cls.enumRepr (c : Cls) : PyM Got :=
  match c.instGet nName with
  | .attributeError => .error .attributeError
  | g => .ok g

end HW.Adt.Attrs
