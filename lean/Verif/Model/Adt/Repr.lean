import Verif.Model.Adt.Value
import Verif.Model.BitVector

/-!
# Printed ADT values (`__repr__` and `__str__` in hwtypes/adt.py, bit_vector.py)

Leaves are bits and vectors.  `str` of a vector is its number, `str` of anything else its `repr` (no other class
defines `__str__`).

Simplified: `str` of an `SIntVector[0]`, which raises `IndexError`, is not modelled.
-/

namespace HW.Adt

/-- The names in the program text, and what the vector classes are. -/
structure Spell where
  /-- names of fields and enum members -/
  field : Name → List Char
  /-- `__name__` of classes without fields -/
  cls : Nat → List Char
  /-- `__name__` of unsized vector classes -/
  fam : Nat → List Char
  enum : Nat → List Char
  base : Nat → List Char
  /-- `__name__` of `Product`s and `TaggedUnion`s -/
  named : Name → List Char
  mod : ModId → List Char
  /-- The vector classes where `int(v)` is signed. -/
  signed : Nat → Bool
  /-- `Bit` -/
  bit : Nat

/-- `', '.join(l)` -/
def joined : List (List Char) → List Char
  | [] => []
  | [a] => a
  | a :: b :: l => a ++ [',', ' '] ++ joined (b :: l)

def Base.nm (S : Spell) : Base → List Char
  | .user n => S.base n
  | .mod m b => S.mod m ++ b.nm S

/-- `'k': t` -/
def keyed : List (List Char) → List (List Char) → List (List Char)
  | k :: ks, t :: ts => (['\''] ++ k ++ ['\'', ':', ' '] ++ t) :: keyed ks ts
  | _, _ => []

/-- The name of a class with fields, given the names of its fields' classes (adt_meta.py:306-307, 430-431). -/
def Con.nm (S : Spell) (k : Con) (ts : List (List Char)) : List Char :=
  match k.shape with
  | .tuple => k.base.nm S ++ ['['] ++ joined ts ++ [']']
  | .sum => k.base.nm S ++ ['['] ++ joined ts ++ [']']
  | .anon => k.base.nm S ++ ['[', '{'] ++ joined (keyed (k.names.map S.field) ts) ++ ['}', ']']
  | .product => S.named k.name
  | .tagged => S.named k.name

mutual
/-- `T.__name__` (bit_vector_abc.py:93, modifiers.py:52; `str(T)` is the same: adt_meta.py:342-343). -/
def Ty.nm (S : Spell) : Ty → List Char
  | .leaf (.cls c) => S.cls c
  | .leaf (.vec k none) => S.fam k
  | .leaf (.vec k (some n)) => S.fam k ++ ['['] ++ pyStr n ++ [']']
  | .enum e => S.enum e.id
  | .mod m t => S.mod m ++ t.nm S
  | .node k fs => k.nm S (Ty.nms S fs)
def Ty.nms (S : Spell) : List Ty → List (List Char)
  | [] => []
  | t :: ts => t.nm S :: Ty.nms S ts
end

/-- `int(v)` of a vector (bit_vector.py:446-455, 515-517). -/
def Spell.toInt (S : Spell) (k n p : Nat) : Int := if S.signed k ∧ 2 ^ n ≤ 2 * p then (p : Int) - 2 ^ n else p

/-- `repr(v._value)` for bits and vectors. -/
def payload (T : Ty) (p : Nat) : List Char :=
  match T.asVec with
  | some _ => pyStr p
  | none => if p = 1 then ['T', 'r', 'u', 'e'] else ['F', 'a', 'l', 's', 'e']

/-- `str(v)`, given `repr(v)` (bit_vector.py:217-218). -/
def Val.text (S : Spell) (r : List Char) : Val → List Char
  | .leaf T p =>
      match T.asVec with
      | some (k, some n) => pyStr (S.toInt k n p)
      | _ => r
  | _ => r

/-- `f'{k}={v}'` for each item. -/
def items (S : Spell) : List Name → List (List Char) → List (List Char)
  | k :: ks, v :: vs => (S.field k ++ ['='] ++ v) :: items S ks vs
  | _, _ => []

/-- The items of a `TaggedUnion`'s `value_dict` (adt.py:238-247): `None` for all but one. -/
def tagItems (S : Spell) (i : Nat) (v : List Char) (names : List Name) : List (List Char) :=
  names.mapIdx fun j n => S.field n ++ ['='] ++ (if i = j then v else ['N', 'o', 'n', 'e'])

mutual
/-- `repr(v)`: Bit, vectors (bit_vector.py:124-125, 220-221), Enum (adt.py:263-264), Tuple (adt.py:56-57),
AnonymousProduct, Product (adt.py:95-96), Sum (adt.py:165-166), TaggedUnion (adt.py:235-236). -/
def Val.repr (S : Spell) : Val → List Char
  | .leaf T p => T.nm S ++ ['('] ++ payload T p ++ [')']
  | .enum e i => S.enum e.id ++ ['.'] ++ (e.members[i]?.elim [] fun m => S.field m.1)
  | .tup T _ vs =>
      match T.view with
      | none => []
      | some (k, _) =>
          T.nm S ++ ['('] ++ joined (if k.shape = .tuple then Val.reprs S vs else items S k.names (Val.strs S vs)) ++ [')']
  | .sum T v => T.nm S ++ ['('] ++ v.text S (v.repr S) ++ [')']
  | .tag T i v =>
      match T.view with
      | none => []
      | some (k, _) => T.nm S ++ ['('] ++ joined (tagItems S i (v.text S (v.repr S)) k.names) ++ [')']
def Val.reprs (S : Spell) : List Val → List (List Char)
  | [] => []
  | v :: vs => v.repr S :: Val.reprs S vs
def Val.strs (S : Spell) : List Val → List (List Char)
  | [] => []
  | v :: vs => v.text S (v.repr S) :: Val.strs S vs
end

/-- `str(v)` -/
def Val.str (S : Spell) (v : Val) : List Char := v.text S (v.repr S)

end HW.Adt
