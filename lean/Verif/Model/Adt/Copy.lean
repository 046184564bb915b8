import Verif.Model.Adt.Value

/-!
# `copy.copy` and `copy.deepcopy` of ADT values

No class of the library defines `__copy__`, `__deepcopy__` or `__reduce_ex__`: Python makes the new object with
`cls.__new__(cls)` and gives it the attributes of the old one, or deep copies of them (copy.py, copyreg.py).  The library
decides what `__new__` takes: `Tuple.__new__` (adt.py:16-21) takes any arguments, the generated one of an
`AnonymousProduct` or `Product` (adt_meta.py:398-404) all fields; `Sum`, `TaggedUnion`, `Enum` and the vectors have none.

Simplified:
* objects without fields are vectors and bits of the concrete family, with their value (bit_vector.py:46-58, 182-205) for
  attribute;
* a new object is numbered after its parts;
* two members of an `Enum` do not share an `Auto` object.
-/

namespace HW.Adt

/-- `cls.__new__(cls)` for the class of an object (adt.py:16-18, adt_meta.py:398-404). -/
def Obj.new : Obj → PyM Unit
  | .tup T _ _ =>
      match T.view with
      | some (k, _) => if k.shape = .tuple ∨ k.names = [] then .ok () else .error .typeError
      | none => .ok ()
  | _ => .ok ()

/-- `copy.copy(r)`: the new object is the last one.  It has the same attributes. -/
def Store.copy (h : Store) (r : Ref) : PyM Store :=
  match h[r]? with
  | some o => do
      o.new
      return h ++ [o]
  | none => .error .nameError

/-- The objects, and the copies made so far. -/
structure Copying where
  store : Store
  memo : List (Ref × Ref)

/-- The object with the attributes of `o`, deeply copied: its parts are `rs`.  An `Auto` object (adt_meta.py:583-586) is
copied too, and then the object is none of the members of its class; it is number `n`. -/
def Obj.withParts (n : Nat) : Obj → List Ref → Obj
  | .leaf T p, _ => .leaf T p
  | .enum e i, _ =>
      match e.value i with
      | some (.auto _) => .leaf (.enum e) n
      | _ => .enum e i
  | .tup T a _, rs => .tup T a rs
  | .sum T v, rs => .sum T (rs.headD v)
  | .tag T i v, rs => .tag T i (rs.headD v)

/-- The attributes that are objects; see `Obj.withParts`. -/
def Obj.attrs : Obj → List Ref
  | .tup _ _ vs => vs
  | .sum _ v => [v]
  | .tag _ _ v => [v]
  | _ => []

/-- Objects copied one after the other.  `none`: not finished. -/
def deeps (f : Copying → Ref → Option (PyM (Copying × Ref))) : Copying → List Ref → Option (PyM (Copying × List Ref))
  | s, [] => some (.ok (s, []))
  | s, r :: rs =>
      match f s r with
      | none => none
      | some (.error e) => some (.error e)
      | some (.ok (s, r')) =>
          match deeps f s rs with
          | none => none
          | some (.error e) => some (.error e)
          | some (.ok (s, rs')) => some (.ok (s, r' :: rs'))

/-- `copy.deepcopy(r, memo)`, with `n` levels to go.  `none`: not finished. -/
def deep : Nat → Copying → Ref → Option (PyM (Copying × Ref))
  | 0, _, _ => none
  | n + 1, s, r =>
      match s.memo.lookup r with
      | some r' => some (.ok (s, r'))
      | none =>
          match s.store[r]? with
          | none => some (.error .nameError)
          | some o =>
              match o.new with
              | .error e => some (.error e)
              | .ok _ =>
                  match deeps (deep n) s o.attrs with
                  | none => none
                  | some (.error e) => some (.error e)
                  | some (.ok (s, rs)) =>
                      some (.ok (⟨s.store ++ [o.withParts s.store.length rs], (r, s.store.length) :: s.memo⟩, s.store.length))

/-- `copy.deepcopy(r)`: the objects afterwards and the copy.  `none`: it never ends. -/
def Store.DeepCopy (h : Store) (r : Ref) (q : PyM (Store × Ref)) : Prop :=
  ∃ n x, deep n ⟨h, []⟩ r = some x ∧ q = x.map fun x => (x.1.store, x.2)

end HW.Adt
