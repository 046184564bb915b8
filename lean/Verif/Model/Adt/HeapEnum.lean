import Verif.Model.Adt.Value

/-!
# `enumerate` as a program that creates objects (hwtypes/adt_meta.py)

`Ty.enumerate` gives the trees of the yielded values; here the objects are created, so that one sees which of them
are shared.

Simplified: the generator is run to its end before the program goes on (`list(T.enumerate())`).  The fields of a
tuple are so in the code as well, `itertools.product` reads them to their end first.  The members of an enum, which
exist already and cannot change, are entered into the store once more.
-/

namespace HW.Adt

/-- What calls of classes without fields give: the content of the new object of the class. -/
structure LCalls where
  zero : Ty → PyM Nat
  none : Ty → PyM Nat

/-- The same calls, as trees. -/
def LCalls.vals (C : LCalls) : Calls where
  zero t := (C.zero t).map (.leaf t)
  none t := (C.none t).map (.leaf t)

/-- `cls(*args, **kw)` for one list of arguments after the other. -/
def newAll (W : World) (T : Ty) : Store → List (List Ref × List (Name × Ref)) → PyM (Store × List Ref)
  | h, [] => .ok (h, [])
  | h, a :: l => do
      let o ← construct W h T a.1 a.2
      let q ← newAll W T (h ++ [o]) l
      return (q.1, h.length :: q.2)

/-- The arguments with which `enumerate` calls a class like `k`, given the objects its fields enumerate
(adt_meta.py:367-368, 513-518, 575-580). -/
def enumArgs {α : Type} (k : Con) (ls : List (List α)) : List (List α × List (Name × α)) :=
  match k.shape with
  | .sum => ls.flatten.map fun v => ([v], [])
  | .tagged => ((k.names.zip ls).flatMap fun p => p.2.map fun v => (p.1, v)).map fun p => ([], [p])
  | _ => (product ls).map fun args => (args, [])

mutual
/-- `list(T.enumerate())`, as `cls` sees it (adt_meta.py:359-368, 513-518, 575-580, 628-629): the store afterwards and
the yielded objects. -/
def Ty.objsAs (W : World) (C : LCalls) (cls : Ty) : Ty → Store → PyM (Store × List Ref)
  | .leaf _, _ => .error .attributeError
  | .enum e, h => .ok (h ++ (List.range e.members.length).map (.enum e), List.range' h.length e.members.length)
  | .node k fs, h => do
      let q ← Ty.objsFields W C k.zero fs h
      newAll W cls q.1 (enumArgs k q.2)
  | .mod _ t, h => Ty.objsAs W C cls t h
/-- The iterators of the fields (adt_meta.py:360-365). -/
def Ty.objsFields (W : World) (C : LCalls) (zero : Bool) : List Ty → Store → PyM (Store × List (List Ref))
  | [], h => .ok (h, [])
  | t :: ts, h => do
      let q ← if t.isBound then Ty.objsAs W C t t h
        else (if zero then C.zero t else C.none t).map fun p => (h ++ [.leaf t p], [h.length])
      let q' ← Ty.objsFields W C zero ts q.1
      return (q'.1, q.2 :: q'.2)
end

/-- `list(T.enumerate())` in the store `h`. -/
def Ty.objs (W : World) (C : LCalls) (T : Ty) (h : Store) : PyM (Store × List Ref) := Ty.objsAs W C T T h

end HW.Adt
