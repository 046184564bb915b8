import Verif.Model.ClassHeap

/-! # Method resolution order of vector classes

`type.__new__` (called from bit_vector_abc.py:64 and 94) linearises the bases with C3 (CPython, Objects/typeobject.c,
`mro_implementation` and `pmerge`) and raises `TypeError` if that fails.  `Model/ClassHeap.lean` leaves this out; here
it is put back.  Simplifications: `object`, the last class of every MRO, is left out; no metaclass overrides `mro`;
`__bases__` is never assigned. -/

namespace HW.Cls

/-- No list has the class behind its head (`tail_contains`). -/
def free (ls : List (List Nat)) (x : Nat) : Bool := ls.all fun l => !l.tail.contains x

/-- The first head that is free. -/
def pick (ls : List (List Nat)) : Option Nat := (ls.filterMap List.head?).find? (free ls)

/-- Takes the class off every list it is the head of. -/
def unhead (x : Nat) (ls : List (List Nat)) : List (List Nat) := ls.map fun l => if l.head? = some x then l.tail else l

/-- `pmerge`: `none` is the `TypeError`.  At most `fuel` classes. -/
def pmerge : Nat → List (List Nat) → Option (List Nat)
  | 0, ls => if ls.all List.isEmpty then some [] else none
  | fuel + 1, ls =>
      if ls.all List.isEmpty then some []
      else match pick ls with
        | none => none
        | some x => (pmerge fuel (unhead x ls)).map (x :: ·)

/-- The number of classes in the lists, repetitions included. -/
def total (ls : List (List Nat)) : Nat := (ls.map List.length).sum

/-- `mro_implementation`: the class, then the merge of the MROs of its bases and the list of its bases.  The first
argument bounds the depth. -/
def mroF (bases : Nat → List Nat) : Nat → Nat → Option (List Nat)
  | 0, _ => none
  | fuel + 1, c => do
      let ls ← (bases c).mapM (mroF bases fuel)
      let r ← pmerge (total (ls ++ [bases c])) (ls ++ [bases c])
      return c :: r

namespace Heap

/-- `C.__mro__`; `none` if there is none and the class statement raises.  Bases are older than the class. -/
def mro (h : Heap) (c : Nat) : Option (List Nat) := mroF h.bases (c + 1) c

/-- `T[n]` (bit_vector_abc.py:75-97) with the check of `type.__new__`.  (It raises for the first base that has no MRO;
whether it raises does not depend on that.) -/
def sized (h : Heap) (c : Nat) (n : Int) : PyM (Heap × Nat) := do
  let r ← h.getitem c (.int n)
  if (r.1.mro r.2).isNone then .error .typeError else return r

/-- `class X(*bases)` (bit_vector_abc.py:51-72) with the check. -/
def classStmt (h : Heap) (bases : List Nat) : PyM (Heap × Nat) := do
  let r ← h.newVec bases (none, none)
  if (r.1.mro r.2).isNone then .error .typeError else return r

end Heap
end HW.Cls
