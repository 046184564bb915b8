import Verif.Model.C3
import Verif.Model.Adt.ClassCache

/-! # Method resolution order of the classes of `Model/Adt/ClassCache.lean`

Here `object` is class 0, so the lists are those of `__mro__`. -/

namespace HW.Adt.Cache

/-- `__bases__`. -/
def basesIn (L : List Class) (c : Nat) : List Nat := match L[c]? with
  | some k => k.bases
  | none => []

/-- `C.__mro__` (CPython, Objects/typeobject.c, `mro_implementation`). -/
def mro (L : List Class) (c : Nat) : Option (List Nat) := Cls.mroF (basesIn L) (c + 1) c

/-- What the MRO of a class with these bases has after the class itself; `none` if `type.__new__` raises for want of
one. -/
def linear (L : List Class) (bs : List Nat) : Option (List Nat) := do
  let ls ← bs.mapM (mro L)
  Cls.pmerge (Cls.total (ls ++ [bs])) (ls ++ [bs])

/-- `type.__new__` with no other reason to refuse than repeated bases (`Heap.newClass`) and the want of an MRO. -/
def c3Env : Env := ⟨fun L _ bs => (linear L bs).isSome⟩

end HW.Adt.Cache
