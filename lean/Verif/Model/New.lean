import Verif.Model.ClassHeap
import Verif.Model.Adt.ClassCache

/-!
# `new(klass, bind)` (modifiers.py:13-23)

On the class heap of bit vectors (`Model/ClassHeap.lean`) and on that of the type machinery
(`Model/Adt/ClassCache.lean`).  `T` is a local variable: it refers to the new class until the function returns.
`name=` and `module=` only set attributes that the model does not have.
-/

namespace HW

/-- `new(klass)`, `new(klass, bind)` on a vector class. -/
def Cls.Heap.new (h : Cls.Heap) (klass : Nat) (bind : Option Cls.Index) : PyM (Cls.Heap × Nat) := do
  let (h1, t) ← h.newVec [klass] (none, none)                             -- 14
  match bind with
  | none => return (h1, t)                                                -- 23
  | some i =>
      let (h2, d) ← Cls.Heap.getitem { h1 with roots := t :: h1.roots } t i   -- 21
      return ({ h2 with roots := h1.roots }, d)

/-- `new(klass)`, `new(klass, bind)` on an ADT class; `n` is the name `T`. -/
def Adt.Cache.Heap.new (E : Adt.Cache.Env) (h : Adt.Cache.Heap) (n : Adt.Name) (klass : Nat) (bind : Option Adt.Cache.Heap.Arg) :
    PyM (Adt.Cache.Heap × Nat) := do
  let (h1, t) ← h.classStmt E { fields := .types [], name := n, bases := [klass] }
  match bind with
  | none => return (h1, t)
  | some a =>
      let (h2, d) ← (h1.hold t).getitem E t a
      return ({ h2 with roots := h1.roots }, d)

end HW
