import Verif.Model.Adt.ClassCache

/-!
# `make_modifier` and its cache (modifiers.py:60-63, 103-117)

Modifiers are numbered in the order they are made and live beside the classes of `Model/Adt/ClassCache.lean`.
`_mod_cache` is a weak table from names to modifiers; `_ModifierMeta._modifier_lookup` (modifiers.py:26, 67) refers strongly
from a modified class to its modifier, so a modifier can be collected only when no class it made is alive.

Simplified: names are numbers, equal when the strings are; what `type.__new__` refuses as a name is left out.
-/

namespace HW.Adt.Cache

/-- The classes, the modifiers ever made, the collected ones, `_mod_cache`, and the modifiers the program refers to.  The flag
of a modifier says that `make_modifier(..., cache=True)` made it; it is never consulted and serves to state what the table
contains. -/
structure MHeap where
  types : Heap
  mods : List (Name × Bool)
  deadMods : List Nat
  modCache : List (Name × Nat)
  modRoots : List Nat

namespace MHeap

def init : MHeap := ⟨Cache.init, [], [], [], []⟩

/-- `_ModifierMeta(name, (AbstractModifier,), {})` (modifiers.py:112), with empty tables (60-63). -/
def newMod (s : MHeap) (n : Name) (cached : Bool) : MHeap × Nat :=
  ({ s with mods := s.mods ++ [(n, cached)] }, s.mods.length)

/-- `_mod_cache.setdefault(name, m)` (modifiers.py:115). -/
def setdefault (s : MHeap) (n : Name) (m : Nat) : MHeap × Nat :=
  match find s.modCache n with
  | some m' => (s, m')
  | none => ({ s with modCache := (n, m) :: s.modCache }, m)

/-- The lookup of modifiers.py:106-110. -/
def cachedMod (s : MHeap) (n : Name) (cache : Bool) : Option Nat := if cache then find s.modCache n else none

/-- `make_modifier(name, cache)` (modifiers.py:105-117). -/
def make (s : MHeap) (n : Name) (cache : Bool) : MHeap × Nat :=
  match s.cachedMod n cache with
  | some m => (s, m)
  | none =>
      let (s1, m) := s.newMod n cache
      if cache then s1.setdefault n m else (s1, m)

def LiveMod (s : MHeap) (m : Nat) : Prop := m < s.mods.length ∧ m ∉ s.deadMods

/-- The program gets hold of a modifier. -/
def holdMod (s : MHeap) (m : Nat) : MHeap := { s with modRoots := m :: s.modRoots }

/-- How the class came about. -/
def origin (h : Heap) (d : Nat) : Option Origin := (h.classes[d]?).map (·.origin)

/-- What the program and the collector can do. -/
inductive Step (E : Env) : MHeap → MHeap → Prop
  /-- anything that concerns the classes; a modifier that is applied is alive -/
  | types {s : MHeap} {h' : Heap} : Heap.Step E s.types h' →
      (∀ d m c, s.types.classes.length ≤ d → origin h' d = some (.modified m c) → s.LiveMod m) →
      Step E s { s with types := h' }
  /-- `make_modifier` -/
  | make {s s' : MHeap} {n : Name} {cache : Bool} {m : Nat} : s.make n cache = (s', m) → Step E s (s'.holdMod m)
  /-- `class M(AbstractModifier)`, or deriving from another modifier -/
  | stmt {s s' : MHeap} {n : Name} {m : Nat} : s.newMod n false = (s', m) → Step E s (s'.holdMod m)
  /-- `get_modifier` -/
  | reach {s : MHeap} {d : Nat} {m : Nat} : s.types.Alive d → s.types.getModifier d = .ok m → Step E s (s.holdMod m)
  /-- references are dropped -/
  | release {s : MHeap} {r : List Nat} : r ⊆ s.modRoots → Step E s { s with modRoots := r }
  /-- the collector removes modifiers to which neither the program nor `_modifier_lookup` refers -/
  | gc {s : MHeap} {D : List Nat} : (∀ m ∈ D, m < s.mods.length) → (∀ m ∈ s.modRoots, m ∉ D) →
      (∀ e ∈ s.types.lookup, e.2 ∉ D) →
      Step E s { s with deadMods := D ++ s.deadMods, modCache := s.modCache.filter fun e => ¬ D.contains e.2 }

/-- Any history. -/
inductive Steps (E : Env) : MHeap → MHeap → Prop
  | refl (s : MHeap) : Steps E s s
  | tail {a b c : MHeap} : Steps E a b → Step E b c → Steps E a c

end MHeap
end HW.Adt.Cache
