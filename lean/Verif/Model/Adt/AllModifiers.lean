import Verif.Model.Adt.ClassCache

/-!
# The list of modifiers of a type (modifiers.py:27-37, 98-101, 119-134)

On the class heap of `Model/Adt/ClassCache.lean`.  `get_all_modifiers` is a generator; the model returns
the list it yields.  The recursions follow the first base of a class, which is older than the class, so
fuel `c + 1` is enough (proved: `C132_nodup` and `C132_unwrap`: the fuel never runs out on a class the program can reach).
-/

namespace HW.Adt.Cache.Heap

/-- `get_all_modifiers` (modifiers.py:98-101). -/
def allModsF : Nat → Heap → Nat → PyM (List ModId)
  | 0, _, _ => .error .assertionError
  | fuel + 1, h, c =>
      if h.isModified c then do
        let l ← allModsF fuel h (← h.getUnmodified c)
        return l ++ [← h.getModifier c]
      else .ok []

def allMods (h : Heap) (c : Nat) : PyM (List ModId) := allModsF (c + 1) h c

/-- `unwrap_modifier` (modifiers.py:119-126). -/
def unwrapF : Nat → Heap → Nat → PyM (Nat × List ModId)
  | 0, _, _ => .error .assertionError
  | fuel + 1, h, c =>
      if h.isModified c = false then .ok (c, [])
      else do
        let mod ← h.getModifier c
        let unmod ← h.getUnmodified c
        let (unmod, mods) ← unwrapF fuel h unmod
        return (unmod, mods ++ [mod])

def unwrap (h : Heap) (c : Nat) : PyM (Nat × List ModId) := unwrapF (c + 1) h c

/-- The loop of `wrap_modifier` (modifiers.py:132-134). -/
def wrapLoop (E : Env) : Heap → Nat → List ModId → PyM (Heap × Nat)
  | h, c, [] => .ok (h, c)
  | h, c, m :: ms => do
      let (h1, d) ← h.applyMod E m c
      wrapLoop E h1 d ms

/-- `wrap_modifier` (modifiers.py:128-134); `len(set(mods)) != len(mods)` means a repeated element. -/
def wrap (E : Env) (h : Heap) (c : Nat) (ms : List ModId) : PyM (Heap × Nat) :=
  if ms.Nodup then wrapLoop E h c ms else .error .typeError

/-- `isinstance(x, M)` for a modifier `M` (modifiers.py:27-31); `c` is `type(x)`. -/
def instOfMod (h : Heap) (c : Nat) (m : ModId) : Bool := h.subs.contains (m, c)

end HW.Adt.Cache.Heap
