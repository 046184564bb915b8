import Verif.Model.Adt.Value

/-!
# Dictionaries with ADT values as keys

A `dict` as in `Verif.Model.Dict`: every entry stores the hash its key had when it was inserted; a lookup takes the
first entry with the hash of the argument whose key is the very object looked up, or `stored == looked up` is true.
CPython probes in an order depending on the hashes, which makes a difference only if two entries match.

Simplified: as in `Verif.Model.Adt.Value`; so no comparison of keys raises (keys with vectors of different widths in the
same place are compared only if their hashes agree), and cyclic values are no keys (here: `NameError`).
-/

namespace HW.Adt

structure KeyEntry where
  hash : Int
  /-- the key object -/
  key : Ref
  val : Int
  deriving DecidableEq, Repr

structure KeyMachine where
  store : Store
  dict : List KeyEntry

inductive KInstr
  /-- any operation on objects -/
  | op (c : Op)
  /-- `d[k] = v` -/
  | put (k : Ref) (v : Int)
  /-- `d[k]` -/
  | get (k : Ref)
  /-- `del d[k]` -/
  | del (k : Ref)

/-- The value of an object; no value is deeper than there are objects. -/
def Store.whole (h : Store) (r : Ref) : PyM Val :=
  match h.read h.length r with
  | some v => .ok v
  | none => .error .nameError

namespace KeyMachine
variable (W : World) (L : Leaves)

/-- Position of the entry found for the object `a` of value `x`, with hash `n`.  `__eq__` is asked of the key: adt.py:33-37,
137-141, 226-230, 266-270. -/
def find (h : Store) (a : Ref) (x : Val) (n : Int) : List KeyEntry → PyM (Option Nat)
  | [] => .ok none
  | e :: l => do
      if e.hash = n then
        if e.key = a then return some 0
        else if Val.eq W L (← h.whole e.key) x then return some 0
        else return (← find h a x n l).map (· + 1)
      else return (← find h a x n l).map (· + 1)

/-- The object looked up, `hash` of it (adt.py:42-43, 146-147, 232-233, 275-276) and the entry found. -/
def seek (s : KeyMachine) (k : Ref) : PyM (Int × Option Nat) := do
  let x ← s.store.whole k
  let n ← x.hash L
  return (n, ← find W L s.store k x n s.dict)

/-- One instruction: the state afterwards, and what it returns or raises. -/
def exec (s : KeyMachine) : KInstr → KeyMachine × PyM (Option Int)
  | .op c => ({ s with store := (s.store.step W c).st }, (s.store.step W c).res.map fun _ => none)
  | .put k v =>
      match s.seek W L k with
      | .ok (_, some i) => ({ s with dict := s.dict.modify i fun e => { e with val := v } }, .ok none)
      | .ok (n, none) => ({ s with dict := s.dict ++ [⟨n, k, v⟩] }, .ok none)
      | .error e => (s, .error e)
  | .get k =>
      match s.seek W L k with
      | .ok (_, some i) => (s, .ok (s.dict[i]?.map (·.val)))
      | .ok (_, none) => (s, .error .keyError)
      | .error e => (s, .error e)
  | .del k =>
      match s.seek W L k with
      | .ok (_, some i) => ({ s with dict := s.dict.eraseIdx i }, .ok none)
      | .ok (_, none) => (s, .error .keyError)
      | .error e => (s, .error e)

/-- What all instructions return or raise, in order. -/
def outputs (s : KeyMachine) : List KInstr → List (PyM (Option Int))
  | [] => []
  | c :: p => (s.exec W L c).2 :: outputs (s.exec W L c).1 p

end KeyMachine
end HW.Adt
