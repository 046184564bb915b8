import Verif.Model.Z3.Vector
import Verif.Model.Smt.Names

/-!
# Names of symbolic z3 values

`hwtypes/z3_bit_vector.py`: `_var_counter`, `_name_table`, `_free_names`, `_gen_name` (19-29) and the
naming part of `z3Bit.__init__` (58-76) and `z3BitVector.__init__` (183-201).

`_free_names` is never added to, so `_gen_name` always takes the counter.  `_name_table` is a
`WeakValueDictionary`: an entry goes away with its object.  z3 has no table of its own: a constant is its
name and its sort.  `z3.BitVecSort(0)` raises (after the name has been entered; the half-made object dies
at once and takes the entry with it).

Simplifications: warnings are dropped; `_name_re` only triggers one.
-/

namespace HW.Z3

/-- The sort of a symbolic value. -/
inductive Sort' | bit | vec (n : Nat)
  deriving DecidableEq, Repr

structure Names where
  /-- `_var_counter`. -/
  counter : Nat
  /-- `_name_table`. -/
  table : List (Name × Nat)
  /-- Live symbolic values: identity, `_name`, sort. -/
  objs : List (Nat × Name × Sort')
  /-- The constants that have been made so far: terms can mention these. -/
  consts : List (Name × Sort')
  /-- Next object identity. -/
  next : Nat
  deriving DecidableEq

def Names.init : Names := ⟨0, [], [], [], 0⟩

/-- `name in _name_table`. -/
def Names.has (s : Names) (n : Name) : Bool := (s.table.map Prod.fst).contains n

/-- `f'V_{k}'` (26). -/
def vName (k : Nat) : Name := Smt.autoName ['V'] k

/-- The loop of `_gen_name` (26-29) from counter value `k`, bounded by `fuel` (`C97_total`: it ends). -/
def Names.genGo (s : Names) : Nat → Nat → Option (Name × Nat)
  | _, 0 => none
  | k, fuel + 1 => if s.has (vName k) then s.genGo (k + 1) fuel else some (vName k, k + 1)

/-- `_gen_name` (23-29). -/
def Names.gen (s : Names) : Option (Name × Names) :=
  match s.genGo s.counter (s.table.length + 1) with
  | some (n, k) => some (n, { s with counter := k })
  | none => none

/-- `_name_table[name] = self` (70, 73, 195, 198). -/
def Names.insert (s : Names) (n : Name) (id : Nat) : Names :=
  { s with table := (n, id) :: s.table.filter fun e => e.1 ≠ n }

/-- The object dies. -/
def Names.kill (s : Names) (id : Nat) : Names :=
  { s with objs := s.objs.filter fun o => o.1 ≠ id, table := s.table.filter fun e => e.2 ≠ id }

/-- The name is entered and the constant made (70-76, 195-204). -/
def Names.enter (s : Names) (n : Name) (ty : Sort') : Names × PyM (Option Name) :=
  let id := s.next
  let s := { s.insert n id with next := id + 1 }
  match ty with
  | .vec 0 => (s.kill id, .error .z3Exception)
  | ty => ({ s with objs := (id, n, ty) :: s.objs, consts := (n, ty) :: s.consts }, .ok (some n))

/-- A constructor call (58-76, 183-204), symbolic or with a value. -/
def Names.create (s : Names) (ty : Sort') (symbolic : Bool) (name : Smt.NameArg) : Names × PyM (Option Name) :=
  if name ≠ .automatic ∧ ¬ symbolic then (s, .error .typeError)
  else match name with
    | .other => (s, .error .typeError)
    | .str n => if s.has n then (s, .error .valueError) else s.enter n ty
    | .automatic =>
      if symbolic then
        match s.gen with
        | some (n, s) => s.enter n ty
        | none => (s, .error .assertionError)      -- unreachable, see `C97_total`
      else (s, .ok none)

/-- What a client can do to the tables. -/
inductive NameCmd
  | create (ty : Sort') (symbolic : Bool) (name : Smt.NameArg)
  | drop (id : Nat)
  deriving DecidableEq, Repr

def Names.step (s : Names) : NameCmd → Names × PyM (Option Name)
  | .create ty sy n => s.create ty sy n
  | .drop id => (s.kill id, .ok none)

/-- Run a history, most recent last; the outcomes in order. -/
def Names.run (s : Names) : List NameCmd → Names × List (NameCmd × PyM (Option Name))
  | [] => (s, [])
  | c :: h => let r := s.step c; let r' := r.1.run h; (r'.1, (c, r.2) :: r'.2)

/-- What the constant of a symbolic value reads in an assignment: `z3.Bool(name)`, `z3.BitVec(name, n)`. -/
def reading (e : Env) (n : Name) : Sort' → Int
  | .bit => if e.bool n then 1 else 0
  | .vec w => (e.bv n w).toNat

end HW.Z3
