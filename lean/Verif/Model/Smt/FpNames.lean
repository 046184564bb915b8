import Verif.Model.Smt.Names

/-!
# Names of symbolic floats beside those of symbolic vectors

`SMTFPVector.__init__` (hwtypes/smt_fp_vector.py:43-72) keeps a `_name_table` of its own (38); the names of
the other SMT values are in the `_name_table` of smt_bit_vector.py:25 (`Model/Smt/Names.lean`).  Both make
their variables in pysmt's one symbol table.

pysmt (assumed): `FreshSymbol(T)` declares `FV<k>` with the least `k`, counting on from the last one, whose
name is not declared.

Simplifications: classes are bound; the function symbols of the classes (`Model/Smt/Fp.lean`), whose names no
variable can have, are left out.  The value of a constructor call that is not symbolic is acceptable.
-/

namespace HW.Smt

/-- `'FV%d' % k`. -/
def fvName (k : Nat) : Name := 'F' :: 'V' :: Nat.toDigits 10 k

structure JState where
  /-- The tables of smt_bit_vector.py, and pysmt's. -/
  b : NameState
  /-- `_name_table` of smt_fp_vector.py. -/
  ftable : List (Name × Nat)
  /-- Live symbolic floats: identity and the name of the variable. -/
  fobjs : List (Nat × Name)
  /-- pysmt's counter of fresh names. -/
  guess : Nat
  fnext : Nat

def JState.init : JState := ⟨.init, [], [], 0, 0⟩

/-- The search of `FreshSymbol`; `fuel` bounds it (`freshGo_total`). -/
def freshGo (syms : List (Name × Ty)) : Nat → Nat → Option Nat
  | _, 0 => none
  | k, fuel + 1 => if fvName k ∈ syms.map Prod.fst then freshGo syms (k + 1) fuel else some k

/-- `SMTFPVector[..](value, name=..)` of width `w` (smt_fp_vector.py:43-72). -/
def JState.mkFp (s : JState) (w : Nat) (symbolic : Bool) (name : NameArg) : JState × PyM (Option Name) :=
  if name ≠ .automatic ∧ ¬ symbolic then (s, .error .typeError)                              -- 44-45
  else match name with
    | .other => (s, .error .typeError)                                                       -- 47-48
    | .str n =>
      if n ∈ s.ftable.map Prod.fst then (s, .error .valueError)                              -- 49-50
      else match s.b.symbol n (.bv w) with                                                   -- 51, 59
        | .ok b => (⟨b, (n, s.fnext) :: s.ftable, (s.fnext, n) :: s.fobjs, s.guess, s.fnext + 1⟩, .ok (some n))
        | .error e => ({ s with fnext := s.fnext + 1 }, .error e)       -- the object dies, its entry with it
    | .automatic =>
      if symbolic then
        match freshGo s.b.syms s.guess (s.b.syms.length + 1) with                            -- 57
        | some k =>
          match s.b.symbol (fvName k) (.bv w) with
          | .ok b => (⟨b, s.ftable, (s.fnext, fvName k) :: s.fobjs, k + 1, s.fnext + 1⟩, .ok (some (fvName k)))
          | .error e => (s, .error e)
        | none => (s, .error .assertionError)
      else (s, .ok none)

/-- A float dies. -/
def JState.killFp (s : JState) (id : Nat) : JState :=
  { s with ftable := s.ftable.filter fun e => e.2 ≠ id, fobjs := s.fobjs.filter fun o => o.1 ≠ id }

inductive JCmd
  /-- A constructor call or death in the other SMT classes. -/
  | bits (c : NameCmd)
  | fp (w : Nat) (symbolic : Bool) (name : NameArg)
  | fpDrop (id : Nat)
  deriving DecidableEq, Repr

def JState.step (s : JState) : JCmd → JState × PyM (Option Name)
  | .bits c => let r := s.b.step c; ({ s with b := r.1 }, r.2)
  | .fp w sy n => s.mkFp w sy n
  | .fpDrop id => (s.killFp id, .ok none)

def JState.run (s : JState) : List JCmd → JState
  | [] => s
  | c :: h => (s.step c).1.run h

end HW.Smt
