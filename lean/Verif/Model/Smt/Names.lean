import Verif.Model.Smt.Term

/-!
# Names of symbolic values

`hwtypes/smt_bit_vector.py`: `_var_counters`, `_name_table`, `_gen_name` (24-31) and the naming part of
`SMTBit.__init__` (64-83), `SMTBitVector.__init__` (228-247), `SMTInt.__init__` (smt_int.py:27-45; the
three are the same text and share the tables).

The machine state holds the tables and the live objects.  `_name_table` is a `WeakValueDictionary`: an
entry goes away with its object.  pysmt's symbol table is permanent: `Symbol(name, ty)` raises
`PysmtTypeError` (a `TypeError`) if the name was declared with another sort, `PysmtValueError` for the
empty name, and otherwise returns the one variable of that name.

Simplifications: prefixes are strings; an object whose constructor raises dies at once (reference
counting); warnings are dropped.
-/

namespace HW.Smt

/-- `f'{prefix}_{k}'` (smt_bit_vector.py:28). -/
def autoName (p : Name) (k : Nat) : Name := p ++ '_' :: Nat.toDigits 10 k

structure NameState where
  /-- `_var_counters`: the next number per prefix. -/
  counters : Name → Nat
  /-- `_name_table`. -/
  table : List (Name × Nat)
  /-- Live named objects: identity and `_name`. -/
  objs : List (Nat × Name)
  /-- pysmt's symbol table. -/
  syms : List (Name × Ty)
  /-- Next object identity. -/
  next : Nat

def NameState.init : NameState := ⟨fun _ => 0, [], [], [], 0⟩

/-- `name in _name_table`. -/
def NameState.has (s : NameState) (n : Name) : Bool := (s.table.map Prod.fst).contains n

/-- The `while` loop of `_gen_name` (28-30) from counter value `k`; `fuel` bounds the number of
iterations (`C40_total` shows that the loop ends within it). -/
def genGo (s : NameState) (p : Name) : Nat → Nat → Option (Name × Nat)
  | _, 0 => none
  | k, fuel + 1 =>
      if s.has (autoName p k) then genGo s p (k + 1) fuel else some (autoName p k, k + 1)

/-- `_gen_name` (27-31): the name and the state with the counter advanced. -/
def genName (s : NameState) (p : Name) : Option (Name × NameState) :=
  match genGo s p (s.counters p) (s.table.length + 1) with
  | some (n, k) => some (n, { s with counters := fun q => if q = p then k else s.counters q })
  | none => none

/-- `name=` argument: absent, a string, something else. -/
inductive NameArg | automatic | str (n : Name) | other
  deriving DecidableEq, Repr

/-- `_name_table[name] = self`: replaces an entry of the same key. -/
def NameState.insert (s : NameState) (n : Name) (id : Nat) : NameState :=
  { s with table := (n, id) :: s.table.filter fun e => e.1 ≠ n }

/-- The object dies: its table entries go. -/
def NameState.kill (s : NameState) (id : Nat) : NameState :=
  { s with objs := s.objs.filter fun o => o.1 ≠ id, table := s.table.filter fun e => e.2 ≠ id }

/-- `smt.Symbol(name, ty)`. -/
def NameState.symbol (s : NameState) (n : Name) (ty : Ty) : PyM NameState :=
  match s.syms.find? (fun d => d.1 = n) with
  | some d => if d.2 = ty then .ok s else .error .typeError
  | none => if n = [] then .error .valueError else .ok { s with syms := (n, ty) :: s.syms }

/-- Second half of a symbolic constructor call: the name is entered, the variable made (76-83, 86). -/
def NameState.enter (s : NameState) (n : Name) (ty : Ty) : NameState × PyM (Option Name) :=
  let id := s.next
  let s := { s.insert n id with next := id + 1 }
  match s.symbol n ty with
  | .ok s => ({ s with objs := (id, n) :: s.objs }, .ok (some n))
  | .error e => (s.kill id, .error e)

/-- A constructor call (64-86): of sort `ty`, with a value or symbolic, with `name=` and `prefix=`. -/
def NameState.create (s : NameState) (ty : Ty) (symbolic : Bool) (name : NameArg) (pre : Option Name) :
    NameState × PyM (Option Name) :=
  if (name ≠ .automatic ∨ pre ≠ none) ∧ ¬ symbolic then (s, .error .typeError)
  else if name ≠ .automatic ∧ pre ≠ none then (s, .error .valueError)
  else match name with
    | .other => (s, .error .typeError)
    | .str n => if s.has n then (s, .error .valueError) else s.enter n ty
    | .automatic =>
      if symbolic then
        match genName s (pre.getD ['V']) with
        | some (n, s) => s.enter n ty
        | none => (s, .error .assertionError)      -- unreachable, see `C40_total`
      else (s, .ok none)

/-- What a client can do to the tables. -/
inductive NameCmd
  | create (ty : Ty) (symbolic : Bool) (name : NameArg) (pre : Option Name)
  | drop (id : Nat)
  deriving DecidableEq, Repr

def NameState.step (s : NameState) : NameCmd → NameState × PyM (Option Name)
  | .create ty sy n p => s.create ty sy n p
  | .drop id => (s.kill id, .ok none)

/-- Run a history, most recent last; the outcomes in order. -/
def NameState.run (s : NameState) : List NameCmd → NameState × List (NameCmd × PyM (Option Name))
  | [] => (s, [])
  | c :: h => let r := s.step c; let r' := r.1.run h; (r'.1, (c, r.2) :: r'.2)

end HW.Smt
