import Verif.Model.Program

/-!
# Dictionaries with vectors as keys

A `dict` as CPython's `dictobject.c` has it: every entry stores the hash its key had when it was inserted; a
lookup compares the stored hash with the hash of the argument, and if they agree takes the entry when the key is
the very object looked up, or `stored == looked up` is true.  Entries are searched in order of insertion; CPython
probes in an order depending on the hashes, which makes a difference only if two entries match.  `hash` of a
string is an arbitrary function.  Keys other than vectors are left out.
-/

namespace HW

structure Entry where
  hash : Int
  /-- the key object, by address -/
  key : Nat
  val : Int
  deriving DecidableEq, Repr

structure DictMachine where
  mach : Machine
  dict : List Entry

inductive DInstr
  /-- any instruction on vectors -/
  | op (c : Instr)
  /-- `d[k] = v` -/
  | put (k : Nat) (v : Int)
  /-- `d[k]` -/
  | get (k : Nat)
  /-- `del d[k]` -/
  | del (k : Nat)

/-- The vector object in register `r` with its address. -/
def Machine.objAt (s : Machine) (r : Nat) : PyM (Nat × BVal) :=
  match s.regs[r]? with
  | some (.ref a) => match s.cells[a]? with
    | some x => .ok (a, x)
    | none => .error .nameError
  | some (.imm _) => .error .typeError
  | none => .error .nameError

/-- `bool(y == x)`. -/
def eqBool (y x : BVal) : PyM Bool := do
  match ← binC .eq (.bv y) (.bv x) with
  | .bit b => return b
  | .bool b => return b
  | _ => .error .typeError

namespace DictMachine
variable (H : List Char → Int)

/-- Position of the entry found for the object `a` of value `x` (`__hash__`: bit_vector.py:214-215). -/
def find (s : Machine) (a : Nat) (x : BVal) : List Entry → PyM (Option Nat)
  | [] => .ok none
  | e :: l => do
      if e.hash = H x.hashKey then
        if e.key = a then return some 0
        else match s.cells[e.key]? with
          | some y => if ← eqBool y x then return some 0 else return (← find s a x l).map (· + 1)
          | none => .error .nameError
      else return (← find s a x l).map (· + 1)

/-- One instruction: the new state and what it returns or raises. -/
def exec (s : DictMachine) : DInstr → PyM (DictMachine × Option Int)
  | .op c => return ({ s with mach := ← s.mach.exec c }, none)
  | .put k v => do
      let (a, x) ← s.mach.objAt k
      match ← find H s.mach a x s.dict with
      | some i => return ({ s with dict := s.dict.modify i fun e => { e with val := v } }, none)
      | none => return ({ s with dict := s.dict ++ [⟨H x.hashKey, a, v⟩] }, none)
  | .get k => do
      let (a, x) ← s.mach.objAt k
      match ← find H s.mach a x s.dict with
      | some i => return (s, s.dict[i]?.map (·.val))
      | none => .error .keyError
  | .del k => do
      let (a, x) ← s.mach.objAt k
      match ← find H s.mach a x s.dict with
      | some i => return ({ s with dict := s.dict.eraseIdx i }, none)
      | none => .error .keyError

/-- What all instructions return or raise, in order; an instruction that raises changes nothing. -/
def outputs (s : DictMachine) : List DInstr → List (PyM (Option Int))
  | [] => []
  | c :: p => match s.exec H c with
    | .ok (s', o) => .ok o :: outputs s' p
    | .error e => .error e :: outputs s p

end DictMachine
end HW
