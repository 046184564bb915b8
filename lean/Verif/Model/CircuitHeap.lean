import Verif.Model.Circuit
import Verif.Model.Program

/-!
# Circuits with item assignment

The circuits of `Verif.Model.Circuit`, extended by `x[i] = v` and by further names for one object (`y = x`).
Vectors are now objects: a name holds the identity of its object together with the value, and an assignment
changes the value under every name of the object.  An object is identified by the number of the name it was
created under.

All methods of the symbolic families return new objects, and so do those of the concrete family except
`bvurem`, which returns `self` when the divisor is zero (bit_vector.py:384-385), and with it `%`.
-/

namespace HW.Circuit
open HW

structure HFamily extends Family where
  setitem : V → Int → Opnd V B → PyM V

/-- The instructions which return the object under some name, instead of a new one. -/
abbrev Alias (F : HFamily) := List (Reg F.V F.B) → Instr → Option Nat

/-- All instructions return new objects. -/
def fresh (F : HFamily) : Alias F := fun _ _ => none

inductive HInstr
  /-- one instruction as before -/
  | op (i : Instr)
  /-- another name for the same object -/
  | name (x : Nat)
  /-- `x[i] = v` -/
  | set (x : Nat) (i : Int) (v : Arg)

section
variable {V B : Type}

abbrev HReg (V B : Type) := Reg (Nat × V) B

def HReg.val : HReg V B → Reg V B
  | .vec x => .vec x.2
  | .bit b => .bit b

/-- The values under all names. -/
def deref (s : List (HReg V B)) : List (Reg V B) := s.map HReg.val

/-- Values become new objects; `n` names exist. -/
def tag (n : Nat) : List (Reg V B) → List (HReg V B)
  | [] => []
  | .vec x :: l => .vec (n, x) :: tag (n + 1) l
  | .bit b :: l => .bit b :: tag (n + 1) l

/-- Object `a` gets the value `y`. -/
def HReg.assign (a : Nat) (y : V) : HReg V B → HReg V B
  | .vec x => if x.1 = a then .vec (a, y) else .vec x
  | .bit b => .bit b

end

section
variable (F : HFamily) (al : Alias F)

def hstep (s : List (HReg F.V F.B)) : HInstr → PyM (List (HReg F.V F.B))
  | .op i => do
      let t ← step F.toFamily (deref s) i
      match al (deref s) i with
      | some x => match s[x]? with
        | some r => return s ++ [r]
        | none => .error .nameError
      | none => return s ++ tag s.length (t.drop s.length)
  | .name x => match s[x]? with
      | some r => .ok (s ++ [r])
      | none => .error .nameError
  | .set x i v => do
      let v ← readArg F.toFamily (deref s) v
      match s[x]? with
      | some (.vec (a, x)) => do
          let y ← F.setitem x i v
          return s.map (HReg.assign a y)
      | some (.bit _) => .error .typeError
      | none => .error .nameError

def hrun (s : List (HReg F.V F.B)) : List HInstr → PyM (List (HReg F.V F.B))
  | [] => .ok s
  | i :: p => do hrun (← hstep F al s i) p

end

/-- The divisor of a remainder is zero. -/
def zeroDivisor (s : List (Reg BVal Bool)) (x : Nat) (y : Arg) : Bool :=
  match s[x]?, readArg concrete s y with
  | some (.vec x), .ok y => match coerce x.kind x.size (cObj y) with
    | .ok d => d.value == 0
    | .error _ => false
  | _, _ => false

/-- `BitVector`. -/
def concreteH : HFamily where
  toFamily := concrete
  setitem x i o := x.setitem (.int i) (cObj o)

/-- `bvurem` by zero returns `self` (bit_vector.py:384-385). -/
def remSelf : Alias concreteH := fun s i =>
  match i with
  | .bin .urem x y => if zeroDivisor s x y then some x else none
  | .opA .mod x y => if zeroDivisor s x y then some x else none
  | _ => none

/-- `SMTBitVector`. -/
def smtH (S : Smt.Simplifier) : HFamily where
  toFamily := smt S
  setitem x i o := x.setitem S i (sObj o)

/-- `z3BitVector`. -/
def z3H : HFamily where
  toFamily := z3
  setitem x i o := x.setitem i (zObj o)

end HW.Circuit
