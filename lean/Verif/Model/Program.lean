import Verif.Model.Operators

/-!
# Programs over vector objects

A small machine for client programs: registers hold immutable objects or references to vector
objects in a heap; every public operation of `BitVector` / `Bit` is an instruction.  An instruction
that raises leaves the machine unchanged (as under `try/except`).
-/

namespace HW

/-- Unary and binary methods that return a vector. -/
inductive UMeth | bvnot | bvneg
  deriving DecidableEq, Repr
inductive BMeth
  | bvand | bvor | bvxor | bvnand | bvnor | bvxnor | bvshl | bvlshr | bvashr | bvrol | bvror | bvcomp
  | bvadd | bvsub | bvmul | bvudiv | bvurem | bvsdiv | bvsrem
  deriving DecidableEq, Repr
/-- Binary methods that return a `Bit`. -/
inductive CMeth
  | bveq | bvne | bvult | bvule | bvugt | bvuge | bvslt | bvsle | bvsgt | bvsge
  deriving DecidableEq, Repr

/-- bit_vector.py:269-270, 338-339. -/
def UMeth.run : UMeth → BVal → PyM BVal
  | .bvnot => BVal.bvnot
  | .bvneg => BVal.bvneg

/-- bit_vector.py:272-312, 362-400; bit_vector_abc.py:195-210. -/
def BMeth.run : BMeth → BVal → Obj → PyM BVal
  | .bvand => BVal.bvand | .bvor => BVal.bvor | .bvxor => BVal.bvxor
  | .bvnand => BVal.bvnand | .bvnor => BVal.bvnor | .bvxnor => BVal.bvxnor
  | .bvshl => BVal.bvshl | .bvlshr => BVal.bvlshr | .bvashr => BVal.bvashr
  | .bvrol => BVal.bvrol | .bvror => BVal.bvror | .bvcomp => BVal.bvcomp
  | .bvadd => BVal.bvadd | .bvsub => BVal.bvsub | .bvmul => BVal.bvmul
  | .bvudiv => BVal.bvudiv | .bvurem => BVal.bvurem
  | .bvsdiv => BVal.bvsdiv | .bvsrem => BVal.bvsrem

/-- bit_vector.py:310-336; bit_vector_abc.py:260-267. -/
def CMeth.run : CMeth → BVal → Obj → PyM Bool
  | .bveq => BVal.bveq | .bvne => BVal.bvne | .bvult => BVal.bvult | .bvule => BVal.bvule
  | .bvugt => BVal.bvugt | .bvuge => BVal.bvuge | .bvslt => BVal.bvslt | .bvsle => BVal.bvsle
  | .bvsgt => BVal.bvsgt | .bvsge => BVal.bvsge

/-- Content of a register: an immutable object, or a reference to a vector object. -/
inductive Reg
  | imm (o : Obj)
  | ref (a : Nat)
  deriving DecidableEq, Repr

structure Machine where
  /-- vector objects, by address -/
  cells : List BVal
  /-- registers; results are appended -/
  regs : List Reg
  /-- next identity for a class made by `ite` -/
  nid : Nat
  deriving Repr

def Machine.init : Machine := ⟨[], [], 0⟩

/-- Instructions; operands are register numbers. -/
inductive Instr
  | lit (o : Obj)
  | new (k : Kind) (n : Nat) (v : Nat)
  | un (m : UMeth) (x : Nat)
  | meth (m : BMeth) (x y : Nat)
  | cmeth (m : CMeth) (x y : Nat)
  | opA (op : AOp) (x y : Nat)
  | opC (op : COp) (x y : Nat)
  | invert (x : Nat)
  | neg (x : Nat)
  | getitem (x : Nat) (i : BVal.Index)
  | setitem (x : Nat) (i : BVal.Index) (v : Nat)
  | concat (x y : Nat)
  | zext (x : Nat) (k : Int)
  | sext (x : Nat) (k : Int)
  | ext (x : Nat) (k : Int)
  | rep (x : Nat) (k : Int)
  | adc (x y c : Nat)
  | overflow (x y z : Nat)
  | ite (c t f : Nat)
  | bits (x : Nat)
  | asUint (x : Nat)
  | asSint (x : Nat)

namespace Machine

/-- Value of a register. `none`: no such register. -/
def read (s : Machine) (r : Nat) : Option Obj :=
  match s.regs[r]? with
  | some (.imm o) => some o
  | some (.ref a) => (s.cells[a]?).map .bv
  | none => none

/-- The vector object in a register. -/
def readBV (s : Machine) (r : Nat) : PyM BVal :=
  match s.read r with
  | some (.bv x) => .ok x
  | _ => .error .typeError

def readObj (s : Machine) (r : Nat) : PyM Obj :=
  match s.read r with
  | some o => .ok o
  | none => .error .nameError

/-- Append a result; a vector becomes a new object. -/
def put (s : Machine) : Obj → Machine
  | .bv x => { s with cells := s.cells ++ [x], regs := s.regs ++ [.ref s.cells.length] }
  | o => { s with regs := s.regs ++ [.imm o] }

/-- Append a register that refers to the same object as register `r`. -/
def share (s : Machine) (r : Nat) : Machine :=
  match s.regs[r]? with
  | some v => { s with regs := s.regs ++ [v] }
  | none => s

/-- `bvurem`/`bvsrem` return `self`, not a copy, when the divisor is zero
(bit_vector.py:384-385, 398-399). -/
def remSelf (m : BMeth) (x : BVal) (o : Obj) : Bool :=
  (m == .bvurem || m == .bvsrem) &&
    match coerce x.kind x.size o with
    | .ok y => y.value == 0
    | .error _ => false

/-- `l % r` returns the object `l` itself when the remainder method is entered directly (class
without `VCall`) with a zero divisor; the reflected method is entered with the uncoerced left
operand, since `_coerce` returns a vector argument as is (bit_vector.py:134-140).  A `VCall` goes
through `ite`, which makes a new object (bit_vector_util.py:175). -/
def modSelf (l r : Obj) : Bool :=
  match l with
  | .bv x =>
      let im := match r with
        | .bv y =>
            if y.properSub x && AOp.mod.slot y.kind != AOp.mod.slot x.kind then AOp.mod.slot y.kind
            else AOp.mod.slot x.kind
        | _ => AOp.mod.slot x.kind
      (im == .uns || im == .sgn) &&
        match coerce x.kind x.size r with
        | .ok y => y.value == 0
        | .error _ => false
  | _ => false

/-- Run a computation that may create classes. -/
def runF {α : Type} (s : Machine) (c : PyF α) : PyM (α × Machine) := do
  let (a, i) ← c s.nid
  return (a, { s with nid := i })

/-- A register as a branch of `ite`: tuples and protocol objects are left to C27/C28. -/
def toBranch : Obj → Branch
  | .bv x => .bv x
  | .bit b => .bit b
  | _ => .other 0

def ofBranch : Branch → PyM Obj
  | .bv x => .ok (.bv x)
  | .bit b => .ok (.bit b)
  | _ => .error .typeError

/-- `c.ite(t, f)` (bit_vector.py:96-116, 359-360). -/
def iteOn (c : Obj) (t f : Branch) : PyF Branch :=
  match c with
  | .bit b => HW.ite b t f
  | .bv x => x.ite t f
  | _ => pyLift (.error .attributeError)

/-- One instruction. -/
def exec (s : Machine) : Instr → PyM Machine
  | .lit (.bv _) => .error .typeError
  | .lit o => .ok (s.put o)
  | .new k n v => do return s.put (.bv (← mkBV k n (← s.readObj v)))
  | .un m x => do return s.put (.bv (← m.run (← s.readBV x)))
  | .meth m x y => do
      let a ← s.readBV x
      let o ← s.readObj y
      let r ← m.run a o
      return if remSelf m a o then s.share x else s.put (.bv r)
  | .cmeth m x y => do return s.put (.bit (← m.run (← s.readBV x) (← s.readObj y)))
  | .opA op x y => do
      let a ← s.readObj x
      let b ← s.readObj y
      let (r, s') ← s.runF (binA op a b)
      return if op == .mod && modSelf a b then s'.share x else s'.put r
  | .opC op x y => do return s.put (← binC op (← s.readObj x) (← s.readObj y))
  | .invert x => do return s.put (← unInvert (← s.readObj x))
  | .neg x => do return s.put (← unNeg (← s.readObj x))
  | .getitem x i => do return s.put (← (← s.readBV x).getitem i)
  | .setitem x i v => do
      let r ← (← s.readBV x).setitem i (← s.readObj v)
      match s.regs[x]? with
      | some (.ref a) => return { s with cells := s.cells.set a r }
      | _ => .error .typeError
  | .concat x y => do return s.put (.bv (← (← s.readBV x).concat (← s.readBV y)))
  | .zext x k => do return s.put (.bv (← (← s.readBV x).zext k))
  | .sext x k => do return s.put (.bv (← (← s.readBV x).sext k))
  | .ext x k => do
      let (r, s') ← s.runF ((← s.readBV x).ext k)
      return s'.put (.bv r)
  | .rep x k => do return s.put (.bv (← (← s.readBV x).repeat_ k))
  | .adc x y c => do
      let (r, b) ← (← s.readBV x).adc (← s.readObj y) (← s.readObj c)
      return (s.put (.bv r)).put (.bit b)
  | .overflow x y z => do
      return s.put (.bit (← HW.overflow (← s.readBV x) (← s.readBV y) (← s.readBV z)))
  | .ite c t f => do
      let t := toBranch (← s.readObj t)
      let f := toBranch (← s.readObj f)
      let (r, s') ← s.runF (iteOn (← s.readObj c) t f)
      return s'.put (← ofBranch r)
  | .bits x => do return s.put (.seq (← s.readBV x).asBoolList)
  | .asUint x => do return s.put (.int (← s.readBV x).asUint)
  | .asSint x => do return s.put (.int (← (← s.readBV x).asSint))

/-- A failing instruction changes nothing. -/
def step (s : Machine) (c : Instr) : Machine :=
  match s.exec c with
  | .ok s' => s'
  | .error _ => s

def run (s : Machine) (p : List Instr) : Machine := p.foldl step s

end Machine
end HW
