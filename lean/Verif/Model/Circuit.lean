import Verif.Model.Smt.Ite
import Verif.Model.Smt.Bit
import Verif.Model.Z3.Vector

/-!
# Circuits: one python function run with each family

Code that uses hwtypes is usually written once, over the methods all families have
(`AbstractBitVector`, `AbstractBit`, bit_vector_abc.py:121-470), and run with `BitVector` to simulate and with
`SMTBitVector` or `z3BitVector` to verify.  A circuit is such a function, as a list of instructions; every
instruction calls one method on earlier values and appends the result.

Simplified: no control flow (`Model/PyProgram.lean` adds it), no
item assignment, no sequences as operands.  Some instructions carry an `assert` of the caller:

* `rol`, `ror`: `0 <= k <= len(x)`; `sext`: `k != 0`; `slice`: `0 <= lo < hi <= len(x)`; `const`: `n > 0`;
* `mux`: `type(t) is type(f)`;
* `x op y` with an operator: `y` is a bit, an int or a vector of the class of `x`, and `x` is not signed if the
  operator is `//` or `%`.

Signed division and remainder are left out; the families differ there (C35, C93).  So are operators with an int
on the left, which z3 vectors do not have (C95).
-/

namespace HW.Circuit
open HW

/-- Methods without operands. -/
inductive Un | not | neg
  deriving DecidableEq
/-- Methods of a vector and an operand which return a vector. -/
inductive Bin | and | or | xor | nand | nor | xnor | shl | lshr | ashr | add | sub | mul | udiv | urem | comp
  deriving DecidableEq
/-- Methods of a vector and an operand which return a bit. -/
inductive Cmp | eq | ne | ult | ule | ugt | uge | slt | sle | sgt | sge
  deriving DecidableEq

/-- An operand: a vector, a bit, or a python int. -/
inductive Opnd (V B : Type)
  | vec (x : V)
  | bit (b : B)
  | int (v : Int)

/-- A value a circuit has computed. -/
inductive Reg (V B : Type)
  | vec (x : V)
  | bit (b : B)

/-- What a circuit uses of a family. -/
structure Family where
  V : Type
  B : Type
  size : V → Nat
  sameClass : V → V → Bool
  const : Root → Nat → Int → PyM V
  un : Un → V → PyM V
  bin : Bin → V → Opnd V B → PyM V
  cmp : Cmp → V → Opnd V B → PyM B
  rol : V → Int → PyM V
  ror : V → Int → PyM V
  zext : V → Int → PyM V
  sext : V → Int → PyM V
  slice : V → Int → Int → PyM V
  index : V → Int → PyM B
  concat : V → V → PyM V
  adc : V → Opnd V B → Opnd V B → PyM (V × B)
  signed : V → Bool
  opA : AOp → V → Opnd V B → PyM V
  opC : COp → V → Opnd V B → PyM B
  bit : Smt.BitOp → B → B → PyM B
  bitNot : B → PyM B
  mux : B → V → V → PyM V

/-- An operand in the text of a circuit: an earlier value or an int. -/
inductive Arg
  | reg (i : Nat)
  | int (v : Int)

inductive Instr
  | const (r : Root) (n : Nat) (v : Int)
  | un (op : Un) (x : Nat)
  | bin (op : Bin) (x : Nat) (y : Arg)
  | cmp (op : Cmp) (x : Nat) (y : Arg)
  | rol (x : Nat) (k : Int)
  | ror (x : Nat) (k : Int)
  | zext (x : Nat) (k : Int)
  | sext (x : Nat) (k : Int)
  | slice (x : Nat) (lo hi : Int)
  | index (x : Nat) (i : Int)
  | concat (x y : Nat)
  | adc (x : Nat) (y c : Arg)
  | opA (op : AOp) (x : Nat) (y : Arg)
  | opC (op : COp) (x : Nat) (y : Arg)
  | bit (op : Smt.BitOp) (a b : Nat)
  | bitNot (a : Nat)
  | mux (c t f : Nat)

section
variable (F : Family)

/-- An earlier value: an unknown name raises `NameError`. -/
def read (s : List (Reg F.V F.B)) (i : Nat) : PyM (Reg F.V F.B) :=
  match s[i]? with
  | some r => .ok r
  | none => .error .nameError

/-- A vector whose method is called: a bit has no such attribute. -/
def readV (s : List (Reg F.V F.B)) (i : Nat) : PyM F.V := do
  match ← read F s i with
  | .vec x => return x
  | .bit _ => .error .attributeError

def readB (s : List (Reg F.V F.B)) (i : Nat) : PyM F.B := do
  match ← read F s i with
  | .bit b => return b
  | .vec _ => .error .attributeError

def readArg (s : List (Reg F.V F.B)) : Arg → PyM (Opnd F.V F.B)
  | .int v => .ok (.int v)
  | .reg i => do
      match ← read F s i with
      | .vec x => return .vec x
      | .bit b => return .bit b

/-- What the `assert` before an operator asks of the right operand. -/
def fitsOp (x : F.V) : Opnd F.V F.B → Bool
  | .vec y => F.sameClass x y
  | _ => true

/-- `assert c` -/
def check (c : Prop) [Decidable c] : PyM Unit := if c then .ok () else .error .assertionError

def putV (s : List (Reg F.V F.B)) (x : F.V) : List (Reg F.V F.B) := s ++ [.vec x]
def putB (s : List (Reg F.V F.B)) (b : F.B) : List (Reg F.V F.B) := s ++ [.bit b]

/-- One instruction; `s` holds the inputs and the results so far. -/
def step (s : List (Reg F.V F.B)) : Instr → PyM (List (Reg F.V F.B))
  | .const r n v => do
      check (0 < n)
      return putV F s (← F.const r n v)
  | .un op x => do return putV F s (← F.un op (← readV F s x))
  | .bin op x y => do
      let x ← readV F s x
      let y ← readArg F s y
      return putV F s (← F.bin op x y)
  | .cmp op x y => do
      let x ← readV F s x
      let y ← readArg F s y
      return putB F s (← F.cmp op x y)
  | .rol x k => do
      let x ← readV F s x
      check (0 ≤ k ∧ k ≤ F.size x)
      return putV F s (← F.rol x k)
  | .ror x k => do
      let x ← readV F s x
      check (0 ≤ k ∧ k ≤ F.size x)
      return putV F s (← F.ror x k)
  | .zext x k => do return putV F s (← F.zext (← readV F s x) k)
  | .sext x k => do
      let x ← readV F s x
      check (k ≠ 0)
      return putV F s (← F.sext x k)
  | .slice x lo hi => do
      let x ← readV F s x
      check (0 ≤ lo ∧ lo < hi ∧ hi ≤ F.size x)
      return putV F s (← F.slice x lo hi)
  | .index x i => do return putB F s (← F.index (← readV F s x) i)
  | .concat x y => do
      let x ← readV F s x
      let y ← readV F s y
      return putV F s (← F.concat x y)
  | .adc x y c => do
      let x ← readV F s x
      let y ← readArg F s y
      let c ← readArg F s c
      let r ← F.adc x y c
      return putB F (putV F s r.1) r.2
  | .opA op x y => do
      let x ← readV F s x
      let y ← readArg F s y
      check (fitsOp F x y = true ∧ ¬ (F.signed x = true ∧ (op = .fdiv ∨ op = .mod)))
      return putV F s (← F.opA op x y)
  | .opC op x y => do
      let x ← readV F s x
      let y ← readArg F s y
      check (fitsOp F x y = true)
      return putB F s (← F.opC op x y)
  | .bit op a b => do
      let a ← readB F s a
      let b ← readB F s b
      return putB F s (← F.bit op a b)
  | .bitNot a => do return putB F s (← F.bitNot (← readB F s a))
  | .mux c t f => do
      let c ← readB F s c
      let t ← readV F s t
      let f ← readV F s f
      check (F.sameClass t f = true)
      return putV F s (← F.mux c t f)

/-- The whole circuit. -/
def run (s : List (Reg F.V F.B)) : List Instr → PyM (List (Reg F.V F.B))
  | [] => .ok s
  | i :: p => do run (← step F s i) p

end

/-! ### The three families -/

def cObj : Opnd BVal Bool → Obj
  | .vec x => .bv x
  | .bit b => .bit b
  | .int v => .int v

def cBin : Bin → BVal → Obj → PyM BVal
  | .and => BVal.bvand | .or => BVal.bvor | .xor => BVal.bvxor | .nand => BVal.bvnand | .nor => BVal.bvnor
  | .xnor => BVal.bvxnor | .shl => BVal.bvshl | .lshr => BVal.bvlshr | .ashr => BVal.bvashr | .add => BVal.bvadd
  | .sub => BVal.bvsub | .mul => BVal.bvmul | .udiv => BVal.bvudiv | .urem => BVal.bvurem | .comp => BVal.bvcomp
def cCmp : Cmp → BVal → Obj → PyM Bool
  | .eq => BVal.bveq | .ne => BVal.bvne | .ult => BVal.bvult | .ule => BVal.bvule | .ugt => BVal.bvugt
  | .uge => BVal.bvuge | .slt => BVal.bvslt | .sle => BVal.bvsle | .sgt => BVal.bvsgt | .sge => BVal.bvsge

/-- `a op b` on two concrete bits (`Bit.__and__` and so on, bit_vector.py:63-93). -/
def cBitOp (op : Smt.BitOp) (a b : Bool) : PyM Bool := do
  let o ← match op with
    | .and => (binA .and (.bit a) (.bit b) 0).map Prod.fst
    | .or => (binA .or (.bit a) (.bit b) 0).map Prod.fst
    | .xor => (binA .xor (.bit a) (.bit b) 0).map Prod.fst
    | .eq => binC .eq (.bit a) (.bit b)
    | .ne => binC .ne (.bit a) (.bit b)
  match o with
  | .bit c => return c
  | _ => .error .typeError

/-- `x op o` where the result is a vector; nothing else happens for the operands circuits use. -/
def cOpA (op : AOp) (x : BVal) (o : Obj) : PyM BVal := do
  match ← binA op (.bv x) o 0 with
  | (.bv v, _) => return v
  | _ => .error .typeError

/-- `x cmp o` where the result is a bit. -/
def cOpC (op : COp) (x : BVal) (o : Obj) : PyM Bool := do
  match ← binC op (.bv x) o with
  | .bit b => return b
  | _ => .error .typeError

/-- `Bit`, `BitVector` (bit_vector.py). -/
def concrete : Family where
  V := BVal
  B := Bool
  size x := x.size
  sameClass x y := decide (x.kind = y.kind ∧ x.size = y.size)
  const r n v := mkBV (.root r) n (.int v)
  un | .not => BVal.bvnot | .neg => BVal.bvneg
  bin op x o := cBin op x (cObj o)
  cmp op x o := cCmp op x (cObj o)
  rol x k := x.bvrol (.int k)
  ror x k := x.bvror (.int k)
  zext := BVal.zext
  sext := BVal.sext
  slice x lo hi := x.getSlice ⟨some lo, some hi, none⟩
  index := BVal.getIdx
  concat := BVal.concat
  adc x o c := x.adc (cObj o) (cObj c)
  signed x := decide (x.kind = .root .sint)
  opA op x o := cOpA op x (cObj o)
  opC op x o := cOpC op x (cObj o)
  bit := cBitOp
  bitNot b := .ok (BVal.bitNot b)
  mux c t f := (iteBV c t f 0).map Prod.fst

section
open Smt
variable (S : Simplifier)

def sObj : Opnd SBV Term → SObj
  | .vec x => .bv x
  | .bit b => .bit b
  | .int v => .int v

def sBin : Bin → SBV → SObj → PyM SBV
  | .and => SBV.bvand S | .or => SBV.bvor S | .xor => SBV.bvxor S | .nand => SBV.bvnand S | .nor => SBV.bvnor S
  | .xnor => SBV.bvxnor S | .shl => SBV.bvshl S | .lshr => SBV.bvlshr S | .ashr => SBV.bvashr S | .add => SBV.bvadd S
  | .sub => SBV.bvsub S | .mul => SBV.bvmul S | .udiv => SBV.bvudiv S | .urem => SBV.bvurem S | .comp => SBV.bvcomp S
def sCmp : Cmp → SBV → SObj → PyM Term
  | .eq => SBV.bveq S | .ne => SBV.bvne S | .ult => SBV.bvult S | .ule => SBV.bvule S | .ugt => SBV.bvugt S
  | .uge => SBV.bvuge S | .slt => SBV.bvslt S | .sle => SBV.bvsle S | .sgt => SBV.bvsgt S | .sge => SBV.bvsge S

/-- `c.ite(t, f)` on two vectors. -/
def sMux (c : Term) (t f : SBV) : PyM SBV := do
  match ← sIte S c (.bv t) (.bv f) 0 with
  | (.bv z, _) => return z
  | _ => .error .typeError

/-- `x op o`; circuits only have vectors of the predefined classes. -/
def sOpA (op : AOp) (x : SBV) (o : SObj) : PyM SBV :=
  match x.kind with
  | .root r => match o with
    | .bv y => match y.kind with
      | .root r' => svecVec S op r r' x y
      | .poly .. => .error .typeError
    | o => svecLeft S op r x o
  | .poly .. => .error .typeError

def iBit : IRes → PyM Term
  | .sym t => .ok t
  | .py _ => .error .typeError

def sOpC (op : COp) (x : SBV) (o : SObj) : PyM Term :=
  match x.kind with
  | .root r => match o with
    | .bv y => match y.kind with
      | .root r' => scmpVec S op r r' x y >>= iBit
      | .poly .. => .error .typeError
    | o => scmpLeft S op r x o >>= iBit
  | .poly .. => .error .typeError

/-- `SMTBit`, `SMTBitVector` (smt_bit_vector.py). -/
def smt : Family where
  V := SBV
  B := Term
  size x := x.size
  sameClass x y := decide (x.kind = y.kind ∧ x.size = y.size)
  const r n v := mkSBV S (.root r) n (.int v)
  un | .not => SBV.bvnot S | .neg => SBV.bvneg S
  bin op x o := sBin S op x (sObj o)
  cmp op x o := sCmp S op x (sObj o)
  rol x k := x.bvrol S (.int k)
  ror x k := x.bvror S (.int k)
  zext := SBV.zext S
  sext := SBV.sext S
  slice x lo hi := x.getSlice S ⟨some lo, some hi, none⟩
  index := SBV.getIdx S
  concat := SBV.concat S
  adc x o c := x.adc S (sObj o) (sObj c)
  signed x := decide (x.kind = .root .sint)
  opA op x o := sOpA S op x (sObj o)
  opC op x o := sOpC S op x (sObj o)
  bit op a b := bitBin S op a b
  bitNot := bitInvert S
  mux := sMux S

end

section
open Z3

def zObj : Opnd ZBV BoolE → ZObj
  | .vec x => .bv x
  | .bit b => .bit b
  | .int v => .int v

def zBin : Bin → ZBV → ZObj → PyM ZBV
  | .and => ZBV.bvand | .or => ZBV.bvor | .xor => ZBV.bvxor | .nand => ZBV.bvnand | .nor => ZBV.bvnor
  | .xnor => ZBV.bvxnor | .shl => ZBV.bvshl | .lshr => ZBV.bvlshr | .ashr => ZBV.bvashr | .add => ZBV.bvadd
  | .sub => ZBV.bvsub | .mul => ZBV.bvmul | .udiv => ZBV.bvudiv | .urem => ZBV.bvurem | .comp => ZBV.bvcomp
def zCmp : Cmp → ZBV → ZObj → PyM BoolE
  | .eq => ZBV.bveq | .ne => ZBV.bvne | .ult => ZBV.bvult | .ule => ZBV.bvule | .ugt => ZBV.bvugt
  | .uge => ZBV.bvuge | .slt => ZBV.bvslt | .sle => ZBV.bvsle | .sgt => ZBV.bvsgt | .sge => ZBV.bvsge

/-- `a op b` on two z3 bits. -/
def zBitBin (op : Smt.BitOp) (a b : BoolE) : PyM BoolE :=
  match op with
  | .and => do match ← zBinA .and (.bit a) (.bit b) with
    | .bit c => return c
    | .bv _ => .error .typeError
  | .or => do match ← zBinA .or (.bit a) (.bit b) with
    | .bit c => return c
    | .bv _ => .error .typeError
  | .xor => do match ← zBinA .xor (.bit a) (.bit b) with
    | .bit c => return c
    | .bv _ => .error .typeError
  | .eq => zBinC .eq (.bit a) (.bit b)
  | .ne => zBinC .ne (.bit a) (.bit b)

/-- `x op o`. -/
def zOpA (op : AOp) (x : ZBV) (o : ZObj) : PyM ZBV := do
  match ← zBinA op (.bv x) o with
  | .bv z => return z
  | .bit _ => .error .typeError

/-- `z3Bit`, `z3BitVector` (z3_bit_vector.py); `__invert__` of bits is 113-114. -/
def z3 : Family where
  V := ZBV
  B := BoolE
  size x := x.size
  sameClass x y := decide (x.root = y.root ∧ x.size = y.size)
  const r n v := mkZBV r n (.int v)
  un | .not => ZBV.bvnot | .neg => ZBV.bvneg
  bin op x o := zBin op x (zObj o)
  cmp op x o := zCmp op x (zObj o)
  rol x k := x.bvrol (.int k)
  ror x k := x.bvror (.int k)
  zext := ZBV.zext
  sext := ZBV.sext
  slice x lo hi := x.getSlice ⟨some lo, some hi, none⟩
  index := ZBV.getIdx
  concat := ZBV.concat
  adc x o c := x.adc (zObj o) (zObj c)
  signed x := decide (x.root = .sint)
  opA op x o := zOpA op x (zObj o)
  opC op x o := zBinC op (.bv x) (zObj o)
  bit := zBitBin
  bitNot b := .ok fun e => !(b e)
  mux c t f := zIte c (.bv t) (.bv f)

end

end HW.Circuit
