import Verif.Model.Derived
import Verif.Model.Z3.Vector

/-!
# z3 vectors of user-defined classes

The methods of `z3BitVector` (z3_bit_vector.py:156-559) over an arbitrary hierarchy of classes, as
`Model/Derived.lean` has them for `BitVector` and `Model/Smt/Derived.lean` for `SMTBitVector`.  The
bodies of the user's classes are assumed to override nothing.  `Model/Z3/Vector.lean` has the predefined
classes.
-/

namespace HW.Z3.Der
open HW HW.Der

/-- A vector: its class and `_value`. -/
structure ZInst (H : Hier) where
  cls : H.C
  expr : BVE

/-- Python objects, as `ZObj`. -/
inductive ZHObj (H : Hier)
  | int (v : Int)
  | bool (b : Bool)
  | bit (b : BoolE)
  | bv (x : ZInst H)
  | boolRef (b : BoolE)
  | bvRef (x : BVE)
  | seq (l : List ZElem)
  | other (toInt : Option Int) (toBool : Option Bool)

variable {H : Hier}

/-- `T(bitvecref)` (z3_bit_vector.py:199, 203-208). -/
def bvFH (c : H.C) (x : BVE) : PyM (ZInst H) := do
  bitVecSort (H.size c)
  if x.w = H.size c then return ⟨c, x⟩ else .error .typeError

/-- `z3.If(b, z3.BitVecVal(1, T), z3.BitVecVal(0, T))` (z3_bit_vector.py:222-226). -/
def boolFH (c : H.C) (b : BoolE) : PyM (ZInst H) := do
  bitVecSort (H.size c)
  return ⟨c, ← zIf b (← bitVecVal 1 (H.size c)) (← bitVecVal 0 (H.size c))⟩

/-- `z3.BitVecVal(value, self.size)` (z3_bit_vector.py:234-239). -/
def intFH (c : H.C) (v : Int) : PyM (ZInst H) := do
  bitVecSort (H.size c)
  return ⟨c, ← bitVecVal v (H.size c)⟩

namespace ZInst

/-- `self.size`. -/
def size (x : ZInst H) : Nat := H.size x.cls

/-- `zext` (z3_bit_vector.py:508-512); also `ext` (505-506). -/
def zext (x : ZInst H) (ext : Int) : PyM (ZInst H) :=
  if ext < 0 then .error .valueError
  else do
    let T ← unsizedT x.cls
    bvFH (H.get T (x.size + ext.toNat)) (zZeroExt ext.toNat x.expr)

/-- `sext` (z3_bit_vector.py:499-503). -/
def sext (x : ZInst H) (ext : Int) : PyM (ZInst H) :=
  if ext < 0 then .error .valueError
  else do
    let T ← unsizedT x.cls
    bvFH (H.get T (x.size + ext.toNat)) (zSignExt ext.toNat x.expr)

/-- `__getitem__` with a slice (z3_bit_vector.py:267-288). -/
def getSlice (x : ZInst H) (s : PySlice) : PyM (ZInst H) := do
  let size : Int := x.size
  let start := match s.start with
    | none => 0
    | some b => if b < 0 then size + b else b
  let stop := match s.stop with
    | none => size
    | some b => if b < 0 then size + b else b
  let stop := min stop size
  if s.step.getD 1 ≠ 1 then .error .indexError
  else do
    let v ← zExtract (stop - 1) start x.expr
    let T ← unsizedT x.cls
    bvFH (H.get T v.w) v

/-- `__getitem__` with an int (z3_bit_vector.py:289-297). -/
def getIdx (x : ZInst H) (index : Int) : PyM BoolE := do
  let index := if index < 0 then x.size + index else index
  if ¬ (0 ≤ index ∧ index < x.size) then .error .indexError
  else do
    let v ← zExtract index index x.expr
    zEq v (← bitVecVal 1 1)

/-- `concat` (z3_bit_vector.py:322-326) on a vector. -/
def concat (x y : ZInst H) : PyM (ZInst H) := do
  let T ← unsizedT x.cls
  if ¬ H.isSubU y.cls T then .error .typeError
  else bvFH (H.get T (x.size + y.size)) (zConcat y.expr x.expr)

end ZInst

/-- `B1(elem)` with `B1 = cls.unsized_t[1]` (z3_bit_vector.py:232-233). -/
def mkElemH (c : H.C) : ZElem → PyM (ZInst H)
  | .bit b => boolFH c b
  | .bool b => intFH c (b2i b)
  | .int v => intFH c v

/-- `reduce(lambda acc, elem: acc.concat(elem), map(B1, value))` after the first element. -/
def concatElemsH (c : H.C) : ZInst H → List ZElem → PyM (ZInst H)
  | acc, [] => .ok acc
  | acc, e :: l => do
      let x ← mkElemH c e
      let acc' ← acc.concat x
      concatElemsH c acc' l

/-- The final `assert` (z3_bit_vector.py:244). -/
def assertH (c : H.C) (x : BVE) : PyM (ZInst H) :=
  if x.w = H.size c then return ⟨c, x⟩ else .error .assertionError

/-- `z3BitVector.__init__` at class `c` for a given value (z3_bit_vector.py:183-244). -/
def mkZH (c : H.C) (o : ZHObj H) : PyM (ZInst H) := do
  bitVecSort (H.size c)
  match o with
  | .bvRef x => bvFH c x                                                   -- 203-208
  | .bv x => do                                                            -- 209-221
      let ext : Int := (H.size c : Int) - x.size
      if ext < 0 then
        let y ← x.getSlice ⟨none, some (H.size c), none⟩
        assertH c y.expr
      else if ext > 0 then
        let y ← x.zext ext
        assertH c y.expr
      else assertH c x.expr
  | .boolRef b => boolFH c b                                               -- 222-223
  | .bit b => boolFH c b                                                   -- 225-226
  | .seq l => do                                                           -- 228-233
      if (l.length : Int) ≠ H.size c then .error .valueError
      else do
        let T ← unsizedT c
        match l with
        | [] => .error .typeError
        | e :: l => do
            let x ← mkElemH (H.get T 1) e
            let y ← concatElemsH (H.get T 1) x l
            assertH c y.expr
  | .int v => intFH c v                                                    -- 234-235
  | .bool b => intFH c (b2i b)
  | .other (some v) _ => intFH c v                                         -- 237-239
  | .other none _ => .error .typeError                                     -- 240-241

/-- `_coerce` (z3_bit_vector.py:156-162). -/
def zcoerceH (c : H.C) : ZHObj H → PyM (ZInst H)
  | .bv x => if x.size ≠ H.size c then .error .typeError else .ok x
  | o => mkZH c o

/-- `z3Bit(value)` (z3_bit_vector.py:58-93), as `mkZBit`. -/
def mkZBitH : ZHObj H → PyM BoolE
  | .boolRef b => .ok b
  | .bit b => .ok b
  | .bool b => .ok fun _ => b
  | .int v => if v = 0 then .ok fun _ => false
      else if v = 1 then .ok fun _ => true else .error .valueError
  | .bvRef _ => .error .z3Exception
  | .other _ (some b) => .ok fun _ => b
  | _ => .error .typeError

/-- `z3Bit.ite` (z3_bit_vector.py:128-154) on two vectors. -/
def iteZH (b : BoolE) (t f : ZInst H) : PyM (ZInst H) :=
  if t.cls ≠ f.cls then .error .typeError
  else do bvFH t.cls (← zIf b t.expr f.expr)

/-- ... on a vector and another object. -/
def iteVO (b : BoolE) (t : ZInst H) (f : ZHObj H) : PyM (ZInst H) := do
  let f ← mkZH t.cls f
  bvFH t.cls (← zIf b t.expr f.expr)

/-- ... on another object and a vector. -/
def iteOV (b : BoolE) (t : ZHObj H) (f : ZInst H) : PyM (ZInst H) := do
  let t ← mkZH f.cls t
  bvFH f.cls (← zIf b t.expr f.expr)

namespace ZInst

/-- `bv_cast` (z3_bit_vector.py:164-169). -/
def cast {α : Type} (x : ZInst H) (o : ZHObj H) (fn : ZInst H → PyM α) : PyM α := do
  fn (← zcoerceH x.cls o)
/-- `type(self)(op(self.value, other.value))` (z3_bit_vector.py:328-469). -/
def bin (op : BVE → BVE → PyM BVE) (x : ZInst H) (o : ZHObj H) : PyM (ZInst H) :=
  x.cast o fun y => do bvFH x.cls (← op x.expr y.expr)
/-- `type(self)(~op(self.value, other.value))`. -/
def nbin (op : BVE → BVE → PyM BVE) (x : ZInst H) (o : ZHObj H) : PyM (ZInst H) :=
  x.cast o fun y => do bvFH x.cls (zNot (← op x.expr y.expr))
/-- `Bit(op(self.value, other.value))`. -/
def rel (op : BVE → BVE → PyM BoolE) (x : ZInst H) (o : ZHObj H) : PyM BoolE :=
  x.cast o fun y => op x.expr y.expr
/-- `bvnot`, `bvneg` (z3_bit_vector.py:328-329, 419-420). -/
def bvnot (x : ZInst H) : PyM (ZInst H) := bvFH x.cls (zNot x.expr)
def bvneg (x : ZInst H) : PyM (ZInst H) := bvFH x.cls (zNeg x.expr)
/-- `bvcomp` (z3_bit_vector.py:375-377). -/
def bvcomp (x : ZInst H) (o : ZHObj H) : PyM (ZInst H) :=
  x.cast o fun y => do
    let T ← unsizedT x.cls
    boolFH (H.get T 1) (← zEq x.expr y.expr)
/-- `repeat` (z3_bit_vector.py:495-497). -/
def repeat_ (x : ZInst H) (r : Int) : PyM (ZInst H) := do bvFH x.cls (← zRepeat r x.expr)

/-- `adc` (z3_bit_vector.py:422-438). -/
def adc (x : ZInst H) (other carry : ZHObj H) : PyM (ZInst H × BoolE) := do
  let other ← zcoerceH x.cls other
  let carry ← zcoerceH (H.get (← unsizedT x.cls) 1) carry
  let a ← x.zext 1
  let b ← other.zext 1
  let c ← carry.zext x.size
  let s ← a.bin zAdd (.bv b)
  let res ← s.bin zAdd (.bv c)
  return (← res.getSlice ⟨some 0, some (-1), none⟩, ← res.getIdx (-1))

/-- The value check of `__setitem__` (z3_bit_vector.py:306-307). -/
def isBitLike : ZHObj H → Bool
  | .bool _ => true
  | .bit _ => true
  | .int v => v == 0 || v == 1
  | _ => false

/-- `__setitem__` (z3_bit_vector.py:302-316) with an int index; returns the object after the
assignment. -/
def setitem (x : ZInst H) (index : Int) (value : ZHObj H) : PyM (ZInst H) :=
  if ¬ isBitLike value then .error .valueError
  else
    let index := if index < 0 then x.size + index else index
    if ¬ (0 ≤ index ∧ index < x.size) then .error .indexError
    else do
      let one ← pyShl 1 index
      let mask ← mkZH x.cls (.int one)
      let b ← mkZBitH value
      let t ← x.bin zOr (.bv mask)
      let nm ← mask.bvnot
      let f ← x.bin zAnd (.bv nm)
      let r ← iteZH b t f
      return { x with expr := r.expr }

/-- `make_constant` (z3_bit_vector.py:246-249). -/
def makeConstant (x : ZInst H) (o : ZHObj H) (size : Option Nat) : PyM (ZInst H) := do
  mkZH (H.get (← unsizedT x.cls) (size.getD x.size)) o

end ZInst

/-! ## Methods by name -/

def runU : UMeth → ZInst H → PyM (ZInst H)
  | .bvnot => ZInst.bvnot
  | .bvneg => ZInst.bvneg

def runB : BMeth → ZInst H → ZHObj H → PyM (ZInst H)
  | .bvand => ZInst.bin zAnd | .bvor => ZInst.bin zOr | .bvxor => ZInst.bin zXor
  | .bvnand => ZInst.nbin zAnd | .bvnor => ZInst.nbin zOr | .bvxnor => ZInst.nbin zXor
  | .bvshl => ZInst.bin zShl | .bvlshr => ZInst.bin zLShR | .bvashr => ZInst.bin zAShR
  | .bvrol => ZInst.bin zRotateLeft | .bvror => ZInst.bin zRotateRight | .bvcomp => ZInst.bvcomp
  | .bvadd => ZInst.bin zAdd | .bvsub => ZInst.bin zSub | .bvmul => ZInst.bin zMul
  | .bvudiv => ZInst.bin zUDiv | .bvurem => ZInst.bin zURem
  | .bvsdiv => ZInst.bin zSDiv | .bvsrem => ZInst.bin zSMod

def runC : CMeth → ZInst H → ZHObj H → PyM BoolE
  | .bveq => ZInst.rel zEq | .bvne => ZInst.rel zNe
  | .bvult => ZInst.rel zULT | .bvule => ZInst.rel zULE
  | .bvugt => ZInst.rel zUGT | .bvuge => ZInst.rel zUGE
  | .bvslt => ZInst.rel zSLT | .bvsle => ZInst.rel zSLE
  | .bvsgt => ZInst.rel zSGT | .bvsge => ZInst.rel zSGE

/-! ## Operators -/

/-- The method behind an operator (z3_bit_vector.py:471-484, 540-547). -/
def uMeth : AOp → BMeth
  | .and => .bvand | .or => .bvor | .xor => .bvxor | .shl => .bvshl | .shr => .bvlshr
  | .add => .bvadd | .sub => .bvsub | .mul => .bvmul | .fdiv => .bvudiv | .mod => .bvurem
def sMeth : AOp → BMeth
  | .shr => .bvashr | .fdiv => .bvsdiv | .mod => .bvsrem | op => uMeth op
def meth (op : AOp) (signed : Bool) : BMeth := if signed then sMeth op else uMeth op

/-- (z3_bit_vector.py:486-491, 549-559). -/
def uMethC : COp → CMeth
  | .eq => .bveq | .ne => .bvne | .ge => .bvuge | .gt => .bvugt | .le => .bvule | .lt => .bvult
def sMethC : COp → CMeth
  | .ge => .bvsge | .gt => .bvsgt | .le => .bvsle | .lt => .bvslt | op => uMethC op
def methC (op : COp) (signed : Bool) : CMeth := if signed then sMethC op else uMethC op

/-- `issubclass(type(y), type(x))`, proper. -/
def properSub (y x : ZInst H) : Bool := y.cls != x.cls && H.isSub y.cls x.cls

/-- `x op o`: the method of the class of `x`; there are no reflected methods. -/
def opV (op : AOp) (x : ZInst H) (o : ZHObj H) : PyM (ZInst H) := runB (meth op (H.signed x.cls)) x o

/-- `x cmp y` on two vectors (CPython `do_richcompare`). -/
def cmpVV (op : COp) (x y : ZInst H) : PyM BoolE :=
  if properSub y x then runC (methC op.swap (H.signed y.cls)) y (.bv x)
  else runC (methC op (H.signed x.cls)) x (.bv y)

/-- `x cmp o` for other objects, and `o cmp x`, which Python turns into the swapped comparison. -/
def cmpVO (op : COp) (x : ZInst H) (o : ZHObj H) : PyM BoolE := runC (methC op (H.signed x.cls)) x o

end HW.Z3.Der
