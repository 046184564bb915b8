import Verif.Model.Operators

/-!
# Model of `hwtypes/z3_bit_vector.py`

z3 is a third-party library and not part of the repository.  A z3 expression is represented by its sort
and its meaning, the function from assignments to values.  Every expression passes through
`z3.simplify` (z3_bit_vector.py:93, 243), which preserves exactly these two; nothing in the file looks
at the form of an expression.  The functions of the z3 API that the file uses are given with the checks
of z3py (`z3.Z3Exception`) and the SMT-LIB meaning from Lean's `BitVec` library.

Names of symbolic values are in `Model/Z3/Names.lean`.  Not modelled: `repr`, warnings.  User
subclasses are in `Model/Z3/Derived.lean`.
-/

namespace HW.Z3
open HW

/-- Names of z3 constants. -/
abbrev Name := List Char

/-- An assignment.  z3 constants of one name and different sorts are different constants. -/
structure Env where
  bool : Name → Bool
  bv : Name → (w : Nat) → BitVec w

/-- `z3.BoolRef`. -/
abbrev BoolE := Env → Bool

/-- `z3.BitVecRef`: the sort's width and the meaning. -/
structure BVE where
  w : Nat
  den : Env → BitVec w

/-! ### The z3 API -/

/-- `z3.BitVecSort(n)`: widths must be positive. -/
def bitVecSort (n : Nat) : PyM Unit := if n = 0 then .error .z3Exception else .ok ()

/-- `z3.BitVecVal(v, n)`: the numeral modulo `2^n`. -/
def bitVecVal (v : Int) (n : Nat) : PyM BVE := do
  bitVecSort n
  return ⟨n, fun _ => BitVec.ofInt n v⟩

/-- `z3.If(c, a, b)` on vectors. -/
def zIf (c : BoolE) (a b : BVE) : PyM BVE :=
  if h : b.w = a.w then .ok ⟨a.w, fun e => if c e then a.den e else (b.den e).cast h⟩
  else .error .z3Exception

/-- Functions of two vectors of one sort. -/
def zBin (f : (w : Nat) → BitVec w → BitVec w → BitVec w) (a b : BVE) : PyM BVE :=
  if h : b.w = a.w then .ok ⟨a.w, fun e => f a.w (a.den e) ((b.den e).cast h)⟩
  else .error .z3Exception

/-- Predicates on two vectors of one sort. -/
def zRel (f : (w : Nat) → BitVec w → BitVec w → Bool) (a b : BVE) : PyM BoolE :=
  if h : b.w = a.w then .ok fun e => f a.w (a.den e) ((b.den e).cast h)
  else .error .z3Exception

/-- Functions of one vector. -/
def zUn (f : (w : Nat) → BitVec w → BitVec w) (a : BVE) : BVE := ⟨a.w, fun e => f a.w (a.den e)⟩

/-- `z3.Extract(high, low, a)`: `low <= high`, both non-negative, `high` within the width. -/
def zExtract (high low : Int) (a : BVE) : PyM BVE :=
  if low ≤ high ∧ 0 ≤ low ∧ high < a.w then
    .ok ⟨high.toNat - low.toNat + 1, fun e => (a.den e).extractLsb high.toNat low.toNat⟩
  else .error .z3Exception

/-- `z3.Concat(a, b)`: `a` in the high bits. -/
def zConcat (a b : BVE) : BVE := ⟨a.w + b.w, fun e => a.den e ++ b.den e⟩

/-- `z3.ZeroExt(k, a)`, `z3.SignExt(k, a)`. -/
def zZeroExt (k : Nat) (a : BVE) : BVE := ⟨a.w + k, fun e => (a.den e).zeroExtend (a.w + k)⟩
def zSignExt (k : Nat) (a : BVE) : BVE := ⟨a.w + k, fun e => (a.den e).signExtend (a.w + k)⟩

/-- `z3.RepeatBitVec(k, a)`: `k` must be positive. -/
def zRepeat (k : Int) (a : BVE) : PyM BVE :=
  if k ≤ 0 then .error .z3Exception else .ok ⟨a.w * k.toNat, fun e => (a.den e).replicate k.toNat⟩

/-- The z3 operations on vectors: z3py's `/` is `bvsdiv`, `%` is `bvsmod`, `>>` is `bvashr`;
`RotateLeft`, `RotateRight` take a vector amount and rotate by it modulo the width. -/
def zAnd := zBin fun _ x y => x &&& y
def zOr := zBin fun _ x y => x ||| y
def zXor := zBin fun _ x y => x ^^^ y
def zShl := zBin fun _ x y => x <<< y
def zLShR := zBin fun _ x y => x >>> y
def zAShR := zBin fun _ x y => x.sshiftRight' y
def zRotateLeft := zBin fun _ x y => x.rotateLeft y.toNat
def zRotateRight := zBin fun _ x y => x.rotateRight y.toNat
def zAdd := zBin fun _ x y => x + y
def zSub := zBin fun _ x y => x - y
def zMul := zBin fun _ x y => x * y
def zUDiv := zBin fun _ x y => x.smtUDiv y
def zURem := zBin fun _ x y => x % y
def zSDiv := zBin fun _ x y => x.smtSDiv y
def zSMod := zBin fun _ x y => x.smod y
def zNot := zUn fun _ x => ~~~x
def zNeg := zUn fun _ x => -x
def zEq := zRel fun _ x y => x == y
def zNe := zRel fun _ x y => !(x == y)
def zULT := zRel fun _ x y => x.ult y
def zULE := zRel fun _ x y => x.ule y
def zUGT := zRel fun _ x y => y.ult x
def zUGE := zRel fun _ x y => y.ule x
def zSLT := zRel fun _ x y => x.slt y
def zSLE := zRel fun _ x y => x.sle y
def zSGT := zRel fun _ x y => y.slt x
def zSGE := zRel fun _ x y => y.sle x

/-! ### Objects -/

/-- A vector: class `root[size]` (`z3BitVector`, `z3NumVector`, `z3UIntVector`, `z3SIntVector`,
z3_bit_vector.py:178, 532-539) and `_value`. -/
structure ZBV where
  root : Root
  size : Nat
  expr : BVE

/-- An element of a sequence of bits. -/
inductive ZElem
  | bit (b : BoolE)
  | bool (b : Bool)
  | int (v : Int)

/-- Python objects that may be passed; `bit` is a `z3Bit`, `boolRef` and `bvRef` are z3 expressions,
`other` as in `Obj`. -/
inductive ZObj
  | int (v : Int)
  | bool (b : Bool)
  | bit (b : BoolE)
  | bv (x : ZBV)
  | boolRef (b : BoolE)
  | bvRef (x : BVE)
  | seq (l : List ZElem)
  | other (toInt : Option Int) (toBool : Option Bool)

/-- `z3Bit(value)` (z3_bit_vector.py:58-93) for a given value.  `bool` of a z3 vector expression
raises `Z3Exception`. -/
def mkZBit : ZObj → PyM BoolE
  | .boolRef b => .ok b                                           -- 75-76
  | .bit b => .ok b                                               -- 77-80
  | .bool b => .ok fun _ => b                                     -- 81-82
  | .int v => if v = 0 then .ok fun _ => false                    -- 83-86
      else if v = 1 then .ok fun _ => true else .error .valueError
  | .bvRef _ => .error .z3Exception                               -- 87-88
  | .other _ (some b) => .ok fun _ => b
  | _ => .error .typeError                                        -- 89-90

/-- `T[n](bitvecref)` (z3_bit_vector.py:199, 203-208). -/
def bvF (r : Root) (n : Nat) (x : BVE) : PyM ZBV := do
  bitVecSort n
  if x.w = n then return ⟨r, n, x⟩ else .error .typeError

/-- `z3.If(b, z3.BitVecVal(1, T), z3.BitVecVal(0, T))` (z3_bit_vector.py:222-226). -/
def boolF (r : Root) (n : Nat) (b : BoolE) : PyM ZBV := do
  bitVecSort n
  return ⟨r, n, ← zIf b (← bitVecVal 1 n) (← bitVecVal 0 n)⟩

/-- `z3.BitVecVal(value, self.size)` (z3_bit_vector.py:234-239). -/
def intF (r : Root) (n : Nat) (v : Int) : PyM ZBV := do
  bitVecSort n
  return ⟨r, n, ← bitVecVal v n⟩

namespace ZBV

/-- `zext` (z3_bit_vector.py:508-512). -/
def zext (x : ZBV) (ext : Int) : PyM ZBV :=
  if ext < 0 then .error .valueError else bvF x.root (x.size + ext.toNat) (zZeroExt ext.toNat x.expr)

/-- `sext` (z3_bit_vector.py:499-503). -/
def sext (x : ZBV) (ext : Int) : PyM ZBV :=
  if ext < 0 then .error .valueError else bvF x.root (x.size + ext.toNat) (zSignExt ext.toNat x.expr)

/-- `__getitem__` with a slice (z3_bit_vector.py:267-288). -/
def getSlice (x : ZBV) (s : PySlice) : PyM ZBV := do
  let size : Int := x.size
  let start := match s.start with
    | none => 0
    | some b => if b < 0 then size + b else b
  let stop := match s.stop with
    | none => size
    | some b => if b < 0 then size + b else b
  let stop := min stop size
  if s.step.getD 1 ≠ 1 then .error .indexError
  else do
    let v ← zExtract (stop - 1) start x.expr
    bvF x.root v.w v

/-- `__getitem__` with an int (z3_bit_vector.py:289-297). -/
def getIdx (x : ZBV) (index : Int) : PyM BoolE := do
  let index := if index < 0 then x.size + index else index
  if ¬ (0 ≤ index ∧ index < x.size) then .error .indexError
  else do
    let v ← zExtract index index x.expr
    zEq v (← bitVecVal 1 1)

/-- `concat` (z3_bit_vector.py:322-326) on a vector. -/
def concat (x y : ZBV) : PyM ZBV :=
  if ¬ y.root.isSub x.root then .error .typeError
  else bvF x.root (x.size + y.size) (zConcat y.expr x.expr)

end ZBV

/-- `B1(elem)` with `B1 = cls.unsized_t[1]` (z3_bit_vector.py:232-233). -/
def mkElem (r : Root) : ZElem → PyM ZBV
  | .bit b => boolF r 1 b
  | .bool b => intF r 1 (b2i b)
  | .int v => intF r 1 v

/-- `reduce(lambda acc, elem: acc.concat(elem), map(B1, value))` after the first element. -/
def concatElems (r : Root) : ZBV → List ZElem → PyM ZBV
  | acc, [] => .ok acc
  | acc, e :: l => do
      let x ← mkElem r e
      let acc' ← acc.concat x
      concatElems r acc' l

/-- `z3BitVector.__init__` at class `r[n]` for a given value (z3_bit_vector.py:183-244), with the final
`assert` on the sort. -/
def mkZBV (r : Root) (n : Nat) (o : ZObj) : PyM ZBV := do
  bitVecSort n
  match o with
  | .bvRef x => bvF r n x                                                  -- 203-208
  | .bv x => do                                                            -- 209-221
      let ext : Int := (n : Int) - x.size
      if ext < 0 then
        let y ← x.getSlice ⟨none, some n, none⟩
        if y.expr.w = n then return ⟨r, n, y.expr⟩ else .error .assertionError
      else if ext > 0 then
        let y ← x.zext ext
        if y.expr.w = n then return ⟨r, n, y.expr⟩ else .error .assertionError
      else if x.expr.w = n then return ⟨r, n, x.expr⟩ else .error .assertionError
  | .boolRef b => boolF r n b                                              -- 222-223
  | .bit b => boolF r n b                                                  -- 225-226
  | .seq l => do                                                           -- 228-233
      if (l.length : Int) ≠ n then .error .valueError
      else match l with
        | [] => .error .typeError
        | e :: l => do
            let x ← mkElem r e
            let y ← concatElems r x l
            if y.expr.w = n then return ⟨r, n, y.expr⟩ else .error .assertionError
  | .int v => intF r n v                                                   -- 234-235
  | .bool b => intF r n (b2i b)
  | .other (some v) _ => intF r n v                                        -- 237-239
  | .other none _ => .error .typeError                                     -- 240-241

/-- `_coerce` (z3_bit_vector.py:156-162): a plain `TypeError` for another width. -/
def zcoerce (r : Root) (n : Nat) : ZObj → PyM ZBV
  | .bv x => if x.size ≠ n then .error .typeError else .ok x
  | o => mkZBV r n o

namespace ZBV

/-- `bv_cast` (z3_bit_vector.py:164-169). -/
def cast {α : Type} (x : ZBV) (o : ZObj) (fn : ZBV → PyM α) : PyM α := do
  fn (← zcoerce x.root x.size o)

/-- `type(self)(op(self.value, other.value))`. -/
def bin (op : BVE → BVE → PyM BVE) (x : ZBV) (o : ZObj) : PyM ZBV :=
  x.cast o fun y => do bvF x.root x.size (← op x.expr y.expr)
/-- `type(self)(~op(self.value, other.value))`. -/
def nbin (op : BVE → BVE → PyM BVE) (x : ZBV) (o : ZObj) : PyM ZBV :=
  x.cast o fun y => do bvF x.root x.size (zNot (← op x.expr y.expr))
/-- `Bit(op(self.value, other.value))`. -/
def rel (op : BVE → BVE → PyM BoolE) (x : ZBV) (o : ZObj) : PyM BoolE :=
  x.cast o fun y => op x.expr y.expr

def bvnot (x : ZBV) : PyM ZBV := bvF x.root x.size (zNot x.expr)          -- 328-329
def bvand := bin zAnd                                                     -- 331-333
def bvnand := nbin zAnd                                                   -- 335-337
def bvor := bin zOr                                                       -- 339-341
def bvnor := nbin zOr                                                     -- 343-345
def bvxor := bin zXor                                                     -- 347-349
def bvxnor := nbin zXor                                                   -- 351-353
def bvshl := bin zShl                                                     -- 355-357
def bvlshr := bin zLShR                                                   -- 359-361
def bvashr := bin zAShR                                                   -- 363-365
def bvrol := bin zRotateLeft                                              -- 367-369
def bvror := bin zRotateRight                                             -- 371-373
/-- `bvcomp` (z3_bit_vector.py:375-377). -/
def bvcomp (x : ZBV) (o : ZObj) : PyM ZBV :=
  x.cast o fun y => do boolF x.root 1 (← zEq x.expr y.expr)
def bveq := rel zEq                                                       -- 379-381
def bvne := rel zNe                                                       -- 383-385
def bvult := rel zULT                                                     -- 387-389
def bvule := rel zULE                                                     -- 391-393
def bvugt := rel zUGT                                                     -- 395-397
def bvuge := rel zUGE                                                     -- 399-401
def bvslt := rel zSLT                                                     -- 403-405
def bvsle := rel zSLE                                                     -- 407-409
def bvsgt := rel zSGT                                                     -- 411-413
def bvsge := rel zSGE                                                     -- 415-417
def bvneg (x : ZBV) : PyM ZBV := bvF x.root x.size (zNeg x.expr)          -- 419-420
def bvadd := bin zAdd                                                     -- 443-445
def bvsub := bin zSub                                                     -- 447-449
def bvmul := bin zMul                                                     -- 451-453
def bvudiv := bin zUDiv                                                   -- 455-457
def bvurem := bin zURem                                                   -- 459-461
def bvsdiv := bin zSDiv                                                   -- 463-465
/-- `bvsrem` (z3_bit_vector.py:467-469) is made with `%`, which is `bvsmod`. -/
def bvsrem := bin zSMod

/-- `adc` (z3_bit_vector.py:422-438). -/
def adc (x : ZBV) (other carry : ZObj) : PyM (ZBV × BoolE) := do
  let other ← zcoerce x.root x.size other
  let carry ← zcoerce x.root 1 carry
  let a ← x.zext 1
  let b ← other.zext 1
  let c ← carry.zext x.size
  let s ← a.bvadd (.bv b)
  let res ← s.bvadd (.bv c)
  return (← res.getSlice ⟨some 0, some (-1), none⟩, ← res.getIdx (-1))

/-- `repeat` (z3_bit_vector.py:495-497). -/
def repeat_ (x : ZBV) (r : Int) : PyM ZBV := do bvF x.root x.size (← zRepeat r x.expr)

end ZBV

/-! ### `ite` -/

/-- `z3BitVector(value)`, the unsized class (bit_vector_abc.py:23-48): the width is that of the value. -/
def mkUnsized : ZObj → PyM ZBV
  | .bv x => mkZBV .bv x.size (.bv x)
  | .bit b => mkZBV .bv 1 (.bit b)
  | .seq l => mkZBV .bv (max l.length 1) (.seq l)
  | .int v => mkZBV .bv (max (pyBitLength v) 1) (.int v)
  | .bool b => mkZBV .bv (max (pyBitLength (b2i b)) 1) (.bool b)
  | .other (some v) b => mkZBV .bv (max (pyBitLength v) 1) (.other (some v) b)
  | _ => .error .typeError

/-- `T(z3.If(self.value, t_branch.value, f_branch.value))` (z3_bit_vector.py:154). -/
def iteF (c : BoolE) (r : Root) (n : Nat) (t f : ZBV) : PyM ZBV := do bvF r n (← zIf c t.expr f.expr)

/-- The branch for two objects that are not vectors (z3_bit_vector.py:142-154). -/
def iteUnsized (c : BoolE) (t f : ZObj) : PyM ZBV := do
  let t ← mkUnsized t
  let f ← mkUnsized f
  let ext : Int := (t.size : Int) - f.size
  if ext > 0 then
    let f ← f.zext ext
    iteF c t.root t.size t f
  else if ext < 0 then
    let t ← t.zext (-ext)
    iteF c t.root t.size t f
  else iteF c t.root t.size t f

/-- `z3Bit.ite` (z3_bit_vector.py:128-154). -/
def zIte (c : BoolE) : ZObj → ZObj → PyM ZBV
  | .bv t, .bv f =>
      if ¬ (t.root = f.root ∧ t.size = f.size) then .error .typeError
      else iteF c t.root t.size t f
  | .bv t, f => do iteF c t.root t.size t (← mkZBV t.root t.size f)
  | t, .bv f => do iteF c f.root f.size (← mkZBV f.root f.size t) f
  | t, f => iteUnsized c t f

namespace ZBV

/-- `ite` (z3_bit_vector.py:440-441). -/
def ite (x : ZBV) (t f : ZObj) : PyM ZBV := do zIte (← x.bvne (.int 0)) t f

/-- The value check of `__setitem__` (z3_bit_vector.py:306-307). -/
def isBitLike : ZObj → Bool
  | .bool _ => true
  | .bit _ => true
  | .int v => v == 0 || v == 1
  | _ => false

/-- `__setitem__` (z3_bit_vector.py:302-316) with an int index; returns the object after the
assignment. -/
def setitem (x : ZBV) (index : Int) (value : ZObj) : PyM ZBV :=
  if ¬ isBitLike value then .error .valueError
  else
    let index := if index < 0 then x.size + index else index
    if ¬ (0 ≤ index ∧ index < x.size) then .error .indexError
    else do
      let one ← pyShl 1 index
      let mask ← mkZBV x.root x.size (.int one)
      let b ← mkZBit value
      let t ← x.bvor (.bv mask)
      let nm ← mask.bvnot
      let f ← x.bvand (.bv nm)
      let r ← zIte b (.bv t) (.bv f)
      return { x with expr := r.expr }

end ZBV

/-! ### Operators

`z3BitVector` binds the special methods to the methods directly (z3_bit_vector.py:471-491): nothing
answers `NotImplemented`, and no reflected arithmetic method exists. -/

/-- The method behind an arithmetic operator of class `r` (z3_bit_vector.py:471-484, 540-547). -/
def zA (op : AOp) (r : Root) : ZBV → ZObj → PyM ZBV :=
  match op, r with
  | .shr, .sint => ZBV.bvashr
  | .fdiv, .sint => ZBV.bvsdiv
  | .mod, .sint => ZBV.bvsrem
  | .and, _ => ZBV.bvand
  | .or, _ => ZBV.bvor
  | .xor, _ => ZBV.bvxor
  | .shl, _ => ZBV.bvshl
  | .shr, _ => ZBV.bvlshr
  | .add, _ => ZBV.bvadd
  | .sub, _ => ZBV.bvsub
  | .mul, _ => ZBV.bvmul
  | .fdiv, _ => ZBV.bvudiv
  | .mod, _ => ZBV.bvurem

/-- The method behind a comparison (z3_bit_vector.py:486-491, 549-559). -/
def zC (op : COp) (r : Root) : ZBV → ZObj → PyM BoolE :=
  match op, r with
  | .ge, .sint => ZBV.bvsge
  | .gt, .sint => ZBV.bvsgt
  | .le, .sint => ZBV.bvsle
  | .lt, .sint => ZBV.bvslt
  | .eq, _ => ZBV.bveq
  | .ne, _ => ZBV.bvne
  | .ge, _ => ZBV.bvuge
  | .gt, _ => ZBV.bvugt
  | .le, _ => ZBV.bvule
  | .lt, _ => ZBV.bvult

/-- `z3Bit.__and__`, `__or__`, `__xor__`, `__eq__`, `__ne__` behind `bit_cast`
(z3_bit_vector.py:44-51, 105-126). -/
def zBitOp (f : Bool → Bool → Bool) (a : BoolE) (o : ZObj) : PyM BoolE := do
  let b ← mkZBit o
  return fun e => f (a e) (b e)

/-- Result of an operator expression. -/
inductive ZRes
  | bv (x : ZBV)
  | bit (b : BoolE)

/-- `l op r` where at least one side is a z3 object: the left method if it is one, otherwise
`TypeError` (Python objects decline, and no reflected method exists). -/
def zBinA (op : AOp) (l r : ZObj) : PyM ZRes :=
  match l with
  | .bv x => do return .bv (← zA op x.root x r)
  | .bit a => match op with
    | .and => do return .bit (← zBitOp (· && ·) a r)
    | .or => do return .bit (← zBitOp (· || ·) a r)
    | .xor => do return .bit (← zBitOp (· != ·) a r)
    | _ => .error .typeError
  | _ => .error .typeError

/-- `issubclass(type(y), type(x))`, proper. -/
def ZBV.properSub (y x : ZBV) : Bool :=
  !(x.root == y.root && x.size == y.size) && y.size == x.size && y.root.isSub x.root

/-- `z3Bit` comparisons; `z3Bit` has no ordering, so `none` is `NotImplemented`. -/
def zBitC (op : COp) (a : BoolE) (o : ZObj) : PyM (Option BoolE) :=
  match op with
  | .eq => do return some (← zBitOp (· == ·) a o)
  | .ne => do return some (← zBitOp (· != ·) a o)
  | _ => .ok none

/-- `l cmp r` where at least one side is a z3 object (CPython `do_richcompare`). -/
def zBinC (op : COp) (l r : ZObj) : PyM BoolE :=
  match l, r with
  | .bv x, .bv y => if y.properSub x then zC op.swap y.root y (.bv x) else zC op x.root x (.bv y)
  | .bv x, r => zC op x.root x r
  | .bit a, .bv y => do
      match ← zBitC op a (.bv y) with
      | some b => return b
      | none => zC op.swap y.root y (.bit a)
  | .bit a, r => do
      match ← zBitC op a r with
      | some b => return b
      | none => match r with
        | .bit b => match ← zBitC op.swap b (.bit a) with
          | some b => return b
          | none => .error .typeError
        | _ => .error .typeError
  | l, .bv y => zC op.swap y.root y l
  | l, .bit b => do
      match ← zBitC op.swap b l with
      | some b => return b
      | none => .error .typeError
  | _, _ => .error .typeError

end HW.Z3
