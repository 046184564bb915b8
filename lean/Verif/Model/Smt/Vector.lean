import Verif.Model.Smt.Term
import Verif.Model.BitVector

/-!
# Model of `hwtypes/smt_bit_vector.py` and `hwtypes/smt_int.py`

Symbolic bits are SMT terms of sort Bool, symbolic vectors terms of sort `BVType(size)` with a class.
Names and prefixes of symbols are in `Model/Smt/Names.lean`, `ite` in `Model/Smt/Ite.lean`.  Not modelled:
operator dispatch (`+` for `bvadd` etc., which repeats that of `bit_vector.py`), `repr`, warnings, and
user subclasses (see `Model/Smt/Derived.lean`).  Where the code applies an operator to two vectors of one class the method it stands
for is used.
-/

namespace HW.Smt

/-- The classes of the family: `SMTBitVector`, `SMTNumVector`, `SMTUIntVector`, `SMTSIntVector`
(smt_bit_vector.py:223, 608-614) and the classes made by `ite` (bit_vector_util.py:54-97), which record
the symbolic condition. -/
inductive SKind
  | root (r : Root)
  | poly (id : Nat) (t f : SKind) (sel : Term)
  deriving DecidableEq, Repr

def SKind.base : SKind → Root
  | .root r => r
  | .poly _ t f _ => Root.lca t.base f.base

def SKind.isSub (a b : SKind) : Bool :=
  match b with
  | .root r => a.base.isSub r
  | .poly .. => a == b

/-- A symbolic vector: class `kind[size]` and `_value`. -/
structure SBV where
  kind : SKind
  size : Nat
  term : Term
  deriving DecidableEq, Repr

/-- An element of a sequence of bits. -/
inductive SElem
  | bit (t : Term)
  | bool (b : Bool)
  | int (v : Int)
  deriving DecidableEq, Repr

/-- Python objects that may be passed to the operations; `other` as in `Obj`. -/
inductive SObj
  | int (v : Int)
  | bool (b : Bool)
  | bit (t : Term)
  | bv (x : SBV)
  | seq (l : List SElem)
  | other (toInt : Option Int) (toBool : Option Bool)
  deriving DecidableEq, Repr

section
variable (S : Simplifier)

/-- `SMTBit(fnode)` (smt_bit_vector.py:86-90, 106-107). -/
def bitF (t : Term) : PyM Term :=
  if t.ty? = some .bool then .ok (S.run t) else .error .typeError

/-- `SMTBit(value)` (smt_bit_vector.py:64-107) for a given value. -/
def mkSBit : SObj → PyM Term
  | .bit t => .ok (S.run t)                                       -- 91-94
  | .bool b => .ok (S.run (.boolC b))                             -- 95-96
  | .int v => if v = 0 then .ok (S.run (.boolC false))            -- 97-100
      else if v = 1 then .ok (S.run (.boolC true)) else .error .valueError
  | .other _ (some b) => .ok (S.run (.boolC b))                   -- 101-102
  | _ => .error .typeError                                        -- 103-104

/-- `T[n](fnode)` (smt_bit_vector.py:254-259, 292-293). -/
def bvF (k : SKind) (n : Nat) (t : Term) : PyM SBV :=
  if t.ty? = some (.bv n) then .ok ⟨k, n, S.run t⟩ else .error .typeError

namespace SBV

/-- `zext` (smt_bit_vector.py:574-578). -/
def zext (x : SBV) (ext : Int) : PyM SBV := do
  if ext < 0 then .error .valueError
  else bvF S x.kind (x.size + ext.toNat) (← node (.un (.zext ext.toNat) x.term))

/-- `sext` (smt_bit_vector.py:565-569). -/
def sext (x : SBV) (ext : Int) : PyM SBV := do
  if ext < 0 then .error .valueError
  else bvF S x.kind (x.size + ext.toNat) (← node (.un (.sext ext.toNat) x.term))

/-- `__getitem__` with a slice (smt_bit_vector.py:314-337). -/
def getSlice (x : SBV) (s : PySlice) : PyM SBV := do
  let size : Int := x.size
  let start := match s.start with
    | none => 0
    | some b => if b < 0 then size + b else b
  let stop := match s.stop with
    | none => size
    | some b => if b < 0 then size + b else b
  let stop := min stop size
  if s.step.getD 1 ≠ 1 then .error .indexError
  else do
    let v ← bvExtract x.term start (stop - 1)
    match v.ty? with
    | some (.bv w) => bvF S x.kind w v
    | _ => .error .typeError

/-- `__getitem__` with an int (smt_bit_vector.py:338-346). -/
def getIdx (x : SBV) (index : Int) : PyM Term := do
  let index := if index < 0 then x.size + index else index
  if ¬ (0 ≤ index ∧ index < x.size) then .error .indexError
  else do
    let v ← bvExtract x.term index index
    bitF S (← node (.bin .equals v (.bvC 1 1)))

/-- `concat` (smt_bit_vector.py:371-375) on a vector. -/
def concat (x y : SBV) : PyM SBV := do
  if ¬ y.kind.isSub x.kind then .error .typeError
  else bvF S x.kind (x.size + y.size) (← node (.bin .bvconcat y.term x.term))

end SBV

/-- `B1(elem)` with `B1 = cls.unsized_t[1]` (smt_bit_vector.py:281-282). -/
def mkElem (k : SKind) : SElem → PyM SBV
  | .bit t => do bvF S k 1 (← node (.ite t (.bvC 1 1) (.bvC 0 1)))
  | .bool b => do bvF S k 1 (← mkBV ((b2i b) % 2 ^ 1) 1)
  | .int v => do bvF S k 1 (← mkBV (v % 2 ^ 1) 1)

/-- `reduce(lambda acc, elem: acc.concat(elem), map(B1, value))` after the first element. -/
def concatElems (k : SKind) : SBV → List SElem → PyM SBV
  | acc, [] => .ok acc
  | acc, e :: l => do
      let x ← mkElem S k e
      let acc' ← acc.concat S x
      concatElems k acc' l

/-- `SMTBitVector.__init__` at class `k[n]` for a given value (smt_bit_vector.py:228-293). -/
def mkSBV (k : SKind) (n : Nat) : SObj → PyM SBV
  | .bv x => do                                                            -- 260-272
      let ext : Int := (n : Int) - x.size
      if ext < 0 then
        let y ← x.getSlice S ⟨none, some n, none⟩
        return ⟨k, n, S.run y.term⟩
      else if ext > 0 then
        let y ← x.zext S ext
        return ⟨k, n, S.run y.term⟩
      else return ⟨k, n, S.run x.term⟩
  | .bit t => do bvF S k n (← node (.ite t (← mkBV 1 n) (← mkBV 0 n)))      -- 274-275
  | .seq l => do                                                           -- 277-282
      if (l.length : Int) ≠ n then .error .valueError
      else match l with
        | [] => .error .typeError
        | e :: l => do
            let x ← mkElem S k e
            let y ← concatElems S k x l
            bvF S k n y.term
  | .int v => do bvF S k n (← mkBV (v % 2 ^ n) n)                           -- 283-284
  | .bool b => do bvF S k n (← mkBV ((b2i b) % 2 ^ n) n)
  | .other (some v) _ => do bvF S k n (← mkBV v n)                          -- 286-288
  | .other none _ => .error .typeError                                     -- 289-290

/-- `_coerce` (smt_bit_vector.py:172-178). -/
def scoerce (k : SKind) (n : Nat) : SObj → PyM SBV
  | .bv x => if x.size ≠ n then .error .inconsistentSize else .ok x
  | o => mkSBV S k n o

namespace SBV

/-- `type(self)(fnode)`. -/
def mk' (x : SBV) (t : PyM Term) : PyM SBV := do bvF S x.kind x.size (← t)

/-- `bv_cast` (smt_bit_vector.py:181-186). -/
def cast {α : Type} (x : SBV) (o : SObj) (fn : SBV → PyM α) : PyM α := do
  fn (← scoerce S x.kind x.size o)

/-- Methods of the form `type(self)(op(self.value, other.value))` (smt_bit_vector.py:380-518). -/
def bin (op : BOp) (x : SBV) (o : SObj) : PyM SBV :=
  x.cast S o fun y => x.mk' S (node (.bin op x.term y.term))
/-- Methods of the form `type(self)(BVNot(op(self.value, other.value)))`. -/
def nbin (op : BOp) (x : SBV) (o : SObj) : PyM SBV :=
  x.cast S o fun y => x.mk' S (do node (.un .bvnot (← node (.bin op x.term y.term))))
/-- Methods of the form `Bit(op(self.value, other.value))`. -/
def rel (op : BOp) (x : SBV) (o : SObj) : PyM Term :=
  x.cast S o fun y => do bitF S (← node (.bin op x.term y.term))
/-- ... with the operands exchanged: pysmt's `BVUGT(l, r)` is `BVULT(r, l)` etc. -/
def relSwap (op : BOp) (x : SBV) (o : SObj) : PyM Term :=
  x.cast S o fun y => do bitF S (← node (.bin op y.term x.term))

def bvnot (x : SBV) : PyM SBV := x.mk' S (node (.un .bvnot x.term))       -- 377-378
def bvneg (x : SBV) : PyM SBV := x.mk' S (node (.un .bvneg x.term))       -- 468-469
def bvand := bin S .bvand                                                 -- 380-382
def bvnand := nbin S .bvand                                               -- 384-386
def bvor := bin S .bvor                                                   -- 388-390
def bvnor := nbin S .bvor                                                 -- 392-394
def bvxor := bin S .bvxor                                                 -- 396-398
def bvxnor := nbin S .bvxor                                               -- 400-402
def bvshl := bin S .bvshl                                                 -- 404-406
def bvlshr := bin S .bvlshr                                               -- 408-410
def bvashr := bin S .bvashr                                               -- 412-414
def bvadd := bin S .bvadd                                                 -- 492-494
def bvsub := bin S .bvsub                                                 -- 496-498
def bvmul := bin S .bvmul                                                 -- 500-502
def bvudiv := bin S .bvudiv                                               -- 504-506
def bvurem := bin S .bvurem                                               -- 508-510
def bvsdiv := bin S .bvsdiv                                               -- 512-514
def bvsrem := bin S .bvsrem                                               -- 516-518

/-- `bvcomp` (smt_bit_vector.py:424-426). -/
def bvcomp (x : SBV) (o : SObj) : PyM SBV :=
  x.cast S o fun y => do bvF S x.kind 1 (← node (.bin .bvcomp x.term y.term))
def bveq := rel S .equals                                                 -- 428-430
/-- `bvne` (smt_bit_vector.py:432-434); pysmt's `NotEquals` is `Not(Equals)`. -/
def bvne (x : SBV) (o : SObj) : PyM Term :=
  x.cast S o fun y => do bitF S (← node (.un .not (← node (.bin .equals x.term y.term))))
def bvult := rel S .bvult                                                 -- 436-438
def bvule := rel S .bvule                                                 -- 440-442
def bvugt := relSwap S .bvult                                             -- 444-446
def bvuge := relSwap S .bvule                                             -- 448-450
def bvslt := rel S .bvslt                                                 -- 452-454
def bvsle := rel S .bvsle                                                 -- 456-458
def bvsgt := relSwap S .bvslt                                             -- 460-462
def bvsge := relSwap S .bvsle                                             -- 464-466

/-- `int(other)` of `int_cast` (smt_bit_vector.py:189-194); symbolic values have no `__int__`. -/
def intArg : SObj → PyM Int
  | .int v => .ok v
  | .bool b => .ok (b2i b)
  | .other (some v) _ => .ok v
  | _ => .error .typeError

/-- `bvrol`, `bvror` (smt_bit_vector.py:416-422). -/
def bvrol (x : SBV) (o : SObj) : PyM SBV := do x.mk' S (bvRot .rol x.term (← intArg o))
def bvror (x : SBV) (o : SObj) : PyM SBV := do x.mk' S (bvRot .ror x.term (← intArg o))

/-- `repeat` (smt_bit_vector.py:561-563). -/
def repeat_ (x : SBV) (r : Int) : PyM SBV := x.mk' S (bvRepeat x.term r)

/-- `adc` (smt_bit_vector.py:471-487). -/
def adc (x : SBV) (other carry : SObj) : PyM (SBV × Term) := do
  let other ← scoerce S x.kind x.size other
  let carry ← scoerce S x.kind 1 carry
  let a ← x.zext S 1
  let b ← other.zext S 1
  let c ← carry.zext S x.size
  let s ← a.bvadd S (.bv b)
  let res ← s.bvadd S (.bv c)
  return (← res.getSlice S ⟨some 0, some (-1), none⟩, ← res.getIdx S (-1))

/-- The value check of `__setitem__` (smt_bit_vector.py:355-356). -/
def isBitLike : SObj → Bool
  | .bool _ => true
  | .bit _ => true
  | .int v => v == 0 || v == 1
  | _ => false

/-- `__setitem__` (smt_bit_vector.py:351-365) with an int index; returns the object after the
assignment.  `ite` on two vectors of one class is `T(Ite(..))` (C38). -/
def setitem (x : SBV) (index : Int) (value : SObj) : PyM SBV :=
  if ¬ isBitLike value then .error .valueError
  else
    let index := if index < 0 then x.size + index else index
    if ¬ (0 ≤ index ∧ index < x.size) then .error .indexError
    else do
      let one ← pyShl 1 index
      let mask ← mkSBV S x.kind x.size (.int one)
      let b ← mkSBit S value
      let t ← x.bvor S (.bv mask)
      let nm ← mask.bvnot S
      let f ← x.bvand S (.bv nm)
      let r ← bvF S x.kind x.size (← node (.ite b t.term f.term))
      return { x with term := r.term }

/-- `as_uint` (smt_bit_vector.py:594-597) and `SMTInt(vector)` (smt_int.py:58-59). -/
def asUint (x : SBV) : PyM Term := do return S.run (← node (.un .bv2nat x.term))

/-- `as_sint` (smt_bit_vector.py:599-602): `SMTInt(self[:-1]) - SMTInt(self & (1 << (size - 1)))`. -/
def asSint (x : SBV) : PyM Term := do
  let lo ← x.getSlice S ⟨none, some (-1), none⟩
  let a ← lo.asUint S
  let one ← pyShl 1 ((x.size : Int) - 1)
  let m ← x.bvand S (.int one)
  let b ← m.asUint S
  return S.run (← node (.bin .minus a b))

end SBV

/-! ### `SMTInt` -/

/-- Arguments of integer operations. -/
inductive IObj
  | sint (t : Term)
  | obj (o : SObj)
  deriving DecidableEq, Repr

/-- `SMTInt(value)` (smt_int.py:27-70) for a given value. -/
def mkSInt : IObj → PyM Term
  | .sint t => .ok (S.run t)
  | .obj (.bv x) => x.asUint S
  | .obj (.bool b) => .ok (S.run (.intC (b2i b)))
  | .obj (.int v) => .ok (S.run (.intC v))
  | .obj (.other (some v) _) => .ok (S.run (.intC v))
  | .obj _ => .error .typeError

inductive IOp | add | sub | mul | floordiv | ge | gt | le | lt | eq | ne
  deriving DecidableEq, Repr

/-- The term built from the two operands in source order (smt_int.py:82-137); pysmt's `GE(l, r)` is
`LE(r, l)`, `GT(l, r)` is `LT(r, l)`. -/
def IOp.term : IOp → Term → Term → Term
  | .add, a, b => .bin .plus a b
  | .sub, a, b => .bin .minus a b
  | .mul, a, b => .bin .times a b
  | .floordiv, a, b => .bin .div a b
  | .ge, a, b => .bin .le b a
  | .gt, a, b => .bin .lt b a
  | .le, a, b => .bin .le a b
  | .lt, a, b => .bin .lt a b
  | .eq, a, b => .bin .equals a b
  | .ne, a, b => .un .not (.bin .equals a b)

/-- The comparison the reflected call uses. -/
def IOp.swap : IOp → IOp
  | .ge => .le | .gt => .lt | .le => .ge | .lt => .gt | op => op

/-- Operand conversion of `int_cast` (smt_int.py:13-24). -/
def castInt : IObj → PyM Term
  | .sint t => .ok t
  | o => mkSInt S o

/-- `SMTInt.__op__(self, other)` behind `int_cast` (smt_int.py:13-24): `none` is `NotImplemented`. -/
def intFwd (op : IOp) (a : Term) (o : IObj) : PyM (Option Term) :=
  match castInt S o with
  | .ok b => do return some (S.run (← node (op.term a b)))
  | .error e => if e.isTypeError then .ok none else .error e

/-- Reflected methods: `__radd__`, `__rmul__` are `self + other`, `self * other`; `__rsub__`,
`__rfloordiv__` exchange the terms (smt_int.py:89-113); comparisons use the mirrored method. -/
def intRev (op : IOp) (b : Term) (o : IObj) : PyM (Option Term) :=
  match op with
  | .sub | .floordiv =>
      match castInt S o with
      | .ok a => do return some (S.run (← node (op.term a b)))
      | .error e => if e.isTypeError then .ok none else .error e
  | op => intFwd S op.swap b o

/-- What an operator expression gives: a symbolic result, or a plain Python bool. -/
inductive IRes
  | sym (t : Term)
  | py (b : Bool)
  deriving DecidableEq, Repr

/-- Both sides answered `NotImplemented`: `==` and `!=` compare identities (the operands are of
different classes, so they are different objects), the others raise. -/
def IOp.fallback : IOp → PyM IRes
  | .eq => .ok (.py false)
  | .ne => .ok (.py true)
  | _ => .error .typeError

/-- `l op r` where at least one side is an `SMTInt`; no other class accepts one, so `l`'s method
answers `NotImplemented` when `l` is something else. -/
def intOp (op : IOp) (l r : IObj) : PyM IRes :=
  match l, r with
  | .sint a, r => do
      match ← intFwd S op a r with
      | some t => return .sym t
      | none => op.fallback
  | l, .sint b => do
      match ← intRev S op b l with
      | some t => return .sym t
      | none => op.fallback
  | _, _ => .error .typeError

/-- `-x` (smt_int.py:82-83): `SMTInt(0) - self`. -/
def intNeg (a : Term) : PyM IRes := do
  let z ← mkSInt S (.obj (.int 0))
  intOp S .sub (.sint z) (.sint a)

end
end HW.Smt
