import Verif.Model.Derived
import Verif.Model.Smt.Bit

/-!
# Symbolic vectors of user-defined classes

The methods of `SMTBitVector` (smt_bit_vector.py:172-675) over an arbitrary hierarchy of classes, as
`Model/Derived.lean` has them for `BitVector`: user subclasses of unsized classes
(`class Foo(SMTBitVector)`), of sized ones (`class Word(SMTBitVector[8])`, which have no `unsized_t`),
and classes made by modifiers.  The bodies of those classes are assumed to override nothing.
`Model/Smt/Vector.lean` has the predefined classes.
-/

namespace HW.Smt.Der
open HW HW.Der

/-- A symbolic vector: its class and `_value`. -/
structure SInst (H : Hier) where
  cls : H.C
  term : Term

/-- Python objects, as `SObj`. -/
inductive SHObj (H : Hier)
  | int (v : Int)
  | bool (b : Bool)
  | bit (t : Term)
  | bv (x : SInst H)
  | seq (l : List SElem)
  | other (toInt : Option Int) (toBool : Option Bool)

variable {H : Hier} (S : Simplifier)

/-- `T(fnode)` (smt_bit_vector.py:254-259, 292-293). -/
def bvFH (c : H.C) (t : Term) : PyM (SInst H) :=
  if t.ty? = some (.bv (H.size c)) then .ok ⟨c, S.run t⟩ else .error .typeError

namespace SInst

/-- `self.size`. -/
def size (x : SInst H) : Nat := H.size x.cls

/-- `zext` (smt_bit_vector.py:574-578): the class is looked up before the term is made. -/
def zext (x : SInst H) (ext : Int) : PyM (SInst H) :=
  if ext < 0 then .error .valueError
  else do
    let T ← unsizedT x.cls
    bvFH S (H.get T (x.size + ext.toNat)) (← node (.un (.zext ext.toNat) x.term))

/-- `sext` (smt_bit_vector.py:565-569). -/
def sext (x : SInst H) (ext : Int) : PyM (SInst H) :=
  if ext < 0 then .error .valueError
  else do
    let T ← unsizedT x.cls
    bvFH S (H.get T (x.size + ext.toNat)) (← node (.un (.sext ext.toNat) x.term))

/-- `__getitem__` with a slice (smt_bit_vector.py:314-337). -/
def getSlice (x : SInst H) (s : PySlice) : PyM (SInst H) := do
  let size : Int := x.size
  let start := match s.start with
    | none => 0
    | some b => if b < 0 then size + b else b
  let stop := match s.stop with
    | none => size
    | some b => if b < 0 then size + b else b
  let stop := min stop size
  if s.step.getD 1 ≠ 1 then .error .indexError
  else do
    let v ← bvExtract x.term start (stop - 1)
    let T ← unsizedT x.cls
    match v.ty? with
    | some (.bv w) => bvFH S (H.get T w) v
    | _ => .error .typeError

/-- `__getitem__` with an int (smt_bit_vector.py:338-346). -/
def getIdx (x : SInst H) (index : Int) : PyM Term := do
  let index := if index < 0 then x.size + index else index
  if ¬ (0 ≤ index ∧ index < x.size) then .error .indexError
  else do
    let v ← bvExtract x.term index index
    bitF S (← node (.bin .equals v (.bvC 1 1)))

/-- `concat` (smt_bit_vector.py:371-375) on a vector. -/
def concat (x y : SInst H) : PyM (SInst H) := do
  let T ← unsizedT x.cls
  if ¬ H.isSubU y.cls T then .error .typeError
  else bvFH S (H.get T (x.size + y.size)) (← node (.bin .bvconcat y.term x.term))

end SInst

/-- `B1(elem)` with `B1 = cls.unsized_t[1]` (smt_bit_vector.py:281-282). -/
def mkElemH (c : H.C) : SElem → PyM (SInst H)
  | .bit t => do bvFH S c (← node (.ite t (← mkBV 1 (H.size c)) (← mkBV 0 (H.size c))))
  | .bool b => do bvFH S c (← mkBV ((b2i b) % 2 ^ H.size c) (H.size c))
  | .int v => do bvFH S c (← mkBV (v % 2 ^ H.size c) (H.size c))

/-- `reduce(lambda acc, elem: acc.concat(elem), map(B1, value))` after the first element. -/
def concatElemsH (c : H.C) : SInst H → List SElem → PyM (SInst H)
  | acc, [] => .ok acc
  | acc, e :: l => do
      let x ← mkElemH S c e
      let acc' ← acc.concat S x
      concatElemsH c acc' l

/-- `SMTBitVector.__init__` at class `c` for a given value (smt_bit_vector.py:228-293). -/
def mkSH (c : H.C) : SHObj H → PyM (SInst H)
  | .bv x => do                                                            -- 260-272
      let ext : Int := (H.size c : Int) - x.size
      if ext < 0 then
        let y ← x.getSlice S ⟨none, some (H.size c), none⟩
        return ⟨c, S.run y.term⟩
      else if ext > 0 then
        let y ← x.zext S ext
        return ⟨c, S.run y.term⟩
      else return ⟨c, S.run x.term⟩
  | .bit t => do bvFH S c (← node (.ite t (← mkBV 1 (H.size c)) (← mkBV 0 (H.size c))))   -- 274-275
  | .seq l =>                                                              -- 277-282
      if (l.length : Int) ≠ H.size c then .error .valueError
      else do
        let T ← unsizedT c
        match l with
        | [] => .error .typeError
        | e :: l => do
            let x ← mkElemH S (H.get T 1) e
            let y ← concatElemsH S (H.get T 1) x l
            bvFH S c y.term
  | .int v => do bvFH S c (← mkBV (v % 2 ^ H.size c) (H.size c))           -- 283-284
  | .bool b => do bvFH S c (← mkBV ((b2i b) % 2 ^ H.size c) (H.size c))
  | .other (some v) _ => do bvFH S c (← mkBV v (H.size c))                 -- 286-288
  | .other none _ => .error .typeError                                     -- 289-290

/-- `_coerce` (smt_bit_vector.py:172-178). -/
def scoerceH (c : H.C) : SHObj H → PyM (SInst H)
  | .bv x => if x.size ≠ H.size c then .error .inconsistentSize else .ok x
  | o => mkSH S c o

/-- `SMTBit(value)` (smt_bit_vector.py:64-107). -/
def mkSBitH : SHObj H → PyM Term
  | .bit t => .ok (S.run t)
  | .bool b => .ok (S.run (.boolC b))
  | .int v => if v = 0 then .ok (S.run (.boolC false))
      else if v = 1 then .ok (S.run (.boolC true)) else .error .valueError
  | .other _ (some b) => .ok (S.run (.boolC b))
  | _ => .error .typeError

namespace SInst

/-- `type(self)(fnode)`. -/
def mk' (x : SInst H) (t : PyM Term) : PyM (SInst H) := do bvFH S x.cls (← t)
/-- `bv_cast` (smt_bit_vector.py:181-186). -/
def cast {α : Type} (x : SInst H) (o : SHObj H) (fn : SInst H → PyM α) : PyM α := do
  fn (← scoerceH S x.cls o)
/-- Methods of the form `type(self)(op(self.value, other.value))` (smt_bit_vector.py:380-518). -/
def bin (op : BOp) (x : SInst H) (o : SHObj H) : PyM (SInst H) :=
  x.cast S o fun y => x.mk' S (node (.bin op x.term y.term))
/-- Methods of the form `type(self)(BVNot(op(self.value, other.value)))`. -/
def nbin (op : BOp) (x : SInst H) (o : SHObj H) : PyM (SInst H) :=
  x.cast S o fun y => x.mk' S (do node (.un .bvnot (← node (.bin op x.term y.term))))
/-- Methods of the form `Bit(op(self.value, other.value))`. -/
def rel (op : BOp) (x : SInst H) (o : SHObj H) : PyM Term :=
  x.cast S o fun y => do bitF S (← node (.bin op x.term y.term))
/-- ... with the operands exchanged. -/
def relSwap (op : BOp) (x : SInst H) (o : SHObj H) : PyM Term :=
  x.cast S o fun y => do bitF S (← node (.bin op y.term x.term))
/-- `bvnot`, `bvneg` (smt_bit_vector.py:377-378, 468-469). -/
def bvnot (x : SInst H) : PyM (SInst H) := x.mk' S (node (.un .bvnot x.term))
def bvneg (x : SInst H) : PyM (SInst H) := x.mk' S (node (.un .bvneg x.term))
/-- `bvcomp` (smt_bit_vector.py:424-426). -/
def bvcomp (x : SInst H) (o : SHObj H) : PyM (SInst H) :=
  x.cast S o fun y => do
    let T ← unsizedT x.cls
    bvFH S (H.get T 1) (← node (.bin .bvcomp x.term y.term))
/-- `bvne` (smt_bit_vector.py:432-434). -/
def bvne (x : SInst H) (o : SHObj H) : PyM Term :=
  x.cast S o fun y => do bitF S (← node (.un .not (← node (.bin .equals x.term y.term))))
/-- `int(other)` of `int_cast` (smt_bit_vector.py:189-194). -/
def intArg : SHObj H → PyM Int
  | .int v => .ok v
  | .bool b => .ok (b2i b)
  | .other (some v) _ => .ok v
  | _ => .error .typeError
/-- `bvrol`, `bvror` (smt_bit_vector.py:416-422). -/
def bvrol (x : SInst H) (o : SHObj H) : PyM (SInst H) := do x.mk' S (bvRot .rol x.term (← intArg o))
def bvror (x : SInst H) (o : SHObj H) : PyM (SInst H) := do x.mk' S (bvRot .ror x.term (← intArg o))
/-- `repeat` (smt_bit_vector.py:561-563). -/
def repeat_ (x : SInst H) (r : Int) : PyM (SInst H) := x.mk' S (bvRepeat x.term r)
/-- `ext` (smt_bit_vector.py:571-572, 677-678). -/
def ext (x : SInst H) (k : Int) : PyM (SInst H) := if H.signed x.cls then x.sext S k else x.zext S k

/-- `adc` (smt_bit_vector.py:471-487); the `+`s are `bvadd`, as in `SBV.adc`. -/
def adc (x : SInst H) (other carry : SHObj H) : PyM (SInst H × Term) := do
  let other ← scoerceH S x.cls other
  let carry ← scoerceH S (H.get (← unsizedT x.cls) 1) carry
  let a ← x.zext S 1
  let b ← other.zext S 1
  let c ← carry.zext S x.size
  let s ← a.bin S .bvadd (.bv b)
  let res ← s.bin S .bvadd (.bv c)
  return (← res.getSlice S ⟨some 0, some (-1), none⟩, ← res.getIdx S (-1))

/-- The value check of `__setitem__` (smt_bit_vector.py:355-356). -/
def isBitLike : SHObj H → Bool
  | .bool _ => true
  | .bit _ => true
  | .int v => v == 0 || v == 1
  | _ => false

/-- `__setitem__` (smt_bit_vector.py:351-365) with an int index; returns the object after the
assignment.  The two branches of `ite` are of the class of `self`. -/
def setitem (x : SInst H) (index : Int) (value : SHObj H) : PyM (SInst H) :=
  if ¬ isBitLike value then .error .valueError
  else
    let index := if index < 0 then x.size + index else index
    if ¬ (0 ≤ index ∧ index < x.size) then .error .indexError
    else do
      let one ← pyShl 1 index
      let mask ← mkSH S x.cls (.int one)
      let b ← mkSBitH S value
      let t ← x.bin S .bvor (.bv mask)
      let nm ← mask.bvnot S
      let f ← x.bin S .bvand (.bv nm)
      let r ← bvFH S x.cls (← node (.ite b t.term f.term))
      return { x with term := r.term }

/-- `as_uint` (smt_bit_vector.py:594-597). -/
def asUint (x : SInst H) : PyM Term := do return S.run (← node (.un .bv2nat x.term))
/-- `as_sint` (smt_bit_vector.py:599-602). -/
def asSint (x : SInst H) : PyM Term := do
  let lo ← x.getSlice S ⟨none, some (-1), none⟩
  let a ← lo.asUint S
  let one ← pyShl 1 ((x.size : Int) - 1)
  let m ← x.bin S .bvand (.int one)
  let b ← m.asUint S
  return S.run (← node (.bin .minus a b))

end SInst

/-! ## Methods by name -/

def runU : UMeth → SInst H → PyM (SInst H)
  | .bvnot => SInst.bvnot S
  | .bvneg => SInst.bvneg S

def runB : BMeth → SInst H → SHObj H → PyM (SInst H)
  | .bvand => SInst.bin S .bvand | .bvor => SInst.bin S .bvor | .bvxor => SInst.bin S .bvxor
  | .bvnand => SInst.nbin S .bvand | .bvnor => SInst.nbin S .bvor | .bvxnor => SInst.nbin S .bvxor
  | .bvshl => SInst.bin S .bvshl | .bvlshr => SInst.bin S .bvlshr | .bvashr => SInst.bin S .bvashr
  | .bvrol => SInst.bvrol S | .bvror => SInst.bvror S | .bvcomp => SInst.bvcomp S
  | .bvadd => SInst.bin S .bvadd | .bvsub => SInst.bin S .bvsub | .bvmul => SInst.bin S .bvmul
  | .bvudiv => SInst.bin S .bvudiv | .bvurem => SInst.bin S .bvurem
  | .bvsdiv => SInst.bin S .bvsdiv | .bvsrem => SInst.bin S .bvsrem

def runC : CMeth → SInst H → SHObj H → PyM Term
  | .bveq => SInst.rel S .equals | .bvne => SInst.bvne S
  | .bvult => SInst.rel S .bvult | .bvule => SInst.rel S .bvule
  | .bvugt => SInst.relSwap S .bvult | .bvuge => SInst.relSwap S .bvule
  | .bvslt => SInst.rel S .bvslt | .bvsle => SInst.rel S .bvsle
  | .bvsgt => SInst.relSwap S .bvslt | .bvsge => SInst.relSwap S .bvsle

/-! ## Operators -/

/-- The method behind an operator (smt_bit_vector.py:522-559, 615-643). -/
def uMeth : AOp → BMeth
  | .and => .bvand | .or => .bvor | .xor => .bvxor | .shl => .bvshl | .shr => .bvlshr
  | .add => .bvadd | .sub => .bvsub | .mul => .bvmul | .fdiv => .bvudiv | .mod => .bvurem
def sMeth : AOp → BMeth
  | .shr => .bvashr | .fdiv => .bvsdiv | .mod => .bvsrem | op => uMeth op
def meth (op : AOp) (signed : Bool) : BMeth := if signed then sMeth op else uMeth op

/-- (smt_bit_vector.py:554-559, 645-675). -/
def uMethC : COp → CMeth
  | .eq => .bveq | .ne => .bvne | .ge => .bvuge | .gt => .bvugt | .le => .bvule | .lt => .bvult
def sMethC : COp → CMeth
  | .ge => .bvsge | .gt => .bvsgt | .le => .bvsle | .lt => .bvslt | op => uMethC op
def methC (op : COp) (signed : Bool) : CMeth := if signed then sMethC op else uMethC op

/-- `__rop__` (smt_bit_vector.py:210-220, 535; see `srevA`). -/
def rev (op : AOp) (signed : Bool) (self : SInst H) (other : SHObj H) : PyM (Option (SInst H)) :=
  if op = .shr ∧ signed = false then tryOper (runB S (meth op signed) self other)
  else match scoerceH S self.cls other with
    | .ok y => tryOper (runB S (meth op signed) y (.bv self))
    | .error _ => .error .nameError

/-- `issubclass(type(y), type(x))`, proper. -/
def properSub (y x : SInst H) : Bool := y.cls != x.cls && H.isSub y.cls x.cls

/-- `x op y` on two vectors, as `HW.Der.opVV`. -/
def opVV (op : AOp) (x y : SInst H) : PyM (SInst H) := do
  let sx := op.signDep && H.signed x.cls
  let sy := op.signDep && H.signed y.cls
  let fwd := tryOper (runB S (meth op sx) x (.bv y))
  let rv := rev S op sy y (.bv x)
  if properSub y x && sx != sy then
    match ← rv with
    | some v => return v
    | none => match ← fwd with
      | some v => return v
      | none => .error .typeError
  else match ← fwd with
    | some v => return v
    | none =>
      if x.cls = y.cls then .error .typeError
      else match ← rv with
        | some v => return v
        | none => .error .typeError

/-- `x op o` for an object that is neither a vector nor an `SMTBit`. -/
def opVO (op : AOp) (x : SInst H) (o : SHObj H) : PyM (SInst H) := do
  match ← tryOper (runB S (meth op (op.signDep && H.signed x.cls)) x o) with
  | some v => return v
  | none => .error .typeError

/-- `o op x` for such an object. -/
def opOV (op : AOp) (o : SHObj H) (x : SInst H) : PyM (SInst H) := do
  match ← rev S op (op.signDep && H.signed x.cls) x o with
  | some v => return v
  | none => .error .typeError

/-- `x cmp y` on two vectors, as `HW.Der.cmpVV`. -/
def cmpVV (op : COp) (x y : SInst H) : PyM IRes := do
  let fwd := tryOper (runC S (methC op (op.signDep && H.signed x.cls)) x (.bv y))
  let rv := tryOper (runC S (methC op.swap (op.swap.signDep && H.signed y.cls)) y (.bv x))
  if properSub y x then
    match ← rv with
    | some v => return .sym v
    | none => match ← fwd with
      | some v => return .sym v
      | none => sdefaultC op
  else match ← fwd with
    | some v => return .sym v
    | none => match ← rv with
      | some v => return .sym v
      | none => sdefaultC op

/-! ## `ite` -/

/-- `SMTBit.ite` on two vectors (smt_bit_vector.py:154-159, bit_vector_util.py:186-243): of the same class,
or of a polymorphic class (see `HW.Der.polyClass`), whose unsized bases are returned with the term. -/
inductive SIteRes (H : Hier)
  | inst (x : SInst H)
  | poly (us : List H.U) (n : Nat) (term : Term)

def iteSH (sel : Term) (t f : SInst H) (rest : List H.C) : PyM (SIteRes H) :=
  if t.cls = f.cls then do return .inst (← bvFH S t.cls (← node (.ite sel t.term f.term)))
  else do
    let us ← polyClass t.cls f.cls rest
    let v ← node (.ite sel t.term f.term)
    if v.ty? = some (.bv t.size) then return .poly us t.size (S.run v) else .error .typeError

end HW.Smt.Der
