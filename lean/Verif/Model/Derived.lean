import Verif.Model.Program

/-!
# Vectors of user-defined classes

`Model/BitVector.lean` covers the predefined classes.  Here the same methods (bit_vector.py:177-589,
bit_vector_abc.py:195-267) are written over an arbitrary hierarchy of classes: user subclasses of
unsized classes (`class Foo(BitVector)`), of sized ones (`class Word(BitVector[8])`, which have no
`unsized_t`), and classes made by modifiers (`Input(BitVector[8])`).  The bodies of those classes are
assumed to override nothing.  Polymorphic classes are not part of a hierarchy.
-/

namespace HW.Der

/-- The vector classes of a program.
* `U`: unsized classes, `C`: sized ones;
* `size`, `unsized`: the two parts of `_info_` (bit_vector_abc.py:64-70, 99-109);
* `get`: `U[n]` (bit_vector_abc.py:75-97);
* `isSub`, `isSubU`: `issubclass` of a sized class, with a sized and with an unsized class;
* `signed`: whether the class derives from `SIntVector`. -/
structure Hier where
  U : Type
  C : Type
  decC : DecidableEq C
  size : C → Nat
  unsized : C → Option U
  get : U → Nat → C
  isSub : C → C → Bool
  isSubU : C → U → Bool
  signed : C → Bool

instance (H : Hier) : DecidableEq H.C := H.decC

/-- What the class machinery guarantees (proved of every history: `C131_hierarchy`): `U[n]` has size `n`, unsized class `U` and is a
subclass of `U`; a class with `unsized_t` `U` is `U[size]`; whether `U[n]` is signed depends on `U`
alone; subclasses have the size of the class and are signed if it is. -/
structure Hier.Ok (H : Hier) : Prop where
  size_get : ∀ u n, H.size (H.get u n) = n
  unsized_get : ∀ u n, H.unsized (H.get u n) = some u
  get_unsized : ∀ c u, H.unsized c = some u → c = H.get u (H.size c)
  sub_get : ∀ u n, H.isSubU (H.get u n) u = true
  signed_get : ∀ u m n, H.signed (H.get u m) = H.signed (H.get u n)
  sub_size : ∀ c d, H.isSub c d = true → H.size c = H.size d
  sub_signed : ∀ c d, H.isSub c d = true → H.signed d = true → H.signed c = true
  subU_signed : ∀ c u n, H.isSubU c u = true → H.signed (H.get u n) = true → H.signed c = true

/-- A vector: its class and `_value`. -/
structure Inst (H : Hier) where
  cls : H.C
  value : Int

/-- Python objects, as `Obj`. -/
inductive HObj (H : Hier)
  | int (v : Int)
  | bool (b : Bool)
  | bit (b : Bool)
  | bv (x : Inst H)
  | seq (l : List Bool)
  | other (toInt : Option Int) (toBool : Option Bool)

variable {H : Hier}

/-- `BitVector.__init__` (bit_vector.py:182-205) at class `c`. -/
def mkH (c : H.C) (o : HObj H) : PyM (Inst H) := do
  let value ← match o with
    | .bv b => .ok b.value
    | .bit b => .ok (b2i b)
    | .int v => .ok v
    | .bool b => .ok (b2i b)
    | .seq l => .ok (seq2int l)
    | .other (some v) _ => .ok v
    | .other none _ => .error .typeError
  return ⟨c, pyAnd value (2 ^ H.size c - 1)⟩

/-- `_coerce` (bit_vector.py:134-140). -/
def coerceH (c : H.C) (o : HObj H) : PyM (Inst H) :=
  match o with
  | .bv b => if H.size b.cls ≠ H.size c then .error .inconsistentSize else .ok b
  | o => mkH c o

/-- `cls.unsized_t` (bit_vector_abc.py:99-105). -/
def unsizedT (c : H.C) : PyM H.U :=
  match H.unsized c with
  | some u => .ok u
  | none => .error .attributeError

namespace Inst

/-- `self.size` (bit_vector_abc.py:162-164). -/
def size (x : Inst H) : Nat := H.size x.cls
/-- `type(self)(v)` for an int. -/
def mk' (x : Inst H) (v : Int) : PyM (Inst H) := mkH x.cls (.int v)
/-- `bv_cast` (bit_vector.py:142-147). -/
def cast {α : Type} (x : Inst H) (o : HObj H) (fn : Inst H → PyM α) : PyM α := do
  fn (← coerceH x.cls o)
/-- `as_uint` (bit_vector.py:443-444). -/
def asUint (x : Inst H) : Int := x.value
/-- `bits` (bit_vector.py:466-467). -/
def bits (x : Inst H) : List Int := int2seq x.value x.size
/-- `as_bool_list` (bit_vector.py:469-470). -/
def asBoolList (x : Inst H) : List Bool := x.bits.map truthy
/-- `binary_string` (bit_vector.py:460-461). -/
def binaryString (x : Inst H) : List Char :=
  (x.bits.reverse.map fun i => (toString i).toList).flatten

/-- `__getitem__` with an int (bit_vector.py:247-252). -/
def getIdx (x : Inst H) (index : Int) : PyM Bool :=
  let index := if index < 0 then x.size + index else index
  if ¬ (0 ≤ index ∧ index < x.size) then .error .indexError
  else do
    let v ← pyShr x.value index
    mkBit (.int (pyAnd v 1))

/-- `__getitem__` with a slice (bit_vector.py:244-246). -/
def getSlice (x : Inst H) (s : PySlice) : PyM (Inst H) := do
  let v ← pySliceList x.bits s
  mkH (H.get (← unsizedT x.cls) v.length) (.seq (v.map truthy))

/-- `as_sint` (bit_vector.py:446-450). -/
def asSint (x : Inst H) : PyM Int := do
  if ← x.getIdx (-1) then return x.value - 2 ^ x.size else return x.value
/-- `__int__` (bit_vector.py:454-455, 518-519). -/
def toInt (x : Inst H) : PyM Int := if H.signed x.cls then x.asSint else .ok x.asUint
/-- `__bool__` (bit_vector.py:457-458). -/
def toBool (x : Inst H) : PyM Bool := do return truthy (← x.toInt)

/-- `concat` (bit_vector.py:263-267) on a vector argument. -/
def concat (x y : Inst H) : PyM (Inst H) := do
  let T ← unsizedT x.cls
  if ¬ H.isSubU y.cls T then .error .typeError
  else do
    let hi ← pyShl y.value x.size
    mkH (H.get T (x.size + y.size)) (.int (pyOr x.value hi))

/-- bit_vector.py:269-270 -/
def bvnot (x : Inst H) : PyM (Inst H) := x.mk' (pyNot x.asUint)
/-- bit_vector.py:272-274 -/
def bvand (x : Inst H) (o : HObj H) : PyM (Inst H) := x.cast o fun y => x.mk' (pyAnd x.asUint y.asUint)
/-- bit_vector.py:276-278 -/
def bvor (x : Inst H) (o : HObj H) : PyM (Inst H) := x.cast o fun y => x.mk' (pyOr x.asUint y.asUint)
/-- bit_vector.py:280-282 -/
def bvxor (x : Inst H) (o : HObj H) : PyM (Inst H) := x.cast o fun y => x.mk' (pyXor x.asUint y.asUint)
/-- bit_vector_abc.py:195-196 -/
def bvnand (x : Inst H) (o : HObj H) : PyM (Inst H) := do (← x.bvand o).bvnot
/-- bit_vector_abc.py:202-203 -/
def bvnor (x : Inst H) (o : HObj H) : PyM (Inst H) := do (← x.bvor o).bvnot
/-- bit_vector_abc.py:209-210 -/
def bvxnor (x : Inst H) (o : HObj H) : PyM (Inst H) := do (← x.bvxor o).bvnot
/-- bit_vector.py:284-286 -/
def bvshl (x : Inst H) (o : HObj H) : PyM (Inst H) := x.cast o fun y => do
  x.mk' (← pyShl x.asUint y.asUint)
/-- bit_vector.py:288-290 -/
def bvlshr (x : Inst H) (o : HObj H) : PyM (Inst H) := x.cast o fun y => do
  x.mk' (← pyShr x.asUint y.asUint)
/-- bit_vector.py:292-294 -/
def bvashr (x : Inst H) (o : HObj H) : PyM (Inst H) := x.cast o fun y => do
  x.mk' (← pyShr (← x.asSint) y.asUint)

/-- bit_vector.py:296-299 -/
def bvrol (x : Inst H) (o : HObj H) : PyM (Inst H) := x.cast o fun y => do
  let k ← pyMod (x.size - y.asUint) x.size
  (← x.getSlice ⟨some k, none, none⟩).concat (← x.getSlice ⟨none, some k, none⟩)
/-- bit_vector.py:301-304 -/
def bvror (x : Inst H) (o : HObj H) : PyM (Inst H) := x.cast o fun y => do
  let k ← pyMod y.asUint x.size
  (← x.getSlice ⟨some k, none, none⟩).concat (← x.getSlice ⟨none, some k, none⟩)

/-- bit_vector.py:306-308 -/
def bvcomp (x : Inst H) (o : HObj H) : PyM (Inst H) := x.cast o fun y => do
  mkH (H.get (← unsizedT x.cls) 1) (.bool (x.asUint == y.asUint))
/-- bit_vector.py:310-312 -/
def bveq (x : Inst H) (o : HObj H) : PyM Bool := x.cast o fun y =>
  mkBit (.bool (x.asUint == y.asUint))
/-- bit_vector.py:314-316 -/
def bvne (x : Inst H) (o : HObj H) : PyM Bool := x.cast o fun y =>
  mkBit (.bool (x.asUint != y.asUint))
/-- bit_vector.py:318-320 -/
def bvuge (x : Inst H) (o : HObj H) : PyM Bool := x.cast o fun y =>
  mkBit (.bool (decide (x.asUint ≥ y.asUint)))
/-- bit_vector.py:322-324 -/
def bvugt (x : Inst H) (o : HObj H) : PyM Bool := x.cast o fun y =>
  mkBit (.bool (decide (x.asUint > y.asUint)))
/-- bit_vector.py:326-328 -/
def bvule (x : Inst H) (o : HObj H) : PyM Bool := x.cast o fun y =>
  mkBit (.bool (decide (x.asUint ≤ y.asUint)))
/-- bit_vector.py:330-332 -/
def bvult (x : Inst H) (o : HObj H) : PyM Bool := x.cast o fun y =>
  mkBit (.bool (decide (x.asUint < y.asUint)))
/-- bit_vector.py:334-336 -/
def bvslt (x : Inst H) (o : HObj H) : PyM Bool := x.cast o fun y => do
  mkBit (.bool (decide ((← x.asSint) < (← y.asSint))))
/-- bit_vector_abc.py:260-261 -/
def bvsle (x : Inst H) (o : HObj H) : PyM Bool := do
  return BVal.bitOr (← x.bvslt o) (← x.bveq o)
/-- bit_vector_abc.py:263-264 -/
def bvsgt (x : Inst H) (o : HObj H) : PyM Bool := do return BVal.bitNot (← x.bvsle o)
/-- bit_vector_abc.py:266-267 -/
def bvsge (x : Inst H) (o : HObj H) : PyM Bool := do return BVal.bitNot (← x.bvslt o)

/-- bit_vector.py:338-339 -/
def bvneg (x : Inst H) : PyM (Inst H) := x.mk' (pyNot x.asUint + 1)
/-- bit_vector.py:362-364 -/
def bvadd (x : Inst H) (o : HObj H) : PyM (Inst H) := x.cast o fun y => x.mk' (x.asUint + y.asUint)
/-- bit_vector.py:366-368 -/
def bvsub (x : Inst H) (o : HObj H) : PyM (Inst H) := x.cast o fun y => x.mk' (x.asUint - y.asUint)
/-- bit_vector.py:370-372 -/
def bvmul (x : Inst H) (o : HObj H) : PyM (Inst H) := x.cast o fun y => x.mk' (x.asUint * y.asUint)
/-- bit_vector.py:374-379 -/
def bvudiv (x : Inst H) (o : HObj H) : PyM (Inst H) := x.cast o fun y =>
  let other := y.asUint
  if other = 0 then x.mk' (2 ^ x.size - 1)
  else do x.mk' (← pyFloorDiv x.asUint other)
/-- bit_vector.py:381-386 -/
def bvurem (x : Inst H) (o : HObj H) : PyM (Inst H) := x.cast o fun y =>
  let other := y.asUint
  if other = 0 then .ok x
  else do x.mk' (← pyMod x.asUint other)
/-- bit_vector.py:388-393 -/
def bvsdiv (x : Inst H) (o : HObj H) : PyM (Inst H) := x.cast o fun y => do
  let other ← y.asSint
  if other = 0 then x.mk' (2 ^ x.size - 1)
  else x.mk' (← pyFloorDiv (← x.asSint) other)
/-- bit_vector.py:395-400 -/
def bvsrem (x : Inst H) (o : HObj H) : PyM (Inst H) := x.cast o fun y => do
  let other ← y.asSint
  if other = 0 then .ok x
  else x.mk' (← pyMod (← x.asSint) other)

/-- `repeat` (bit_vector.py:472-477). -/
def repeat_ (x : Inst H) (r : Int) : PyM (Inst H) :=
  if r ≤ 0 then .error .valueError
  else do
    mkH (H.get (← unsizedT x.cls) (r.toNat * x.size)) (.seq ((BVal.listRepeat r x.bits).map truthy))
/-- `zext` (bit_vector.py:490-496). -/
def zext (x : Inst H) (ext : Int) : PyM (Inst H) :=
  if ext < 0 then .error .valueError
  else do
    let T ← unsizedT x.cls
    x.concat (← mkH (H.get T ext.toNat) (.int 0))
/-- `sext` (bit_vector.py:479-485). -/
def sext (x : Inst H) (ext : Int) : PyM (Inst H) :=
  if ext < 0 then .error .valueError
  else do
    let T ← unsizedT x.cls
    let s ← mkH (H.get T 1) (.bit (← x.getIdx (-1)))
    x.concat (← s.repeat_ ext)
/-- `ext` (bit_vector.py:487-488, 588-589). -/
def ext (x : Inst H) (k : Int) : PyM (Inst H) := if H.signed x.cls then x.sext k else x.zext k

/-- `adc` (bit_vector.py:341-357); the `+`s are `bvadd`, as in `BVal.adc`. -/
def adc (x : Inst H) (other carry : HObj H) : PyM (Inst H × Bool) := do
  let other ← coerceH x.cls other
  let carry ← coerceH (H.get (← unsizedT x.cls) 1) carry
  let a ← x.zext 1
  let b ← other.zext 1
  let c ← carry.zext x.size
  let res ← (← a.bvadd (.bv b)).bvadd (.bv c)
  return (← res.getSlice ⟨some 0, some (-1), none⟩, ← res.getIdx (-1))

end Inst

/-! ## Methods by name -/

def runU : UMeth → Inst H → PyM (Inst H)
  | .bvnot => Inst.bvnot
  | .bvneg => Inst.bvneg

def runB : BMeth → Inst H → HObj H → PyM (Inst H)
  | .bvand => Inst.bvand | .bvor => Inst.bvor | .bvxor => Inst.bvxor
  | .bvnand => Inst.bvnand | .bvnor => Inst.bvnor | .bvxnor => Inst.bvxnor
  | .bvshl => Inst.bvshl | .bvlshr => Inst.bvlshr | .bvashr => Inst.bvashr
  | .bvrol => Inst.bvrol | .bvror => Inst.bvror | .bvcomp => Inst.bvcomp
  | .bvadd => Inst.bvadd | .bvsub => Inst.bvsub | .bvmul => Inst.bvmul
  | .bvudiv => Inst.bvudiv | .bvurem => Inst.bvurem
  | .bvsdiv => Inst.bvsdiv | .bvsrem => Inst.bvsrem

def runC : CMeth → Inst H → HObj H → PyM Bool
  | .bveq => Inst.bveq | .bvne => Inst.bvne | .bvult => Inst.bvult | .bvule => Inst.bvule
  | .bvugt => Inst.bvugt | .bvuge => Inst.bvuge | .bvslt => Inst.bvslt | .bvsle => Inst.bvsle
  | .bvsgt => Inst.bvsgt | .bvsge => Inst.bvsge

/-! ## Operators -/

/-- The method behind the operator of an unsigned class (bit_vector.py:402-441). -/
def uMethod : AOp → Inst H → HObj H → PyM (Inst H)
  | .and => Inst.bvand
  | .or => Inst.bvor
  | .xor => Inst.bvxor
  | .shl => Inst.bvshl
  | .shr => Inst.bvlshr
  | .add => Inst.bvadd
  | .sub => Inst.bvsub
  | .mul => Inst.bvmul
  | .fdiv => Inst.bvudiv
  | .mod => Inst.bvurem

/-- The method behind the operator of a signed class (bit_vector.py:521-553). -/
def sMethod : AOp → Inst H → HObj H → PyM (Inst H)
  | .shr => Inst.bvashr
  | .fdiv => Inst.bvsdiv
  | .mod => Inst.bvsrem
  | op => uMethod op

def method (op : AOp) (signed : Bool) : Inst H → HObj H → PyM (Inst H) :=
  if signed then sMethod op else uMethod op

/-- The comparison methods (bit_vector.py:436-441, 555-581). -/
def uMethodC : COp → Inst H → HObj H → PyM Bool
  | .eq => Inst.bveq
  | .ne => Inst.bvne
  | .ge => Inst.bvuge
  | .gt => Inst.bvugt
  | .le => Inst.bvule
  | .lt => Inst.bvult

def sMethodC : COp → Inst H → HObj H → PyM Bool
  | .ge => Inst.bvsge
  | .gt => Inst.bvsgt
  | .le => Inst.bvsle
  | .lt => Inst.bvslt
  | op => uMethodC op

def methodC (op : COp) (signed : Bool) : Inst H → HObj H → PyM Bool :=
  if signed then sMethodC op else uMethodC op

/-- `__rop__` (bit_vector.py:164-174, 417; see `AOp.rev`). -/
def rev (op : AOp) (signed : Bool) (self : Inst H) (other : HObj H) : PyM (Option (Inst H)) :=
  if op = .shr ∧ signed = false then tryOper (method op signed self other)
  else match coerceH self.cls other with
    | .ok y => tryOper (method op signed y (.bv self))
    | .error _ => .error .nameError

/-- `issubclass(type(y), type(x))`, proper. -/
def properSub (y x : Inst H) : Bool := y.cls != x.cls && H.isSub y.cls x.cls

/-- `x op y` on two vectors (CPython `binary_op1`, `SLOT1BINFULL`; see `binA`): the reflected method
goes first if `type(y)` is a proper subclass of `type(x)` with another function in its place. -/
def opVV (op : AOp) (x y : Inst H) : PyM (Inst H) := do
  let sx := op.signDep && H.signed x.cls
  let sy := op.signDep && H.signed y.cls
  let fwd := tryOper (method op sx x (.bv y))
  let rv := rev op sy y (.bv x)
  if properSub y x && sx != sy then
    match ← rv with
    | some v => return v
    | none => match ← fwd with
      | some v => return v
      | none => .error .typeError
  else match ← fwd with
    | some v => return v
    | none =>
      if x.cls = y.cls then .error .typeError
      else match ← rv with
        | some v => return v
        | none => .error .typeError

/-- `x op o` for an object that is neither a vector nor a `Bit` (no operator of its own applies). -/
def opVO (op : AOp) (x : Inst H) (o : HObj H) : PyM (Inst H) := do
  match ← tryOper (method op (op.signDep && H.signed x.cls) x o) with
  | some v => return v
  | none => .error .typeError

/-- `o op x` for such an object. -/
def opOV (op : AOp) (o : HObj H) (x : Inst H) : PyM (Inst H) := do
  match ← rev op (op.signDep && H.signed x.cls) x o with
  | some v => return v
  | none => .error .typeError

/-- `x cmp y` on two vectors (CPython `do_richcompare`; see `binC`): the reflected comparison goes
first if `type(y)` is a proper subclass of `type(x)`. -/
def cmpVV (op : COp) (x y : Inst H) : PyM Bool := do
  let fwd := tryOper (methodC op (op.signDep && H.signed x.cls) x (.bv y))
  let rv := tryOper (methodC op.swap (op.swap.signDep && H.signed y.cls) y (.bv x))
  let last : PyM Bool := match op with
    | .eq => .ok false
    | .ne => .ok true
    | _ => .error .typeError
  if properSub y x then
    match ← rv with
    | some v => return v
    | none => match ← fwd with
      | some v => return v
      | none => last
  else match ← fwd with
    | some v => return v
    | none => match ← rv with
      | some v => return v
      | none => last

/-! ## `ite` -/

/-- `_get_common_bases` (bit_vector_util.py:100-119); `rest` is what the recursion over the bases finds
when neither class is a subclass of the other. -/
def commonBases (c d : H.C) (rest : List H.C) : List H.C :=
  if H.isSub c d then [d] else if H.isSub d c then [c] else rest

/-- A vector returned by `ite`: of an existing class, or of a new polymorphic class over the unsized
classes `us`. -/
inductive IteRes (H : Hier)
  | inst (x : Inst H)
  | poly (us : List H.U) (n : Nat) (value : Int)

/-- `PolyVector[T0, T1, select]` (bit_vector_util.py:54-97, 121-150): the bases are replaced by their
`unsized_t` where they have one; a class with a sized base is sized, and `new_class[size]` then raises
`TypeError` (bit_vector_abc.py:87-88).  Returns the unsized bases. -/
def polyClass (c d : H.C) (rest : List H.C) : PyM (List H.U) :=
  if H.size c ≠ H.size d then .error .inconsistentSize
  else
    let us := (commonBases c d rest).map H.unsized
    if us.all Option.isSome then .ok (us.filterMap id) else .error .typeError

/-- `Bit.ite` on two vectors (bit_vector.py:96-116, bit_vector_util.py:186-243). -/
def iteH (sel : Bool) (t f : Inst H) (rest : List H.C) : PyM (IteRes H) :=
  let v := if sel then t else f
  if t.cls = f.cls then do return .inst (← mkH t.cls (.bv v))
  else do
    let us ← polyClass t.cls f.cls rest
    return .poly us t.size (pyAnd v.value (2 ^ t.size - 1))

end HW.Der
