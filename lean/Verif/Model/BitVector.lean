import Verif.Py.Slice

/-!
# Model of `hwtypes/bit_vector.py`: values and methods

Operators (`+`, `<<`, `==`, ...) with Python's reflected dispatch are in `Model/Operators.lean`,
`ite` in `Model/Ite.lean`.
-/

namespace HW

/-- The four predefined classes: `BitVector` (bit_vector.py:177), `NumVector` (503),
`UIntVector` (507), `SIntVector` (515). -/
inductive Root
  | bv | num | uint | sint
  deriving DecidableEq, Repr, Inhabited

/-- Class hierarchy `UIntVector, SIntVector < NumVector < BitVector`
(bit_vector.py:503,507,515). -/
def Root.isSub : Root → Root → Bool
  | _, .bv => true
  | .num, .num | .uint, .num | .sint, .num => true
  | .uint, .uint => true
  | .sint, .sint => true
  | _, _ => false

/-- Least common ancestor, the result of `_get_common_bases` (bit_vector_util.py:100-119) on the
four predefined classes. -/
def Root.lca (a b : Root) : Root :=
  if a.isSub b then b else if b.isSub a then a else if a.isSub .num && b.isSub .num then .num else .bv

/-- An unsized vector class.  `poly id t f sel` is the class created by
`PolyVector[T, F, select]` (bit_vector_util.py:54-97, 121-150); these classes are never cached, so
each carries the identity `id`.  User-defined subclasses are not modelled here. -/
inductive Kind
  | root (r : Root)
  | poly (id : Nat) (t f : Kind) (sel : Bool)
  deriving DecidableEq, Repr, Inhabited

/-- The predefined class a class derives from (itself, or the common base of a polymorphic
class, bit_vector_util.py:133-145). -/
def Kind.base : Kind → Root
  | .root r => r
  | .poly _ t f _ => Root.lca t.base f.base

/-- `issubclass` on unsized classes. A polymorphic class has no subclass but itself. -/
def Kind.isSub (a b : Kind) : Bool :=
  match b with
  | .root r => a.base.isSub r
  | .poly .. => a == b

/-- A vector object: its class `kind[size]` and the attribute `_value`
(bit_vector.py:205).  That `0 ≤ value < 2^size` is *proved*, not built in. -/
structure BVal where
  kind : Kind
  size : Nat
  value : Int
  deriving DecidableEq, Repr, Inhabited

/-- Python objects as far as the modelled code can tell them apart.
* `bit`: a `Bit`; `bv`: a `BitVector` of any class;
* `seq`: any `collections.abc.Sequence` (list, tuple, str), given by the truth values of its
  elements; has neither `__int__` nor `__bool__`;
* `other`: any other object, given by the results of its `__int__` and `__bool__`
  (`none` when it lacks the method). -/
inductive Obj
  | int (v : Int)
  | bool (b : Bool)
  | bit (b : Bool)
  | bv (b : BVal)
  | seq (l : List Bool)
  | other (toInt : Option Int) (toBool : Option Bool)
  deriving DecidableEq, Repr

/-- Loop of `seq2int` (bit_vector.py:14-18): `value |= int(bool(v)) << idx`. -/
def seq2intGo (idx : Nat) (value : Int) : List Bool → Int
  | [] => value
  | v :: l => seq2intGo (idx + 1) (pyOr value (b2i v * 2 ^ idx)) l

/-- `seq2int` (bit_vector.py:14-18). -/
def seq2int (l : List Bool) : Int := seq2intGo 0 0 l

/-- `int2seq` (bit_vector.py:23-24): `[(value >> i) & 1 for i in range(n)]`. -/
def int2seq (value : Int) (n : Nat) : List Int :=
  (List.range n).map fun i => pyAnd (Int.fdiv value (2 ^ i)) 1

/-- `bool(x)` of an int. -/
def truthy (v : Int) : Bool := v != 0

/-- `Bit.__init__` (bit_vector.py:46-58).  For a `BitVector` argument the branch
`hasattr(value, '__bool__')` applies and `BitVector.__bool__` is `bool(int(self))`;
`int` is `as_sint` for `SIntVector`, whose zero-ness is that of `_value`, except that a zero-width
`SIntVector` raises `IndexError` (bit_vector.py:446-458, 518). -/
def mkBit : Obj → PyM Bool
  | .bit b => .ok b
  | .bool b => .ok b
  | .int v => if v = 0 then .ok false else if v = 1 then .ok true else .error .valueError
  | .bv b =>
      if b.kind.base = .sint ∧ b.size = 0 then .error .indexError
      else if b.kind.base = .sint then
        -- as_sint: value, minus 2^size when the top bit is set; `bool` of that
        .ok (truthy (if pyAnd (Int.fdiv b.value (2 ^ (b.size - 1))) 1 = 1
              then b.value - 2 ^ b.size else b.value))
      else .ok (truthy b.value)
  | .seq _ => .error .typeError
  | .other _ (some b) => .ok b
  | .other _ none => .error .typeError

/-- `BitVector.__init__` (bit_vector.py:182-205) at class `k[n]`.  Warnings are not modelled. -/
def mkBV (k : Kind) (n : Nat) (o : Obj) : PyM BVal := do
  let value ← match o with
    | .bv b => .ok b.value                    -- 183-186
    | .bit b => .ok (b2i b)                   -- 187-188
    | .int v => .ok v                         -- 189-192
    | .bool b => .ok (b2i b)                  -- bool is an int
    | .seq l => .ok (seq2int l)               -- 193-196
    | .other (some v) _ => .ok v              -- 197-200
    | .other none _ => .error .typeError      -- 201-202
  return ⟨k, n, pyAnd value (2 ^ n - 1)⟩      -- 203-205, mask = (1 << size) - 1

/-- `_coerce` (bit_vector.py:134-140). -/
def coerce (k : Kind) (n : Nat) (o : Obj) : PyM BVal :=
  match o with
  | .bv b => if b.size ≠ n then .error .inconsistentSize else .ok b
  | o => mkBV k n o

/-- `str` of a Python int. -/
def pyStr : Int → List Char
  | .ofNat n => Nat.toDigits 10 n
  | .negSucc n => '-' :: Nat.toDigits 10 (n + 1)

/-- `__name__` of an unsized class: bit_vector.py:177,503,507,515; for a polymorphic class
`f'{cls.__name__}[{T0.__name__}, {T1.__name__}, {select}]'` (bit_vector_util.py:79), where the two
classes are sized.  The width shown inside is that of the class (argument `n`). -/
def Kind.name (n : Nat) : Kind → List Char
  | .root .bv => ['B', 'i', 't', 'V', 'e', 'c', 't', 'o', 'r']
  | .root .num => ['N', 'u', 'm', 'V', 'e', 'c', 't', 'o', 'r']
  | .root .uint => ['U', 'I', 'n', 't', 'V', 'e', 'c', 't', 'o', 'r']
  | .root .sint => ['S', 'I', 'n', 't', 'V', 'e', 'c', 't', 'o', 'r']
  | .poly _ t f sel =>
      ['P', 'o', 'l', 'y', 'V', 'e', 'c', 't', 'o', 'r', '['] ++ t.name n ++ ['['] ++ Nat.toDigits 10 n ++ [']', ',', ' '] ++ f.name n ++
        ['['] ++ Nat.toDigits 10 n ++ (if sel then [']', ',', ' ', 'B', 'i', 't', '(', 'T', 'r', 'u', 'e', ')', ']'] else [']', ',', ' ', 'B', 'i', 't', '(', 'F', 'a', 'l', 's', 'e', ')', ']'])

/-- `__name__`, which is also `repr` and `str`, of a sized class (bit_vector_abc.py:93,121-122). -/
def sizedName (k : Kind) (n : Nat) : List Char := k.name n ++ ['['] ++ Nat.toDigits 10 n ++ [']']

namespace BVal

/-- `type(self)(v)` for an int `v`. -/
def mk' (x : BVal) (v : Int) : PyM BVal := mkBV x.kind x.size (.int v)

/-- `bv_cast` (bit_vector.py:142-147) as used by every binary method. -/
def cast {α : Type} (x : BVal) (o : Obj) (fn : BVal → PyM α) : PyM α := do
  fn (← coerce x.kind x.size o)

/-- `as_uint` (bit_vector.py:443-444). -/
def asUint (x : BVal) : Int := x.value

/-- `bits` (bit_vector.py:466-467). -/
def bits (x : BVal) : List Int := int2seq x.value x.size

/-- `as_bool_list` (bit_vector.py:469-470). -/
def asBoolList (x : BVal) : List Bool := x.bits.map truthy

/-- `binary_string` (bit_vector.py:460-461), as a character list. -/
def binaryString (x : BVal) : List Char :=
  (x.bits.reverse.map fun i => (toString i).toList).flatten

/-- `as_binary_string` (bit_vector.py:463-464). -/
def asBinaryString (x : BVal) : List Char := ['0', 'b'] ++ x.binaryString

/-- `__getitem__` with an int (bit_vector.py:247-252). -/
def getIdx (x : BVal) (index : Int) : PyM Bool :=
  let index := if index < 0 then x.size + index else index
  if ¬ (0 ≤ index ∧ index < x.size) then .error .indexError
  else do
    let v ← pyShr x.value index
    mkBit (.int (pyAnd v 1))

/-- `__getitem__` with a slice (bit_vector.py:244-246). -/
def getSlice (x : BVal) (s : PySlice) : PyM BVal := do
  let v ← pySliceList x.bits s
  mkBV x.kind v.length (.seq (v.map truthy))

/-- An index argument: an int, a slice, or something else. -/
inductive Index
  | int (i : Int)
  | slice (s : PySlice)
  | other
  deriving DecidableEq, Repr

/-- `__getitem__` (bit_vector.py:243-254). -/
def getitem (x : BVal) : Index → PyM Obj
  | .slice s => do return .bv (← x.getSlice s)
  | .int i => do return .bit (← x.getIdx i)
  | .other => .error .typeError

/-- `as_sint` (bit_vector.py:446-450). -/
def asSint (x : BVal) : PyM Int := do
  if ← x.getIdx (-1) then return x.value - 2 ^ x.size else return x.value

/-- `__int__` (bit_vector.py:454-455 and 518-519).  A polymorphic class inherits it from its
common base because `PolyType.__getitem__` skips `__int__` (bit_vector_util.py:87). -/
def toInt (x : BVal) : PyM Int :=
  if x.kind.base = .sint then x.asSint else .ok x.asUint

/-- `__bool__` (bit_vector.py:457-458). -/
def toBool (x : BVal) : PyM Bool := do return truthy (← x.toInt)

/-- `concat` (bit_vector.py:263-267) on a vector argument. -/
def concat (x y : BVal) : PyM BVal :=
  if ¬ y.kind.isSub x.kind then .error .typeError
  else do
    let hi ← pyShl y.value x.size
    mkBV x.kind (x.size + y.size) (.int (pyOr x.value hi))

/-- `bvnot` (bit_vector.py:269-270). -/
def bvnot (x : BVal) : PyM BVal := x.mk' (pyNot x.asUint)
/-- `bvand` (bit_vector.py:272-274). -/
def bvand (x : BVal) (o : Obj) : PyM BVal := x.cast o fun y => x.mk' (pyAnd x.asUint y.asUint)
/-- `bvor` (bit_vector.py:276-278). -/
def bvor (x : BVal) (o : Obj) : PyM BVal := x.cast o fun y => x.mk' (pyOr x.asUint y.asUint)
/-- `bvxor` (bit_vector.py:280-282). -/
def bvxor (x : BVal) (o : Obj) : PyM BVal := x.cast o fun y => x.mk' (pyXor x.asUint y.asUint)
/-- `bvnand` (bit_vector_abc.py:195-196). -/
def bvnand (x : BVal) (o : Obj) : PyM BVal := do (← x.bvand o).bvnot
/-- `bvnor` (bit_vector_abc.py:202-203). -/
def bvnor (x : BVal) (o : Obj) : PyM BVal := do (← x.bvor o).bvnot
/-- `bvxnor` (bit_vector_abc.py:209-210). -/
def bvxnor (x : BVal) (o : Obj) : PyM BVal := do (← x.bvxor o).bvnot
/-- `bvshl` (bit_vector.py:284-286). -/
def bvshl (x : BVal) (o : Obj) : PyM BVal := x.cast o fun y => do x.mk' (← pyShl x.asUint y.asUint)
/-- `bvlshr` (bit_vector.py:288-290). -/
def bvlshr (x : BVal) (o : Obj) : PyM BVal := x.cast o fun y => do x.mk' (← pyShr x.asUint y.asUint)
/-- `bvashr` (bit_vector.py:292-294). -/
def bvashr (x : BVal) (o : Obj) : PyM BVal := x.cast o fun y => do
  x.mk' (← pyShr (← x.asSint) y.asUint)

/-- `bvrol` (bit_vector.py:296-299). -/
def bvrol (x : BVal) (o : Obj) : PyM BVal := x.cast o fun y => do
  let k ← pyMod (x.size - y.asUint) x.size
  (← x.getSlice ⟨some k, none, none⟩).concat (← x.getSlice ⟨none, some k, none⟩)
/-- `bvror` (bit_vector.py:301-304). -/
def bvror (x : BVal) (o : Obj) : PyM BVal := x.cast o fun y => do
  let k ← pyMod y.asUint x.size
  (← x.getSlice ⟨some k, none, none⟩).concat (← x.getSlice ⟨none, some k, none⟩)

/-- `bvcomp` (bit_vector.py:306-308). -/
def bvcomp (x : BVal) (o : Obj) : PyM BVal := x.cast o fun y =>
  mkBV x.kind 1 (.bool (x.asUint == y.asUint))
/-- `bveq` (bit_vector.py:310-312). -/
def bveq (x : BVal) (o : Obj) : PyM Bool := x.cast o fun y => mkBit (.bool (x.asUint == y.asUint))
/-- `bvne` (bit_vector.py:314-316). -/
def bvne (x : BVal) (o : Obj) : PyM Bool := x.cast o fun y => mkBit (.bool (x.asUint != y.asUint))
/-- `bvuge` (bit_vector.py:318-320). -/
def bvuge (x : BVal) (o : Obj) : PyM Bool := x.cast o fun y =>
  mkBit (.bool (decide (x.asUint ≥ y.asUint)))
/-- `bvugt` (bit_vector.py:322-324). -/
def bvugt (x : BVal) (o : Obj) : PyM Bool := x.cast o fun y =>
  mkBit (.bool (decide (x.asUint > y.asUint)))
/-- `bvule` (bit_vector.py:326-328). -/
def bvule (x : BVal) (o : Obj) : PyM Bool := x.cast o fun y =>
  mkBit (.bool (decide (x.asUint ≤ y.asUint)))
/-- `bvult` (bit_vector.py:330-332). -/
def bvult (x : BVal) (o : Obj) : PyM Bool := x.cast o fun y =>
  mkBit (.bool (decide (x.asUint < y.asUint)))
/-- `bvslt` (bit_vector.py:334-336). -/
def bvslt (x : BVal) (o : Obj) : PyM Bool := x.cast o fun y => do
  mkBit (.bool (decide ((← x.asSint) < (← y.asSint))))

/-- `Bit.__invert__` (bit_vector.py:60-61). -/
def bitNot (b : Bool) : Bool := !b
/-- `Bit.__or__` on two `Bit`s (bit_vector.py:79-81). -/
def bitOr (a b : Bool) : Bool := a || b

/-- `bvsle` (bit_vector_abc.py:260-261). -/
def bvsle (x : BVal) (o : Obj) : PyM Bool := do return bitOr (← x.bvslt o) (← x.bveq o)
/-- `bvsgt` (bit_vector_abc.py:263-264). -/
def bvsgt (x : BVal) (o : Obj) : PyM Bool := do return bitNot (← x.bvsle o)
/-- `bvsge` (bit_vector_abc.py:266-267). -/
def bvsge (x : BVal) (o : Obj) : PyM Bool := do return bitNot (← x.bvslt o)

/-- `bvneg` (bit_vector.py:338-339). -/
def bvneg (x : BVal) : PyM BVal := x.mk' (pyNot x.asUint + 1)
/-- `bvadd` (bit_vector.py:362-364). -/
def bvadd (x : BVal) (o : Obj) : PyM BVal := x.cast o fun y => x.mk' (x.asUint + y.asUint)
/-- `bvsub` (bit_vector.py:366-368). -/
def bvsub (x : BVal) (o : Obj) : PyM BVal := x.cast o fun y => x.mk' (x.asUint - y.asUint)
/-- `bvmul` (bit_vector.py:370-372). -/
def bvmul (x : BVal) (o : Obj) : PyM BVal := x.cast o fun y => x.mk' (x.asUint * y.asUint)

/-- `bvudiv` (bit_vector.py:374-379). -/
def bvudiv (x : BVal) (o : Obj) : PyM BVal := x.cast o fun y =>
  let other := y.asUint
  if other = 0 then x.mk' (2 ^ x.size - 1)
  else do x.mk' (← pyFloorDiv x.asUint other)
/-- `bvurem` (bit_vector.py:381-386). -/
def bvurem (x : BVal) (o : Obj) : PyM BVal := x.cast o fun y =>
  let other := y.asUint
  if other = 0 then .ok x
  else do x.mk' (← pyMod x.asUint other)
/-- `bvsdiv` (bit_vector.py:388-393). -/
def bvsdiv (x : BVal) (o : Obj) : PyM BVal := x.cast o fun y => do
  let other ← y.asSint
  if other = 0 then x.mk' (2 ^ x.size - 1)
  else x.mk' (← pyFloorDiv (← x.asSint) other)
/-- `bvsrem` (bit_vector.py:395-400). -/
def bvsrem (x : BVal) (o : Obj) : PyM BVal := x.cast o fun y => do
  let other ← y.asSint
  if other = 0 then .ok x
  else x.mk' (← pyMod (← x.asSint) other)

/-- Python `r * l` for a list: `r` copies. -/
def listRepeat {α : Type} (r : Int) (l : List α) : List α := (List.replicate r.toNat l).flatten

/-- `repeat` (bit_vector.py:472-477) for an int count. -/
def repeat_ (x : BVal) (r : Int) : PyM BVal :=
  if r ≤ 0 then .error .valueError
  else mkBV x.kind (r.toNat * x.size) (.seq ((listRepeat r x.bits).map truthy))

/-- `zext` (bit_vector.py:490-496). -/
def zext (x : BVal) (ext : Int) : PyM BVal :=
  if ext < 0 then .error .valueError
  else do x.concat (← mkBV x.kind ext.toNat (.int 0))

/-- `sext` (bit_vector.py:479-485). -/
def sext (x : BVal) (ext : Int) : PyM BVal :=
  if ext < 0 then .error .valueError
  else do
    let s ← mkBV x.kind 1 (.bit (← x.getIdx (-1)))
    x.concat (← s.repeat_ ext)

/-- `adc` (bit_vector.py:341-357).  The `+` operators here resolve to `bvadd` of the left operand:
no class overrides `__radd__`, and a `BitVector` left operand never returns `NotImplemented` for a
`BitVector` right operand. -/
def adc (x : BVal) (other carry : Obj) : PyM (BVal × Bool) := do
  let other ← coerce x.kind x.size other
  let carry ← coerce x.kind 1 carry
  let a ← x.zext 1
  let b ← other.zext 1
  let c ← carry.zext x.size
  let res ← (← a.bvadd (.bv b)).bvadd (.bv c)
  return (← res.getSlice ⟨some 0, some (-1), none⟩, ← res.getIdx (-1))

/-- `isinstance(value, bool) or isinstance(value, Bit) or (isinstance(value, int) and value in
{0, 1})` (bit_vector.py:231). -/
def isBitLike : Obj → Bool
  | .bool _ => true
  | .bit _ => true
  | .int v => v == 0 || v == 1
  | _ => false

/-- `__setitem__` (bit_vector.py:227-241); returns the object after the assignment.
`self | mask`, `self & ~mask` act on two vectors of one class, where the operators are the methods
`bvor`, `bvand`; both are computed before `ite` selects, and `ite` on two values of one class
re-wraps the selected one in that class. -/
def setitem (x : BVal) (index : Index) (value : Obj) : PyM BVal :=
  match index with
  | .slice _ => .error .notImplementedError
  | .other => if ¬ isBitLike value then .error .valueError else .error .typeError
  | .int index =>
      if ¬ isBitLike value then .error .valueError
      else
        let index := if index < 0 then x.size + index else index
        if ¬ (0 ≤ index ∧ index < x.size) then .error .indexError
        else do
          let mask ← x.mk' (← pyShl 1 index)
          let b ← mkBit value
          let t ← x.bvor (.bv mask)
          let f ← x.bvand (.bv (← mask.bvnot))
          let r ← mkBV x.kind x.size (.bv (if b then t else f))
          return { x with value := r.value }

/-- `__hash__` hashes the string `f"{type(self)}{self._value}"` (bit_vector.py:214-215); the model
returns that string, as a character list. -/
def hashKey (x : BVal) : List Char := sizedName x.kind x.size ++ pyStr x.value

end BVal

/-- `overflow` (bit_vector.py:591-595). -/
def overflow (a b res : BVal) : PyM Bool := do
  let ma ← a.getIdx (-1)
  let mb ← b.getIdx (-1)
  let n ← res.getIdx (-1)
  return (ma && mb && !n) || (!ma && !mb && n)

end HW
