import Verif.Model.Fp.Arith
import Verif.Model.Smt.Names

/-!
# `SMTFPVector` (hwtypes/smt_fp_vector.py)

A symbolic floating-point vector is a bit-vector term of pysmt; every operation is the application of an
uninterpreted function symbol named after the class and the method.  As in the z3 model a term is its sort
and its meaning; here an interpretation gives the variables and the function symbols a meaning.

pysmt (assumed): `Symbol(name, type)` is the one symbol of that name and raises `PysmtTypeError` if the name
was declared with another type; calling a function symbol raises `PysmtValueError` for a wrong number of
arguments and `PysmtTypeError` for arguments of other types; types are interned; infix notation, which calls of symbols need, is enabled.

Simplifications: operands are objects whose `_value` is a term (vectors of any SMT class), a term of another
sort (`SMTBit`, `SMTInt`), or objects without `_value`; objects of the concrete families (whose `_value` is a
number) are not modelled.  Values handed to the constructor are terms, objects of the family and ints (not
bools).
-/

namespace HW.SmtFp
open HW.Fp
open HW.Smt (Name)

/-- What a pysmt model assigns to the variables and function symbols.  A function symbol has one type, so its
values can be given as numbers: arguments and result are the numbers of the bit patterns. -/
structure Interp where
  bv : Name → (w : Nat) → BitVec w
  uf : Name → List Nat → Nat

/-- A bit-vector term. -/
structure Tm where
  w : Nat
  den : Interp → BitVec w

/-- A Boolean term. -/
abbrev BTm := Interp → Bool

/-- The type of a symbol: the widths of the parameters and of the result (`none`: Boolean). -/
abbrev SymTy := List Nat × Option Nat

/-! ### Classes and their function symbols -/

/-- The methods that have a function symbol (`_SIGS`, smt_fp_vector.py:11-36). -/
inductive Meth
  | abs | neg | add | sub | mul | div | fma | sqrt | rem | rint | min | max
  | leq | lt | geq | gt | eq
  | isNormal | isSubnormal | isZero | isInfinite | isNaN | isNegative | isPositive
  deriving DecidableEq, Repr

def Meth.all : List Meth :=
  [.abs, .neg, .add, .sub, .mul, .div, .fma, .sqrt, .rem, .rint, .min, .max, .leq, .lt, .geq, .gt, .eq,
   .isNormal, .isSubnormal, .isZero, .isInfinite, .isNaN, .isNegative, .isPositive]

/-- The first component of the entries of `_SIGS`. -/
def Meth.name : Meth → Name
  | .abs => ['f', 'p', '_', 'a', 'b', 's']
  | .neg => ['f', 'p', '_', 'n', 'e', 'g']
  | .add => ['f', 'p', '_', 'a', 'd', 'd']
  | .sub => ['f', 'p', '_', 's', 'u', 'b']
  | .mul => ['f', 'p', '_', 'm', 'u', 'l']
  | .div => ['f', 'p', '_', 'd', 'i', 'v']
  | .fma => ['f', 'p', '_', 'f', 'm', 'a']
  | .sqrt => ['f', 'p', '_', 's', 'q', 'r', 't']
  | .rem => ['f', 'p', '_', 'r', 'e', 'm']
  | .rint => ['f', 'p', '_', 'r', 'o', 'u', 'n', 'd', '_', 't', 'o', '_', 'i', 'n', 't', 'e', 'g', 'r', 'a', 'l']
  | .min => ['f', 'p', '_', 'm', 'i', 'n']
  | .max => ['f', 'p', '_', 'm', 'a', 'x']
  | .leq => ['f', 'p', '_', 'l', 'e', 'q']
  | .lt => ['f', 'p', '_', 'l', 't']
  | .geq => ['f', 'p', '_', 'g', 'e', 'q']
  | .gt => ['f', 'p', '_', 'g', 't']
  | .eq => ['f', 'p', '_', 'e', 'q']
  | .isNormal => ['f', 'p', '_', 'i', 's', '_', 'n', 'o', 'r', 'm', 'a', 'l']
  | .isSubnormal => ['f', 'p', '_', 'i', 's', '_', 's', 'u', 'b', 'n', 'o', 'r', 'm', 'a', 'l']
  | .isZero => ['f', 'p', '_', 'i', 's', '_', 'z', 'e', 'r', 'o']
  | .isInfinite => ['f', 'p', '_', 'i', 's', '_', 'i', 'n', 'f', 'i', 'n', 'i', 't', 'e']
  | .isNaN => ['f', 'p', '_', 'i', 's', '_', 'N', 'a', 'N']
  | .isNegative => ['f', 'p', '_', 'i', 's', '_', 'n', 'e', 'g', 'a', 't', 'i', 'v', 'e']
  | .isPositive => ['f', 'p', '_', 'i', 's', '_', 'p', 'o', 's', 'i', 't', 'i', 'v', 'e']

/-- The rest of the entries of `_SIGS`: the number of parameters and whether the result is `BOOL`. -/
def Meth.sig : Meth → Nat × Bool
  | .abs | .neg => (1, false)
  | .add | .sub | .mul | .div => (2, false)
  | .fma => (3, false)
  | .sqrt => (1, false)
  | .rem => (2, false)
  | .rint => (1, false)
  | .min | .max => (1, false)                                     -- 22-23
  | .leq | .lt | .geq | .gt | .eq => (2, true)
  | .isNormal | .isSubnormal | .isZero | .isInfinite | .isNaN | .isNegative | .isPositive => (1, true)

/-- A bound class: `__name__` and the binding. -/
structure Cls where
  name : Name
  fmt : Fmt
  deriving DecidableEq

def Mode.text : Mode → Name
  | .RNE => ['R', 'N', 'E']
  | .RNA => ['R', 'N', 'A']
  | .RTP => ['R', 'T', 'P']
  | .RTN => ['R', 'T', 'N']
  | .RTZ => ['R', 'T', 'Z']

/-- `class_name` of `SMTFPVector[eb, mb, mode, ieee]` (fp_vector_abc.py:67). -/
def stdName (f : Fmt) : Name :=
  ['S', 'M', 'T', 'F', 'P', 'V', 'e', 'c', 't', 'o', 'r', '['] ++ Nat.toDigits 10 f.eb ++ [','] ++
  Nat.toDigits 10 f.mb ++ [','] ++ (['R', 'o', 'u', 'n', 'd', 'i', 'n', 'g', 'M', 'o', 'd', 'e', '.'] ++ Mode.text f.mode) ++
  [','] ++ (if f.ieee then ['T', 'r', 'u', 'e'] else ['F', 'a', 'l', 's', 'e']) ++ [']']

/-- `SMTFPVector[eb, mb, mode, ieee]`. -/
def std (f : Fmt) : Cls := ⟨stdName f, f⟩

/-- `'.'.join((cls.__name__, method_name))` (smt_fp_vector.py:81, 173, 185). -/
def Cls.sym (c : Cls) (m : Name) : Name := c.name ++ '.' :: m

/-- `FunctionType(rtype, params)` for an entry of `_SIGS` (smt_fp_vector.py:76-82). -/
def Cls.symTy (c : Cls) (m : Meth) : SymTy :=
  (List.replicate m.sig.1 c.fmt.size, if m.sig.2 then none else some c.fmt.size)

/-- pysmt's symbol table. -/
abbrev SymTab := List (Name × SymTy)

/-- `shortcuts.Symbol(name, ty)`. -/
def symbol (t : SymTab) (n : Name) (ty : SymTy) : PyM SymTab :=
  match t.find? (fun d => d.1 = n) with
  | some d => if d.2 = ty then .ok t else .error .typeError
  | none => .ok ((n, ty) :: t)

def symbols (c : Cls) : SymTab → List Meth → PyM SymTab
  | t, [] => .ok t
  | t, m :: l => do symbols c (← symbol t (c.sym m.name) (c.symTy m)) l

/-- `__init_subclass__` (smt_fp_vector.py:74-85), run by every class statement below `SMTFPVector`; a class
without a binding has no `size`. -/
def initSubclass (t : SymTab) (name : Name) (binding : Option Fmt) : PyM (SymTab × Cls) :=
  match binding with
  | none => .error .attributeError
  | some f => do
      let c : Cls := ⟨name, f⟩
      return (← symbols c t Meth.all, c)

/-! ### Objects -/

/-- An object: class and `_value`. -/
structure SFP where
  cls : Cls
  val : Tm

/-- The other operand of a method. -/
inductive SArg
  /-- An `SMTFPVector` of some class. -/
  | fp (x : SFP)
  /-- An `SMTBitVector`. -/
  | bv (t : Tm)
  /-- An object whose `_value` is a term that is not a bit vector. -/
  | otherTerm
  /-- An object without `_value`. -/
  | plain

/-- `other._value`: `none` for a term that is not a bit vector. -/
def SArg.value : SArg → PyM (Option Tm)
  | .fp x => .ok (some x.val)
  | .bv t => .ok (some t)
  | .otherTerm => .ok none
  | .plain => .error .attributeError

/-- What the constructor accepts. -/
inductive Init
  | fnode (t : Tm)
  | boolNode
  | fp (x : SFP)
  | int (v : Int)
  | other

/-- `isinstance(value, type(self))` for bound classes of one name space: the class itself (a class statement
below a bound class makes a subclass; `subs c d` says that `d` is one of `c`). -/
abbrev Subs := Cls → Cls → Bool

/-- `__init__` with a value (smt_fp_vector.py:43-72). -/
def mk (subs : Subs) (c : Cls) : Init → PyM SFP
  | .fnode t => if t.w = c.fmt.size then .ok ⟨c, t⟩ else .error .typeError              -- 60-63
  | .boolNode => .error .typeError
  | .fp x => if x.cls = c ∨ subs c x.cls then .ok ⟨c, x.val⟩ else .error .typeError     -- 64-65, 69
  | .int v =>                                                                            -- 66-67
      if 0 ≤ v ∧ v < 2 ^ c.fmt.size then .ok ⟨c, ⟨c.fmt.size, fun _ => BitVec.ofInt _ v⟩⟩
      else .error .valueError
  | .other => .error .typeError

/-- `cls(term)`. -/
def mkF (c : Cls) (t : Tm) : PyM SFP := if t.w = c.fmt.size then .ok ⟨c, t⟩ else .error .typeError

/-- The checks of `uf(*args)`. -/
def checkArgs (params : List Nat) (args : List (Option Tm)) : PyM (List Tm) :=
  if args.length ≠ params.length then .error .valueError
  else if args.map (fun a => a.map Tm.w) ≠ params.map some then .error .typeError
  else .ok (args.filterMap id)

/-- The numbers an interpretation gives the arguments. -/
def nums (e : Interp) (l : List Tm) : List Nat := l.map fun t => (t.den e).toNat

/-- `_fp_method` (smt_fp_vector.py:87-90). -/
def fpMethod (c : Cls) (m : Meth) (args : List (Option Tm)) : PyM SFP := do
  let l ← checkArgs (c.symTy m).1 args
  mkF c ⟨c.fmt.size, fun e => BitVec.ofNat _ (e.uf (c.sym m.name) (nums e l))⟩

/-- `_bit_method` (smt_fp_vector.py:92-95). -/
def bitMethod (c : Cls) (m : Meth) (args : List (Option Tm)) : PyM BTm := do
  let l ← checkArgs (c.symTy m).1 args
  return fun e => decide (e.uf (c.sym m.name) (nums e l) % 2 = 1)

namespace SFP
variable (x : SFP)

/-- Unary and binary methods of the two kinds. -/
def un (m : Meth) : PyM SFP := fpMethod x.cls m [some x.val]
def bin (m : Meth) (other : SArg) : PyM SFP := do
  let o ← other.value
  fpMethod x.cls m [some x.val, o]
def test (m : Meth) : PyM BTm := bitMethod x.cls m [some x.val]
def rel (m : Meth) (other : SArg) : PyM BTm := do
  let o ← other.value
  bitMethod x.cls m [some x.val, o]

def fpAbs := un x .abs                                                    -- 97-98
def fpNeg := un x .neg                                                    -- 100-101
def fpAdd := bin x .add                                                   -- 103-104
def fpSub := bin x .sub                                                   -- 106-107
def fpMul := bin x .mul                                                   -- 109-110
def fpDiv := bin x .div                                                   -- 112-113
/-- `fp_fma` (115-116). -/
def fpFma (coef offset : SArg) : PyM SFP := do
  let a ← coef.value
  let b ← offset.value
  fpMethod x.cls .fma [some x.val, a, b]
def fpSqrt := un x .sqrt                                                  -- 118-119
def fpRem := bin x .rem                                                   -- 121-122
def fpRint := un x .rint                                                  -- 124-125
def fpMin := bin x .min                                                   -- 127-128
def fpMax := bin x .max                                                   -- 130-131
def fpLeq := rel x .leq                                                   -- 133-134
def fpLt := rel x .lt                                                     -- 136-137
def fpGeq := rel x .geq                                                   -- 139-140
def fpGt := rel x .gt                                                     -- 142-143
def fpEq := rel x .eq                                                     -- 145-146
def isNormal := test x .isNormal                                          -- 148-149
def isSubnormal := test x .isSubnormal                                    -- 151-152
def isZero := test x .isZero                                              -- 154-155
def isInfinite := test x .isInfinite                                      -- 157-158
def isNaN := test x .isNaN                                                -- 160-161
def isNegative := test x .isNegative                                      -- 163-164
def isPositive := test x .isPositive                                      -- 166-167
/-- `__ne__` (209); the other operators name the methods (200-213). -/
def ne (other : SArg) : PyM BTm := do
  let b ← x.fpEq other
  return fun e => !b e

/-- The keys of `_uf_table[cls]` (smt_fp_vector.py:74-85). -/
def ufKeys : List Name :=
  Meth.all.map Meth.name ++ [['t', 'o', '_', 's', 'b', 'v'], ['t', 'o', '_', 'u', 'b', 'v']]

/-- `to_ubv[size]`, `to_sbv[size]`: the names of the function symbols (smt_fp_vector.py:173, 185). -/
def ubvName (size : Nat) : Name := ['t', 'o', '_', 'u', 'b', 'v', '['] ++ Nat.toDigits 10 size ++ [']']
def sbvName (size : Nat) : Name := ['t', 'o', '_', 's', 'b', 'v', '['] ++ Nat.toDigits 10 size ++ [']']

/-- The body of `to_ubv` and `to_sbv` (smt_fp_vector.py:169-191), `size` positive: a term for an
`SMTBitVector[size]`. -/
def toVec (key : Name) (name : Name) (size : Nat) : PyM Tm :=
  if key ∈ ufKeys then do
    let l ← checkArgs [x.cls.fmt.size] [some x.val]
    return ⟨size, fun e => BitVec.ofNat _ (e.uf (x.cls.sym name) (nums e l))⟩
  else .error .keyError

/-- `to_ubv(size)` (smt_fp_vector.py:169-179). -/
def toUbv (size : Nat) : PyM Tm := toVec x ['t', 'o', '_', 'u', 'b', 'v'] (ubvName size) size

/-- `to_sbv(size)` (smt_fp_vector.py:181-191): the key is misspelt. -/
def toSbv (size : Nat) : PyM Tm := toVec x ['t', 'o', '_', 'u', 's', 'b', 'v'] (sbvName size) size

/-- `reinterpret_as_bv` (193-194): a term for an `SMTBitVector[size]`. -/
def asBV : PyM Tm := if x.val.w = x.cls.fmt.size then .ok x.val else .error .typeError

end SFP

/-- `reinterpret_from_bv` (196-198). -/
def fromBV (c : Cls) (t : Tm) : PyM SFP := mkF c t

end HW.SmtFp
