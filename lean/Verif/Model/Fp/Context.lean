import Verif.Model.Fp.Sqrt
import Verif.Model.Fp.Random

/-!
# The current gmpy2 context (`set_context`, hwtypes/fp_vector.py:35-40)

gmpy2 computes in a current context, one per thread, that the program can set.  Here every gmpy2 operation reads
the current context and leaves flags in it, and the methods are written with their decorators as in the source.
`gmpy2.local_context(c)` makes a copy of `c` current and puts the former one back, also on exceptions.

`Model/Fp/{Vector,Arith,Sqrt,Random}.lean` have the same methods with the context of the class put in by hand; that
this is right is C121.
-/

namespace HW.Fp

/-- A context object: its settings, and its flags (inexact, overflow, …) as a number. -/
structure GCtx where
  c : Ctx
  flags : Nat
  deriving DecidableEq

/-- A computation with a current context; the context remains when it raises. -/
def G (α : Type) := GCtx → PyM α × GCtx

namespace G
variable {α β : Type}

def pure (a : α) : G α := fun s => (.ok a, s)
def bind (m : G α) (k : α → G β) : G β := fun s =>
  match m s with
  | (.ok a, s') => k a s'
  | (.error e, s') => (.error e, s')
instance : Monad G where
  pure := pure
  bind := bind

/-- Code that does not look at the context. -/
def lift (m : PyM α) : G α := fun s => (m, s)
def throw (e : PyErr) : G α := lift (.error e)

/-- One gmpy2 operation: it reads the context and sets flags (`fx`, anything). -/
def prim (fx : GCtx → Nat) (op : Ctx → PyM α) : G α := fun s => (op s.c, { s with flags := fx s })

/-- `with gmpy2.local_context(c): m`. -/
def localContext (c : GCtx) (m : G α) : G α := fun s => ((m c).1, s)

end G

/-- `cls._ctx_`. -/
def Fmt.gctx (f : Fmt) : GCtx := ⟨f.ctx, 0⟩

/-- `@set_context` (fp_vector.py:35-40). -/
def Fmt.setContext {α : Type} (f : Fmt) (m : G α) : G α := G.localContext f.gctx m

section
variable (fx : GCtx → Nat) (f : Fmt) (o : Bool)
open G

/-- `FPVector.__init__` (fp_vector.py:44-82). -/
def Fmt.initG (a : FArg) : G Mpfr := f.setContext (do
  let value ← match a with
    | .fp _ v => prim fx fun c => .ok ({ c with precision := f.ctx.precision }.ofMpfr v)
    | .mpfr v => prim fx fun c => .ok ({ c with precision := f.ctx.precision }.ofMpfr v)
    | .num x z => prim fx fun c => .ok (c.ofRat x z)
    | .text x z => prim fx fun c => .ok (c.ofRat x z)
    | .ratio (some x) => prim fx fun c => .ok (c.ofRat x false)
    | .ratio none => throw .zeroDivisionError
    | .badText => throw .valueError
    | .foreign x => do
        let v ← lift (pyFloat x)
        prim fx fun c => .ok (c.ofRat v.toRat v.isSigned)
    | .vec b => do
        let i ← lift b.toInt
        prim fx fun c => .ok (c.ofRat i false)
    | .bad => throw .typeError
  return f.finish value)

/-- `_coerce` (fp_vector.py:20-26): not decorated. -/
def Fmt.coerceG : FArg → G Mpfr
  | .fp g v => if g ≠ f then throw .typeError else return v
  | a => f.initG fx a

/-- `@set_context @fp_cast` around a gmpy2 function of two numbers whose result is wrapped
(fp_vector.py:149-167, 180-183, 189-197). -/
def Fmt.castG (op : Ctx → Mpfr → Mpfr → Mpfr) (v : Mpfr) (b : FArg) : G Mpfr := f.setContext (do
  let w ← f.coerceG fx b
  let r ← prim fx fun c => .ok (op c v w)
  f.initG fx (.mpfr r))

/-- `@set_context` around a gmpy2 function of one number (fp_vector.py:140-147, 176-178, 185-187). -/
def Fmt.mapG (op : Ctx → Mpfr → Mpfr) (v : Mpfr) : G Mpfr := f.setContext (do
  let r ← prim fx fun c => .ok (op c v)
  f.initG fx (.mpfr r))

/-- `@set_context @fp_cast` around a comparison (fp_vector.py:199-222). -/
def Fmt.compareG (op : Mpfr → Mpfr → Bool) (v : Mpfr) (b : FArg) : G Bool := f.setContext (do
  let w ← f.coerceG fx b
  prim fx fun _ => .ok (op v w))

/-- `fp_fma` (fp_vector.py:169-174). -/
def Fmt.fmaG (v : Mpfr) (b d : FArg) : G Mpfr := f.setContext (do
  let b ← f.coerceG fx b
  let d ← f.coerceG fx d
  let r ← prim fx fun c => .ok (c.fma o v b d)
  f.initG fx (.mpfr r))

/-- `reinterpret_from_bv` (fp_vector.py:312-360); '-inf', 'inf' and 'nan' are read as what they name. -/
def Fmt.fromBVG (value : BVal) : G Mpfr := f.setContext (do
  if f.size ≠ value.size then throw .typeError
  else
    let mantissa ← lift (value.getSlice ⟨none, some f.mb, none⟩)
    let exp ← lift (value.getSlice ⟨some f.mb, some (-1), none⟩)
    let sign ← lift (value.getSlice ⟨some (-1), none, none⟩)
    if exp.size ≠ f.eb then throw .assertionError
    else if ← lift (eqInt exp 0) then
      if ← lift (mantissa.bvne (.int 0)) then
        if ¬ f.ieee then
          if ← lift (sign.getIdx 0) then f.initG fx (.text 0 true) else f.initG fx (.text 0 false)
        else
          let x := 1 - f.bias
          let s := (if ← lift (sign.getIdx 0) then ['-', '0', '.'] else ['0', '.']) ++ mantissa.binaryString ++
            ['e'] ++ pyStr x
          let r ← prim fx fun c => { c with precision := f.mb + 1 }.ofText s
          f.initG fx (.mpfr r)
      else if ← lift (sign.getIdx 0) then f.initG fx (.text 0 true)
      else f.initG fx (.text 0 false)
    else if ← lift (eqInt exp (-1)) then
      if ← lift (mantissa.bveq (.int 0)) then
        if ← lift sign.toBool then f.initG fx (.mpfr (.inf true)) else f.initG fx (.mpfr (.inf false))
      else f.initG fx (.mpfr (.nan false))
    else
      let exp ← lift (exp.bvsub (.int f.bias))
      let s := (if ← lift (sign.getIdx 0) then ['-', '1', '.'] else ['1', '.']) ++ mantissa.binaryString ++
        ['e'] ++ pyStr (← lift exp.asSint)
      let r ← prim fx fun c => { c with precision := f.mb + 1 }.ofText s
      f.initG fx (.mpfr r))

/-- `fp_is_zero`, `fp_is_infinite`, `fp_is_NaN`, `fp_is_negative`, `fp_is_positive` (fp_vector.py:237-256). -/
def Fmt.testG (t : Mpfr → Bool) (v : Mpfr) : G Bool := f.setContext (prim fx fun _ => .ok (t v))

/-- `reinterpret_as_bv` (fp_vector.py:266-310): the tests are methods; nothing else in it depends on the context. -/
def Fmt.asBVG (v : Mpfr) : G BVal := f.setContext (do
  let _ ← f.testG fx isZero v
  let _ ← f.testG fx isInf v
  let _ ← f.testG fx isNaN v
  lift (f.asBV v))

/-- `fp_is_subnormal` (fp_vector.py:228-235). -/
def Fmt.isSubnormalG (v : Mpfr) : G Bool := f.setContext (do
  let bv ← f.asBVG fx v
  let e ← lift (bv.getSlice ⟨some f.mb, some (-1), none⟩)
  if (← lift (eqInt e 0)) && !(← f.testG fx isZero v) then
    if f.ieee then return true else throw .assertionError
  else return false)

/-- `fp_is_normal` (fp_vector.py:224-226). -/
def Fmt.isNormalG (v : Mpfr) : G Bool := f.setContext (do
  let z ← f.testG fx isZero v
  let i ← f.testG fx isInf v
  let s ← f.isSubnormalG fx v
  let n ← f.testG fx isNaN v
  return !(z || i || s || n))

/-- `to_ubv`, `to_sbv` (fp_vector.py:258-264). -/
def Fmt.toUBVG (v : Mpfr) (size : Nat) : G BVal := f.setContext (do
  let i ← prim fx fun _ => v.toInt
  lift (mkBV (.root .bv) size (.int i)))
def Fmt.toSBVG (v : Mpfr) (size : Nat) : G BVal := f.setContext (do
  let i ← prim fx fun _ => v.toInt
  lift (mkBV (.root .sint) size (.int i)))

/-- `__float__` (fp_vector.py:378-380). -/
def Fmt.toFloatG (v : Mpfr) : G Mpfr := f.setContext (prim fx fun c => .ok ({ double.ctx with round := c.round }.ofMpfr v))

/-- `random` (fp_vector.py:382-395), the draws as arguments. -/
def Fmt.randomG (neg : Bool) (u : ℚ) (exp : Int) : G Mpfr := f.setContext (do
  let m ← prim fx fun c => .ok (c.ofRat u false)
  let m ← prim fx fun c => .ok (c.ofRat (m.toRat + 1) false)
  let m ← prim fx fun c => .ok (c.ofMpfr (if neg then m.neg else m))
  let e ← prim fx fun c => .ok (c.ofRat exp false)
  let p ← prim fx fun c => .ok (c.ofRat (2 ^ ⌊e.toRat⌋) false)
  let r ← prim fx fun c => .ok (c.mul o m p)
  f.initG fx (.mpfr r))
end

/-! ### Calls -/

inductive Call2 | add | sub | mul | div | rem | min | max
  deriving DecidableEq
inductive CallCmp | leq | lt | geq | gt | eq | ne
  deriving DecidableEq
inductive Call1 | abs | neg | sqrt | rint
  deriving DecidableEq
inductive CallTest | zero | inf | nan | negative | positive
  deriving DecidableEq

/-- A call of a method of a class `f`, on an object holding `v`. -/
inductive Call
  | new (f : Fmt) (a : FArg)
  | fromBV (f : Fmt) (b : BVal)
  | random (f : Fmt) (neg : Bool) (u : ℚ) (exp : Int)
  | unary (f : Fmt) (op : Call1) (v : Mpfr)
  | binary (f : Fmt) (op : Call2) (v : Mpfr) (b : FArg)
  | fma (f : Fmt) (v : Mpfr) (b d : FArg)
  | compare (f : Fmt) (op : CallCmp) (v : Mpfr) (b : FArg)
  | test (f : Fmt) (t : CallTest) (v : Mpfr)
  | normal (f : Fmt) (v : Mpfr)
  | subnormal (f : Fmt) (v : Mpfr)
  | asBV (f : Fmt) (v : Mpfr)
  | toUBV (f : Fmt) (v : Mpfr) (n : Nat)
  | toSBV (f : Fmt) (v : Mpfr) (n : Nat)
  | float (f : Fmt) (v : Mpfr)

/-- What a call returns: an `FPVector` or a `float`, a `Bit`, a vector. -/
inductive Answer
  | num (v : Mpfr)
  | bit (b : Bool)
  | vec (b : BVal)

/-- gmpy2's function; `abs` is `v if v >= 0 else -v`. -/
def Call1.op (o : Bool) : Call1 → Ctx → Mpfr → Mpfr
  | .abs, c, v => if v.geZero then v else c.ofMpfr v.neg
  | .neg, c, v => c.ofMpfr v.neg
  | .sqrt, c, v => c.sqrt o v
  | .rint, c, v => c.rint v
def Call2.op (o : Bool) : Call2 → Ctx → Mpfr → Mpfr → Mpfr
  | .add, c => c.add o
  | .sub, c => c.sub o
  | .mul, c => c.mul o
  | .div, c => c.div o
  | .rem, c => c.rem o
  | .min, c => fun v w => c.ofMpfr (v.minnum o w)
  | .max, c => fun v w => c.ofMpfr (v.maxnum o w)
def CallCmp.op : CallCmp → Mpfr → Mpfr → Bool
  | .leq => fun v w => v.lt w || v.eq w
  | .lt => fun v w => v.lt w
  | .geq => fun v w => w.lt v || v.eq w
  | .gt => fun v w => w.lt v
  | .eq => fun v w => v.eq w
  | .ne => fun v w => !v.eq w
def CallTest.op : CallTest → Mpfr → Bool
  | .zero => isZero
  | .inf => isInf
  | .nan => isNaN
  | .negative => isNegative
  | .positive => isPositive

/-- The call, with the current context. -/
def Call.exec (fx : GCtx → Nat) (o : Bool) : Call → G Answer
  | .new f a => do return .num (← f.initG fx a)
  | .fromBV f b => do return .num (← f.fromBVG fx b)
  | .random f neg u exp => do return .num (← f.randomG fx o neg u exp)
  | .unary f op v => do return .num (← f.mapG fx (op.op o) v)
  | .binary f op v b => do return .num (← f.castG fx (op.op o) v b)
  | .fma f v b d => do return .num (← f.fmaG fx o v b d)
  | .compare f op v b => do return .bit (← f.compareG fx op.op v b)
  | .test f t v => do return .bit (← f.testG fx t.op v)
  | .normal f v => do return .bit (← f.isNormalG fx v)
  | .subnormal f v => do return .bit (← f.isSubnormalG fx v)
  | .asBV f v => do return .vec (← f.asBVG fx v)
  | .toUBV f v n => do return .vec (← f.toUBVG fx v n)
  | .toSBV f v n => do return .vec (← f.toSBVG fx v n)
  | .float f v => do return .num (← f.toFloatG fx v)

/-- The call, as modelled without a current context. -/
def Call.result (o : Bool) : Call → PyM Answer
  | .new f a => do return .num (← f.mk' a)
  | .fromBV f b => do return .num (← f.fromBV b)
  | .random f neg u exp => return .num (f.random o neg u exp)
  | .unary f op v => return .num (match op with
      | .abs => f.fpAbs v
      | .neg => f.fpNeg v
      | .sqrt => f.fpSqrt o v
      | .rint => f.fpRint v)
  | .binary f op v b => do return .num (← match op with
      | .add => f.fpAdd o v b
      | .sub => f.fpSub o v b
      | .mul => f.fpMul o v b
      | .div => f.fpDiv o v b
      | .rem => f.fpRem o v b
      | .min => f.fpMin o v b
      | .max => f.fpMax o v b)
  | .fma f v b d => do return .num (← f.fpFma o v b d)
  | .compare f op v b => do return .bit (← match op with
      | .leq => f.fpLeq v b
      | .lt => f.fpLt v b
      | .geq => f.fpGeq v b
      | .gt => f.fpGt v b
      | .eq => f.fpEq v b
      | .ne => f.fpNe v b)
  | .test _ t v => return .bit (t.op v)
  | .normal f v => do return .bit (← f.isNormal v)
  | .subnormal f v => do return .bit (← f.isSubnormal v)
  | .asBV f v => do return .vec (← f.asBV v)
  | .toUBV _ v n => do return .vec (← Fp.toUBV v n)
  | .toSBV _ v n => do return .vec (← Fp.toSBV v n)
  | .float f v => return .num (f.toFloat v)

/-- A program: it calls methods, catching what they raise, and sets the current context or computes in it. -/
inductive Step
  | call (c : Call)
  | set (s : GCtx)

/-- The answers of a program run, and the context after each step. -/
def runSteps (fx : GCtx → Nat) (o : Bool) : List Step → GCtx → List (PyM Answer) × List GCtx
  | [], _ => ([], [])
  | .call c :: l, s =>
      let (r, s') := c.exec fx o s
      let (rs, ss) := runSteps fx o l s'
      (r :: rs, s' :: ss)
  | .set s' :: l, _ =>
      let (rs, ss) := runSteps fx o l s'
      (rs, s' :: ss)

end HW.Fp
