import Verif.Model.Fp.Mpfr
import Verif.Model.BitVector

/-!
# `FPVector` (hwtypes/fp_vector.py)

The codec, the context, the classification predicates, sign operations and the conversion to vectors.
The warnings are not modelled.
-/

namespace HW.Fp

/-- `RoundingMode` (fp_vector_abc.py:9-14). -/
inductive Mode | RNE | RNA | RTP | RTN | RTZ
  deriving DecidableEq, Repr

/-- `_mode_2_gmpy2` (fp_vector.py:12-18). -/
def Mode.gmpy : Mode → GMode
  | .RNE => .toNearest
  | .RNA => .awayZero
  | .RTP => .up
  | .RTN => .down
  | .RTZ => .toZero

/-- A bound class `FPVector[eb, mb, mode, ieee]`; `T[..]` rejects non-positive sizes
(fp_vector_abc.py:60-61). -/
structure Fmt where
  eb : Nat
  mb : Nat
  mode : Mode
  ieee : Bool
  deriving DecidableEq, Repr

def Fmt.Ok (f : Fmt) : Prop := 0 < f.eb ∧ 0 < f.mb

/-- `size` (fp_vector_abc.py:81-83). -/
def Fmt.size (f : Fmt) : Nat := 1 + f.eb + f.mb

/-- `bias` (fp_vector.py:283, 323). -/
def Fmt.bias (f : Fmt) : Int := 2 ^ (f.eb - 1) - 1

/-- `_ctx_` (fp_vector.py:84-105). -/
def Fmt.ctx (f : Fmt) : Ctx :=
  let precision := f.mb + 1
  let emax : Int := 2 ^ (f.eb - 1)
  let emin : Int := if f.ieee then 4 - emax - precision else 3 - emax
  ⟨precision, emin, emax, f.mode.gmpy, f.ieee⟩

/-- The end of `FPVector.__init__` (fp_vector.py:75-82): without IEEE compliance a NaN becomes an
infinity of its sign. -/
def Fmt.finish (f : Fmt) (v : Mpfr) : Mpfr :=
  match v with
  | .nan s => if f.ieee then .nan s else .inf s
  | v => v

/-- `cls(mpfr)`, `cls(FPVector)` (fp_vector.py:46-51). -/
def Fmt.ofMpfr (f : Fmt) (v : Mpfr) : Mpfr := f.finish (f.ctx.ofMpfr v)

/-- `cls(number)` for an `int`, `float`, `mpz` or `mpq` with the finite value `x` (fp_vector.py:52-53);
these have no negative zero but `float`'s. -/
def Fmt.ofRat (f : Fmt) (x : ℚ) (negZero : Bool) : Mpfr := f.finish (f.ctx.ofRat x negZero)

/-- `if vector == number`. -/
def eqInt (x : BVal) (v : Int) : PyM Bool := x.bveq (.int v)

/-- `reinterpret_from_bv` (fp_vector.py:314-360). -/
def Fmt.fromBV (f : Fmt) (value : BVal) : PyM Mpfr := do
  if f.size ≠ value.size then .error .typeError
  else
    let mantissa ← value.getSlice ⟨none, some f.mb, none⟩
    let exp ← value.getSlice ⟨some f.mb, some (-1), none⟩
    let sign ← value.getSlice ⟨some (-1), none, none⟩
    if exp.size ≠ f.eb then .error .assertionError
    else if ← eqInt exp 0 then
      if ← mantissa.bvne (.int 0) then
        if ¬ f.ieee then
          if ← sign.getIdx 0 then return f.finish (.zero true) else return f.finish (.zero false)
        else
          let x := 1 - f.bias
          let s := (if ← sign.getIdx 0 then ['-', '0', '.'] else ['0', '.']) ++ mantissa.binaryString ++
            ['e'] ++ pyStr x
          return f.ofMpfr (← f.ctx.ofText s)
      else if ← sign.getIdx 0 then return f.finish (.zero true)
      else return f.finish (.zero false)
    else if ← eqInt exp (-1) then
      if ← mantissa.bveq (.int 0) then
        if ← sign.toBool then return f.finish (.inf true) else return f.finish (.inf false)
      else return f.finish (.nan false)
    else
      let exp ← exp.bvsub (.int f.bias)
      let s := (if ← sign.getIdx 0 then ['-', '1', '.'] else ['1', '.']) ++ mantissa.binaryString ++
        ['e'] ++ pyStr (← exp.asSint)
      return f.ofMpfr (← f.ctx.ofText s)

/-- `while exp < 1 - bias: mantissa_int >>= 1; exp += 1` (fp_vector.py:295-297), `n` rounds. -/
def shiftLoop : Nat → Int → Int
  | 0, m => m
  | n + 1, m => shiftLoop n (Int.fdiv m 2)

/-- `reinterpret_as_bv` (fp_vector.py:267-310) of a value. -/
def Fmt.asBV (f : Fmt) (v : Mpfr) : PyM BVal := do
  let bv := Kind.root .bv
  let signBit ← mkBV bv 1 (.bool v.isSigned)
  match v with
  | .zero _ => do
      let z ← mkBV bv (f.size - 1) (.int 0)
      z.concat signBit
  | .inf _ => do
      let e ← mkBV bv f.eb (.int (-1))
      let m ← mkBV bv f.mb (.int 0)
      (← m.concat e).concat signBit
  | .nan _ => do
      let e ← mkBV bv f.eb (.int (-1))
      let m ← mkBV bv f.mb (.int 1)
      (← m.concat e).concat signBit
  | .fin neg m e => do
      let mant : Int := if neg then -m else m
      let exp : Int := e + f.mb
      let (mant, exp) :=
        if exp < 1 - f.bias then
          (if ¬ f.ieee then (0, 0) else (shiftLoop (1 - f.bias - exp).toNat mant, 0))
        else (mant, exp + f.bias)
      if ¬ pyBitLength exp ≤ f.eb then .error .assertionError
      else
        let m' ← mkBV bv (f.mb + 1) (.other (some mant) none)
        let mantissa ← if ← signBit.toBool then m'.bvneg else pure m'
        let e ← mkBV bv f.eb (.other (some exp) none)
        let mb ← mantissa.getSlice ⟨none, some f.mb, none⟩
        (← mb.concat e).concat signBit

/-- `fp_is_zero`, `fp_is_infinite`, `fp_is_NaN` (fp_vector.py:238-248). -/
def isZero : Mpfr → Bool
  | .zero _ => true
  | _ => false
def isInf : Mpfr → Bool
  | .inf _ => true
  | _ => false
def isNaN : Mpfr → Bool
  | .nan _ => true
  | _ => false

/-- `fp_is_subnormal` (fp_vector.py:228-235). -/
def Fmt.isSubnormal (f : Fmt) (v : Mpfr) : PyM Bool := do
  let bv ← f.asBV v
  let e ← bv.getSlice ⟨some f.mb, some (-1), none⟩
  if (← eqInt e 0) && !isZero v then
    if f.ieee then return true else .error .assertionError
  else return false

/-- `fp_is_normal` (fp_vector.py:224-226). -/
def Fmt.isNormal (f : Fmt) (v : Mpfr) : PyM Bool := do
  return !(isZero v || isInf v || (← f.isSubnormal v) || isNaN v)

/-- `fp_is_negative`, `fp_is_positive` (fp_vector.py:250-256): comparisons with 0. -/
def isNegative : Mpfr → Bool
  | .inf s => s
  | .fin s _ _ => s
  | _ => false
def isPositive : Mpfr → Bool
  | .inf s => !s
  | .fin s _ _ => !s
  | _ => false

/-- `-v` on `mpfr`. -/
def Mpfr.neg : Mpfr → Mpfr
  | .nan s => .nan (!s)
  | .inf s => .inf (!s)
  | .zero s => .zero (!s)
  | .fin s m e => .fin (!s) m e

/-- `fp_neg` (fp_vector.py:145-147). -/
def Fmt.fpNeg (f : Fmt) (v : Mpfr) : Mpfr := f.ofMpfr v.neg

/-- `v >= 0` on `mpfr`. -/
def Mpfr.geZero : Mpfr → Bool
  | .nan _ => false
  | .zero _ => true
  | .inf s => !s
  | .fin s _ _ => !s

/-- `fp_abs` (fp_vector.py:140-143): `v if v >= 0 else -v`. -/
def Fmt.fpAbs (f : Fmt) (v : Mpfr) : Mpfr := f.ofMpfr (if v.geZero then v else v.neg)

/-- `int(mpfr)`: truncation; `inf` raises `OverflowError`, `nan` `ValueError`. -/
def Mpfr.toInt : Mpfr → PyM Int
  | .zero _ => .ok 0
  | .fin s m e =>
      let a : Int := if 0 ≤ e then m * 2 ^ e.toNat else m / 2 ^ (-e).toNat
      .ok (if s then -a else a)
  | .inf _ => .error .overflowError
  | .nan _ => .error .valueError

/-- `to_ubv`, `to_sbv` (fp_vector.py:258-264). -/
def toUBV (v : Mpfr) (size : Nat) : PyM BVal := do mkBV (.root .bv) size (.int (← v.toInt))
def toSBV (v : Mpfr) (size : Nat) : PyM BVal := do mkBV (.root .sint) size (.int (← v.toInt))

end HW.Fp
