import Verif.Model.Fp.Arith

/-!
# `FPVector.random` (fp_vector.py:382-395)

The results of the random number generators are arguments.  Of gmpy2 it is assumed: `mpfr_random` is a real
number of `[0, 1)` (here a rational) rounded once in the context; `mpfr + 1` and `mpfr * ±1` are the exact
results rounded once; `2 ** e` for an integral `e` is the power rounded once.
-/

namespace HW.Fp

/-- `gmpy2.mpfr_random(gmpy2.random_state()) + 1` (387, 392), where the real number drawn is `u`. -/
def Fmt.drawMantissa (f : Fmt) (u : ℚ) : Mpfr := f.ctx.ofRat ((f.ctx.ofRat u false).toRat + 1) false

/-- `gmpy2.mpfr(2)**gmpy2.mpfr(exp)` (389, 394); `mpfr(exp)` is an integer, also when it is rounded. -/
def Fmt.drawPower (f : Fmt) (exp : Int) : Mpfr := f.ctx.ofRat (2 ^ ⌊(f.ctx.ofRat exp false).toRat⌋) false

/-- `random(allow_inf)`; `neg` is the choice of `sign = -1`, `o` the sign of a NaN product. -/
def Fmt.random (f : Fmt) (o neg : Bool) (u : ℚ) (exp : Int) : Mpfr :=
  let m := f.drawMantissa u
  f.ofMpfr (f.ctx.mul o (f.ctx.ofMpfr (if neg then m.neg else m)) (f.drawPower exp))

/-- The bounds of `random.randint` (388, 393). -/
def Fmt.Draws (f : Fmt) (allowInf : Bool) (u : ℚ) (exp : Int) : Prop :=
  0 ≤ u ∧ u < 1 ∧ 1 - f.bias ≤ exp ∧ exp ≤ (if allowInf then f.bias + 1 else f.bias)

end HW.Fp
