import Mathlib.Data.Nat.Sqrt
import Verif.Model.Fp.Arith

/-!
# `fp_sqrt` (hwtypes/fp_vector.py:176-178)

`gmpy2.sqrt` returns the square root rounded once.  The root is irrational in general; it is computed here to
`k` binary places, with half a unit added when it is not exact, and that rational is rounded.  That this is
the correctly rounded root is proved against the real square root (`Verif.Props.FpSqrt`), not assumed.
-/

namespace HW.Fp

/-- `⌊√x * 2^k⌋ / 2^k`, and half a unit more when that is not `√x`. -/
def sqrtAt (k : Nat) (x : ℚ) : ℚ :=
  let y := x * 4 ^ k
  let q := Nat.sqrt ⌊y⌋.toNat
  if (q : ℚ) * q = y then q / 2 ^ k else (q + 1 / 2) / 2 ^ k

/-- Binary places enough for every number of the context and every midpoint of two of them. -/
def Ctx.places (c : Ctx) : Nat := c.precision + c.emax.toNat

/-- `gmpy2.sqrt` with `allow_complex=False`. -/
def Ctx.sqrt (c : Ctx) (o : Bool) : Mpfr → Mpfr
  | .nan _ => .nan o
  | .inf s => if s then .nan o else .inf false
  | .zero s => .zero s
  | .fin s m e => if s then .nan o else c.ofRat (sqrtAt c.places (Mpfr.fin s m e).toRat) false

/-- `fp_sqrt` (fp_vector.py:176-178). -/
def Fmt.fpSqrt (f : Fmt) (o : Bool) (v : Mpfr) : Mpfr := f.ofMpfr (f.ctx.sqrt o v)

end HW.Fp
