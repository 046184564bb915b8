import Verif.Model.Fp.Vector

/-!
# `FPVector` arithmetic and comparison (hwtypes/fp_vector.py:140-222, 363-376)

The operations of MPFR on special values follow its manual: the sign of a NaN result is left open there, so
every operation takes it as an argument `o`; a sum that is exactly zero is `-0` only when both terms are
signed or the context rounds down.  Traps are off (`gmpy2.context` defaults), `allow_complex=False`.
`fp_sqrt` is in `Verif.Model.Fp.Sqrt`.
-/

namespace HW.Fp

/-- Sign of an exactly zero sum of terms with signs `s`, `t`. -/
def Ctx.zeroSign (c : Ctx) (s t : Bool) : Bool := if s = t then s else decide (c.round = .down)

/-- `+` on `mpfr`. -/
def Ctx.add (c : Ctx) (o : Bool) : Mpfr → Mpfr → Mpfr
  | .nan _, _ => .nan o
  | _, .nan _ => .nan o
  | .inf s, .inf t => if s = t then .inf s else .nan o
  | .inf s, _ => .inf s
  | _, .inf t => .inf t
  | a, b => c.ofRat (a.toRat + b.toRat) (c.zeroSign a.isSigned b.isSigned)

/-- `-` on `mpfr`. -/
def Ctx.sub (c : Ctx) (o : Bool) : Mpfr → Mpfr → Mpfr
  | .nan _, _ => .nan o
  | _, .nan _ => .nan o
  | .inf s, .inf t => if s ≠ t then .inf s else .nan o
  | .inf s, _ => .inf s
  | _, .inf t => .inf !t
  | a, b => c.ofRat (a.toRat - b.toRat) (c.zeroSign a.isSigned !b.isSigned)

/-- `*` on `mpfr`. -/
def Ctx.mul (c : Ctx) (o : Bool) : Mpfr → Mpfr → Mpfr
  | .nan _, _ => .nan o
  | _, .nan _ => .nan o
  | .inf _, .zero _ => .nan o
  | .zero _, .inf _ => .nan o
  | .inf s, b => .inf (s ^^ b.isSigned)
  | a, .inf t => .inf (a.isSigned ^^ t)
  | a, b => c.ofRat (a.toRat * b.toRat) (a.isSigned ^^ b.isSigned)

/-- `/` on `mpfr`. -/
def Ctx.div (c : Ctx) (o : Bool) : Mpfr → Mpfr → Mpfr
  | .nan _, _ => .nan o
  | _, .nan _ => .nan o
  | .inf _, .inf _ => .nan o
  | .zero _, .zero _ => .nan o
  | .inf s, b => .inf (s ^^ b.isSigned)
  | a, .inf t => .zero (a.isSigned ^^ t)
  | a, .zero t => .inf (a.isSigned ^^ t)
  | a, b => c.ofRat (a.toRat / b.toRat) (a.isSigned ^^ b.isSigned)

/-- The exact product of two `mpfr`s that are not NaN, as a special value or a rational with a sign. -/
inductive Exact
  | nan
  | inf (s : Bool)
  | fin (x : ℚ) (s : Bool)

def exactMul : Mpfr → Mpfr → Exact
  | .nan _, _ => .nan
  | _, .nan _ => .nan
  | .inf _, .zero _ => .nan
  | .zero _, .inf _ => .nan
  | .inf s, b => .inf (s ^^ b.isSigned)
  | a, .inf t => .inf (a.isSigned ^^ t)
  | a, b => .fin (a.toRat * b.toRat) (a.isSigned ^^ b.isSigned)

/-- `gmpy2.fma(a, b, c) = a * b + c`, rounded once. -/
def Ctx.fma (c : Ctx) (o : Bool) (a b d : Mpfr) : Mpfr :=
  match exactMul a b, d with
  | .nan, _ => .nan o
  | _, .nan _ => .nan o
  | .inf s, .inf t => if s = t then .inf s else .nan o
  | .inf s, _ => .inf s
  | .fin _ _, .inf t => .inf t
  | .fin x s, d => c.ofRat (x + d.toRat) (c.zeroSign s d.isSigned)

/-- The integer nearest to `t`, ties to even. -/
def nearestEven (t : ℚ) : Int :=
  let lo := ⌊t⌋
  let frac := t - lo
  if frac < 1 / 2 then lo
  else if 1 / 2 < frac then lo + 1
  else if lo % 2 = 0 then lo else lo + 1

/-- `gmpy2.remainder`: `a - n * b`, `n` the integer nearest to `a / b`. -/
def Ctx.rem (c : Ctx) (o : Bool) : Mpfr → Mpfr → Mpfr
  | .nan _, _ => .nan o
  | _, .nan _ => .nan o
  | .inf _, _ => .nan o
  | _, .zero _ => .nan o
  | a, .inf _ => c.ofMpfr a
  | a, b => c.ofRat (a.toRat - nearestEven (a.toRat / b.toRat) * b.toRat) a.isSigned

/-- `gmpy2.rint`: to an integer in the context's mode. -/
def Ctx.rint (c : Ctx) : Mpfr → Mpfr
  | .fin s m e => c.ofRat ((if s then -1 else 1) * roundMag c.round s (m * 2 ^ e)) s
  | v => v

/-- `a < b`, `a == b` on `mpfr`; false when one is a NaN. -/
def Mpfr.lt : Mpfr → Mpfr → Bool
  | .nan _, _ => false
  | _, .nan _ => false
  | .inf s, .inf t => s && !t
  | .inf s, _ => s
  | _, .inf t => !t
  | a, b => decide (a.toRat < b.toRat)

def Mpfr.eq : Mpfr → Mpfr → Bool
  | .nan _, _ => false
  | _, .nan _ => false
  | .inf s, .inf t => s == t
  | .inf _, _ => false
  | _, .inf _ => false
  | a, b => decide (a.toRat = b.toRat)

/-- `gmpy2.minnum`, `gmpy2.maxnum`: a NaN gives way to a number; `-0 < +0`. -/
def Mpfr.minnum (o : Bool) : Mpfr → Mpfr → Mpfr
  | .nan _, .nan _ => .nan o
  | .nan _, b => b
  | a, .nan _ => a
  | .zero s, .zero t => .zero (s || t)
  | a, b => if a.lt b then a else b

def Mpfr.maxnum (o : Bool) : Mpfr → Mpfr → Mpfr
  | .nan _, .nan _ => .nan o
  | .nan _, b => b
  | a, .nan _ => a
  | .zero s, .zero t => .zero (s && t)
  | a, b => if b.lt a then a else b

/-! ### Arguments of the constructor -/

/-- The format of python's `float`. -/
def double : Fmt := ⟨11, 52, .RNE, true⟩

/-- `float(x)` of an object of value `x` that is no `float` (`fractions.Fraction`, an integer of numpy): the
nearest `float`, ties to even; a number past the largest raises.  (`Decimal` returns an infinity there.) -/
def pyFloat (x : ℚ) : PyM Mpfr :=
  match double.ctx.ofRat x false with
  | .inf _ => .error .overflowError
  | v => .ok v

/-- What may be handed to `FPVector.__init__` or stand on the right of an operator.  How gmpy2 reads a string
is not modelled, only what it takes it for. -/
inductive FArg
  /-- An `FPVector` of some format. -/
  | fp (g : Fmt) (v : Mpfr)
  /-- An `mpfr`, or a `float` that is not finite. -/
  | mpfr (v : Mpfr)
  /-- An `int`, `float`, `mpz`, `mpq`. -/
  | num (x : ℚ) (negZero : Bool)
  /-- A string `gmpy2.mpfr` reads as the number `x`, such as '0.5'; `neg` for '-0'. -/
  | text (x : ℚ) (neg : Bool)
  /-- A string only `gmpy2.mpq` reads, such as '1/2'; '1/0' has no value. -/
  | ratio (x : Option ℚ)
  /-- A string neither reads. -/
  | badText
  /-- A foreign object of value `x` with `__float__`. -/
  | foreign (x : ℚ)
  /-- A vector: it has `__int__` and no `__float__`. -/
  | vec (b : BVal)
  /-- Anything `gmpy2.mpfr` raises `TypeError` for. -/
  | bad

/-- `FPVector.__init__` (fp_vector.py:44-82). -/
def Fmt.mk' (f : Fmt) : FArg → PyM Mpfr
  | .fp _ v => .ok (f.ofMpfr v)
  | .mpfr v => .ok (f.ofMpfr v)
  | .num x z => .ok (f.ofRat x z)
  | .text x neg => .ok (f.ofRat x neg)
  | .ratio (some x) => .ok (f.ofRat x false)
  | .ratio none => .error .zeroDivisionError
  | .badText => .error .valueError
  | .foreign x => do
      let v ← pyFloat x
      .ok (f.ofRat v.toRat v.isSigned)
  | .vec b => do
      let i ← b.toInt
      .ok (f.ofRat (i : ℚ) false)
  | .bad => .error .typeError

/-- `float(self)` (fp_vector.py:378-380): `mpfr_get_d` in the rounding mode of the context. -/
def Fmt.toFloat (f : Fmt) (v : Mpfr) : Mpfr := { double.ctx with round := f.mode.gmpy }.ofMpfr v

/-- `cls(float)`: an infinity or a NaN is read as it is. -/
def floatArg : Mpfr → FArg
  | .fin s m e => .num (Mpfr.fin s m e).toRat s
  | .zero s => .num 0 s
  | v => .mpfr v

/-- `_coerce` (fp_vector.py:20-26). -/
def Fmt.coerce (f : Fmt) : FArg → PyM Mpfr
  | .fp g v => if g ≠ f then .error .typeError else .ok v
  | a => f.mk' a

/-! ### Methods (`self` an object of `f` holding `v`) -/

section
variable (f : Fmt) (o : Bool) (v : Mpfr)

/-- `fp_add` (fp_vector.py:149-152). -/
def Fmt.fpAdd (b : FArg) : PyM Mpfr := do return f.ofMpfr (f.ctx.add o v (← f.coerce b))
/-- `fp_sub` (154-157). -/
def Fmt.fpSub (b : FArg) : PyM Mpfr := do return f.ofMpfr (f.ctx.sub o v (← f.coerce b))
/-- `fp_mul` (159-162). -/
def Fmt.fpMul (b : FArg) : PyM Mpfr := do return f.ofMpfr (f.ctx.mul o v (← f.coerce b))
/-- `fp_div` (164-167). -/
def Fmt.fpDiv (b : FArg) : PyM Mpfr := do return f.ofMpfr (f.ctx.div o v (← f.coerce b))
/-- `fp_fma` (169-174). -/
def Fmt.fpFma (b d : FArg) : PyM Mpfr := do
  let b ← f.coerce b
  let d ← f.coerce d
  return f.ofMpfr (f.ctx.fma o v b d)
/-- `fp_rem` (180-183). -/
def Fmt.fpRem (b : FArg) : PyM Mpfr := do return f.ofMpfr (f.ctx.rem o v (← f.coerce b))
/-- `fp_round_to_integral` (185-187). -/
def Fmt.fpRint : Mpfr := f.ofMpfr (f.ctx.rint v)
/-- `fp_min`, `fp_max` (189-197). -/
def Fmt.fpMin (b : FArg) : PyM Mpfr := do return f.ofMpfr (Mpfr.minnum o v (← f.coerce b))
def Fmt.fpMax (b : FArg) : PyM Mpfr := do return f.ofMpfr (Mpfr.maxnum o v (← f.coerce b))
/-- `fp_leq`, `fp_lt`, `fp_geq`, `fp_gt`, `fp_eq`, `__ne__` (199-222, 372). -/
def Fmt.fpLeq (b : FArg) : PyM Bool := do
  let w ← f.coerce b
  return v.lt w || v.eq w
def Fmt.fpLt (b : FArg) : PyM Bool := do return v.lt (← f.coerce b)
def Fmt.fpGeq (b : FArg) : PyM Bool := do
  let w ← f.coerce b
  return w.lt v || v.eq w
def Fmt.fpGt (b : FArg) : PyM Bool := do return (← f.coerce b).lt v
def Fmt.fpEq (b : FArg) : PyM Bool := do return v.eq (← f.coerce b)
def Fmt.fpNe (b : FArg) : PyM Bool := do return !(← f.fpEq v b)
end

end HW.Fp
