import Mathlib.Data.Int.Log
import Mathlib.Data.Rat.Floor
import Verif.Py.Basic

/-!
# MPFR numbers as gmpy2 hands them out

gmpy2 and MPFR are not part of the repository.  What is assumed of them:

* an `mpfr` of precision `p` is a NaN, an infinity, a zero (each with a sign bit) or `± m * 2^e` with
  `2^(p-1) ≤ m < 2^p`; `as_mantissa_exp` returns `(± m, e)`, `is_signed` the sign bit;
* an operation in a context returns the exact result rounded *once* to the numbers of the context
  (precision, exponent range, and gradual underflow with `subnormalize=True`), in the context's rounding
  mode; a number is in range iff it is `0.1… * 2^E` with `emin ≤ E ≤ emax`;
* `mpfr('nan')` has sign bit 0; `mpfr(text, prec, 2)` reads `[-]d.ddd…e[-]ddd` with binary digits, decimal
  exponent and base 2.

gmpy2's own limits on precision and exponent range are not modelled.
-/

namespace HW.Fp

inductive Mpfr
  | nan (neg : Bool)
  | inf (neg : Bool)
  | zero (neg : Bool)
  /-- `± m * 2^e`. -/
  | fin (neg : Bool) (m : Nat) (e : Int)
  deriving DecidableEq, Repr

/-- gmpy2's rounding modes (MPFR_RNDN, RNDA, RNDU, RNDD, RNDZ). -/
inductive GMode | toNearest | awayZero | up | down | toZero
  deriving DecidableEq, Repr

/-- `gmpy2.context(precision=, emin=, emax=, round=, subnormalize=)`. -/
structure Ctx where
  precision : Nat
  emin : Int
  emax : Int
  round : GMode
  subnormalize : Bool
  deriving DecidableEq, Repr

/-- Rounding of a magnitude `a ≥ 0`, in units of the last place, of a number with sign `neg`. -/
def roundMag (r : GMode) (neg : Bool) (a : ℚ) : Nat :=
  let lo := ⌊a⌋.toNat
  let frac := a - lo
  if frac = 0 then lo
  else match r with
    | .toZero => lo
    | .awayZero => lo + 1
    | .up => if neg then lo else lo + 1
    | .down => if neg then lo + 1 else lo
    | .toNearest =>
        if frac < 1 / 2 then lo
        else if 1 / 2 < frac then lo + 1
        else if lo % 2 = 0 then lo else lo + 1

/-- The significand of `r * 2^q` as an MPFR number of precision `p` has it (`r > 0`). -/
def normalize (p : Nat) (neg : Bool) (r : Nat) (q : Int) : Mpfr :=
  let b := Nat.log2 r + 1
  if b ≤ p then .fin neg (r * 2 ^ (p - b)) (q - (p - b : Nat))
  else .fin neg (r / 2 ^ (b - p)) (q + (b - p : Nat))

/-- The result of an overflow. -/
def overflow (c : Ctx) (neg : Bool) : Mpfr :=
  let toInf := match c.round with
    | .toNearest | .awayZero => true
    | .toZero => false
    | .up => !neg
    | .down => neg
  if toInf then .inf neg else .fin neg (2 ^ c.precision - 1) (c.emax - c.precision)

/-- Exponent of the unit in the last place at magnitude `a > 0`. -/
def quantum (c : Ctx) (a : ℚ) : Int :=
  let e := Int.log 2 a + 1
  if c.subnormalize ∨ e < c.emin then max (e - c.precision) (c.emin - 1) else e - c.precision

/-- The rational `x` in the context; `negZero` is the sign of the result for `x = 0`. -/
def Ctx.ofRat (c : Ctx) (x : ℚ) (negZero : Bool) : Mpfr :=
  if x = 0 then .zero negZero
  else
    let neg : Bool := decide (x < 0)
    let a := |x|
    let q := quantum c a
    let r := roundMag c.round neg (a / 2 ^ q)
    if r = 0 then .zero neg
    else if (2 : ℚ) ^ c.emax ≤ r * 2 ^ q then overflow c neg
    else normalize c.precision neg r q

/-- The number a finite `mpfr` denotes. -/
def Mpfr.toRat : Mpfr → ℚ
  | .fin neg m e => (if neg then -1 else 1) * m * 2 ^ e
  | _ => 0

/-- `gmpy2.is_signed`. -/
def Mpfr.isSigned : Mpfr → Bool
  | .nan s => s
  | .inf s => s
  | .zero s => s
  | .fin s _ _ => s

/-- `gmpy2.mpfr(v, precision)` of an `mpfr` in a context. -/
def Ctx.ofMpfr (c : Ctx) (v : Mpfr) : Mpfr :=
  match v with
  | .fin neg m e => c.ofRat ((Mpfr.fin neg m e).toRat) neg
  | v => v

/-! ### Binary text -/

/-- Value of binary digits, most significant first. -/
def ofBin (l : List Char) : Nat := l.foldl (fun a c => 2 * a + (if c = '1' then 1 else 0)) 0

/-- Value of decimal digits. -/
def ofDec (l : List Char) : Nat := l.foldl (fun a c => 10 * a + (c.toNat - 48)) 0

def isBin (c : Char) : Bool := c == '0' || c == '1'

/-- A leading `-`. -/
def stripSign : List Char → Bool × List Char
  | [] => (false, [])
  | c :: l => if c = '-' then (true, l) else (false, c :: l)

/-- `[-]ddd`. -/
def parseInt (l : List Char) : Option Int :=
  let (neg, l) := stripSign l
  if l ≠ [] ∧ l.all Char.isDigit then some (if neg then -(ofDec l : Int) else ofDec l) else none

/-- `ddd…e[-]ddd`, the digits binary, after the digits `int` before the point. -/
def parseFrac (neg : Bool) (int : List Char) (l : List Char) : Option (Bool × ℚ) :=
  let frac := l.takeWhile isBin
  match l.dropWhile isBin with
  | [] => none
  | c :: l =>
      if c = 'e' then
        match parseInt l with
        | some x => some (neg, (ofBin (int ++ frac) : ℚ) * 2 ^ (x - (frac.length : Int)))
        | none => none
      else none

/-- `[-]d.ddd…e[-]ddd` in base 2: sign, magnitude. -/
def parseBin (l : List Char) : Option (Bool × ℚ) :=
  let (neg, l) := stripSign l
  match l.dropWhile isBin with
  | [] => none
  | c :: r => if c = '.' then parseFrac neg (l.takeWhile isBin) r else none

/-- `gmpy2.mpfr(text, prec, 2)` in a context. -/
def Ctx.ofText (c : Ctx) (l : List Char) : PyM Mpfr :=
  match parseBin l with
  | some (neg, a) => .ok (c.ofRat (if neg then -a else a) neg)
  | none => .error .valueError

end HW.Fp
