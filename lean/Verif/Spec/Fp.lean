import Verif.Model.Fp.Vector
import Verif.Spec.Vector

/-!
# Specification vocabulary for floating point

Only the *data types* of the model (`Mpfr`, `Fmt`, `Mode`) are used, and no function of it except in
`Fmt.Object`, which names the constructors of the class.
-/

namespace HW.Fp

/-- What an IEEE bit pattern denotes; `num x` with `x ≠ 0`. -/
inductive Datum
  | nan
  | inf (neg : Bool)
  | zero (neg : Bool)
  | num (x : ℚ)
  deriving DecidableEq

def sgn (s : Bool) : ℚ := if s then -1 else 1

/-- The datum an `mpfr` object stands for. -/
def Mpfr.datum : Mpfr → Datum
  | .nan _ => .nan
  | .inf s => .inf s
  | .zero s => .zero s
  | .fin s m e => .num (sgn s * m * 2 ^ e)

/-- The bit pattern with sign `s`, biased exponent `E` and fraction `M`. -/
def Fmt.pattern (f : Fmt) (s : Bool) (E M : Nat) : Int :=
  (if s then 1 else 0) * 2 ^ (f.eb + f.mb) + E * 2 ^ f.mb + M

/-- IEEE 754 value of the pattern `s|E|M`. -/
def Fmt.ieeeValue (f : Fmt) (s : Bool) (E M : Nat) : Datum :=
  let bias : Int := 2 ^ (f.eb - 1) - 1
  if E = 2 ^ f.eb - 1 then (if M = 0 then .inf s else .nan)
  else if E = 0 then (if M = 0 then .zero s else .num (sgn s * (M / 2 ^ f.mb) * 2 ^ (1 - bias)))
  else .num (sgn s * (1 + M / 2 ^ f.mb) * 2 ^ ((E : Int) - bias))

/-- Value of the pattern in a non-IEEE format: no NaN, no subnormals. -/
def Fmt.flushValue (f : Fmt) (s : Bool) (E M : Nat) : Datum :=
  match f.ieeeValue s E M with
  | .nan => .inf false
  | .num x => if E = 0 then .zero s else .num x
  | d => d

/-- The value a format gives to a pattern. -/
def Fmt.value (f : Fmt) (s : Bool) (E M : Nat) : Datum :=
  if f.ieee then f.ieeeValue s E M else f.flushValue s E M

/-- `E` and `M` fit their fields. -/
def Fmt.Fields (f : Fmt) (E M : Nat) : Prop := E < 2 ^ f.eb ∧ M < 2 ^ f.mb

instance (f : Fmt) : Decidable f.Ok := inferInstanceAs (Decidable (_ ∧ _))
instance (f : Fmt) (E M : Nat) : Decidable (f.Fields E M) := inferInstanceAs (Decidable (_ ∧ _))

/-- A NaN without its sign. -/
def Mpfr.plainNaN : Mpfr → Mpfr
  | .nan _ => .nan false
  | v => v

/-- The finite numbers of a format, zero included. -/
def Fmt.Finite (f : Fmt) (y : ℚ) : Prop :=
  y = 0 ∨ ∃ s E M, f.Fields E M ∧ f.value s E M = .num y

/-- The values the objects of a format hold: whatever its constructors return. -/
inductive Fmt.Object (f : Fmt) : Mpfr → Prop
  | number (x : ℚ) (negZero : Bool) : Fmt.Object f (f.ofRat x negZero)
  | mpfr (v : Mpfr) : Fmt.Object f (f.ofMpfr v)
  | bits {b : BVal} {v : Mpfr} : b.WF → f.fromBV b = .ok v → Fmt.Object f v

/-- The number a finite datum denotes. -/
def Datum.fin? : Datum → Option ℚ
  | .num y => some y
  | .zero _ => some 0
  | _ => none

/-! ### Rounding as IEEE 754 (4.3) has it -/

/-- Toward `-∞`: the greatest number of the format not above `x`, else `-∞`. -/
def Fmt.IsRTN (f : Fmt) (x : ℚ) (d : Datum) : Prop :=
  (∃ y, d.fin? = some y ∧ f.Finite y ∧ y ≤ x ∧ ∀ y', f.Finite y' → y' ≤ x → y' ≤ y) ∨
  (d = .inf true ∧ ∀ y', f.Finite y' → x < y')

/-- Toward `+∞`. -/
def Fmt.IsRTP (f : Fmt) (x : ℚ) (d : Datum) : Prop :=
  (∃ y, d.fin? = some y ∧ f.Finite y ∧ x ≤ y ∧ ∀ y', f.Finite y' → x ≤ y' → y ≤ y') ∨
  (d = .inf false ∧ ∀ y', f.Finite y' → y' < x)

/-- Toward zero. -/
def Fmt.IsRTZ (f : Fmt) (x : ℚ) (d : Datum) : Prop :=
  ∃ y, d.fin? = some y ∧ f.Finite y ∧ |y| ≤ |x| ∧ 0 ≤ x * y ∧ ∀ y', f.Finite y' → |y'| ≤ |x| → |y'| ≤ |y|

/-- Away from zero (not an IEEE mode). -/
def Fmt.IsAway (f : Fmt) (x : ℚ) (d : Datum) : Prop :=
  (∃ y, d.fin? = some y ∧ f.Finite y ∧ |x| ≤ |y| ∧ 0 ≤ x * y ∧ ∀ y', f.Finite y' → |x| ≤ |y'| → |y| ≤ |y'|) ∨
  (d = .inf (decide (x < 0)) ∧ ∀ y', f.Finite y' → |y'| < |x|)

/-- `2^bias * (2 - 2^-(mb+1))`: rounding to nearest gives infinity from here on. -/
def Fmt.overflowThreshold (f : Fmt) : ℚ := 2 ^ (2 ^ (f.eb - 1) - 1 : Int) * (2 - 1 / 2 ^ (f.mb + 1))

/-- To nearest; `tie y` says which of two equally near numbers may be chosen. -/
def Fmt.IsNearest (f : Fmt) (x : ℚ) (d : Datum) (tie : ℚ → Prop) : Prop :=
  (∃ y, d.fin? = some y ∧ f.Finite y ∧ |x| < f.overflowThreshold ∧
    (∀ y', f.Finite y' → |x - y| ≤ |x - y'|) ∧
    ((∃ y', f.Finite y' ∧ y' ≠ y ∧ |x - y'| = |x - y|) → tie y)) ∨
  (d = .inf (decide (x < 0)) ∧ f.overflowThreshold ≤ |x|)

/-- Ties to even: the pattern of the result ends in 0. -/
def Fmt.IsRNE (f : Fmt) (x : ℚ) (d : Datum) : Prop :=
  f.IsNearest x d fun _ => ∃ s E M, f.Fields E M ∧ f.value s E M = d ∧ 2 ∣ M

/-- Ties away from zero. -/
def Fmt.IsRNA (f : Fmt) (x : ℚ) (d : Datum) : Prop := f.IsNearest x d fun y => |x| ≤ |y|

/-- Rounding in the format's mode, as the mode's name says. -/
def Fmt.IsRounded (f : Fmt) (x : ℚ) (d : Datum) : Prop :=
  match f.mode with
  | .RNE => f.IsRNE x d
  | .RNA => f.IsRNA x d
  | .RTP => f.IsRTP x d
  | .RTN => f.IsRTN x d
  | .RTZ => f.IsRTZ x d

end HW.Fp
