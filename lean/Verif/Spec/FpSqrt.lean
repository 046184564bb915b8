import Mathlib.Analysis.Real.Sqrt
import Verif.Spec.FpArith

/-!
# Rounding a real number

The definitions of `Verif.Spec.Fp` for an exact value that need not be rational.
-/

namespace HW.Fp

/-- Toward `-∞`. -/
def Fmt.IsRTNReal (f : Fmt) (x : ℝ) (d : Datum) : Prop :=
  (∃ y, d.fin? = some y ∧ f.Finite y ∧ (y : ℝ) ≤ x ∧ ∀ y', f.Finite y' → (y' : ℝ) ≤ x → y' ≤ y) ∨
  (d = .inf true ∧ ∀ y', f.Finite y' → x < y')

/-- Toward `+∞`. -/
def Fmt.IsRTPReal (f : Fmt) (x : ℝ) (d : Datum) : Prop :=
  (∃ y, d.fin? = some y ∧ f.Finite y ∧ x ≤ y ∧ ∀ y', f.Finite y' → x ≤ y' → y ≤ y') ∨
  (d = .inf false ∧ ∀ y', f.Finite y' → (y' : ℝ) < x)

/-- Toward zero. -/
def Fmt.IsRTZReal (f : Fmt) (x : ℝ) (d : Datum) : Prop :=
  ∃ y, d.fin? = some y ∧ f.Finite y ∧ |(y : ℝ)| ≤ |x| ∧ 0 ≤ x * y ∧
    ∀ y', f.Finite y' → |(y' : ℝ)| ≤ |x| → |y'| ≤ |y|

/-- Away from zero (not an IEEE mode). -/
def Fmt.IsAwayReal (f : Fmt) (x : ℝ) (d : Datum) : Prop :=
  (∃ y, d.fin? = some y ∧ f.Finite y ∧ |x| ≤ |(y : ℝ)| ∧ 0 ≤ x * y ∧
    ∀ y', f.Finite y' → |x| ≤ |(y' : ℝ)| → |y| ≤ |y'|) ∨
  (∃ s, d = .inf s ∧ (s = true ↔ x < 0) ∧ ∀ y', f.Finite y' → |(y' : ℝ)| < |x|)

/-- To nearest; `tie y` says which of two equally near numbers may be chosen. -/
def Fmt.IsNearestReal (f : Fmt) (x : ℝ) (d : Datum) (tie : ℚ → Prop) : Prop :=
  (∃ y, d.fin? = some y ∧ f.Finite y ∧ |x| < f.overflowThreshold ∧
    (∀ y', f.Finite y' → |x - y| ≤ |x - y'|) ∧
    ((∃ y', f.Finite y' ∧ y' ≠ y ∧ |x - y'| = |x - y|) → tie y)) ∨
  (∃ s, d = .inf s ∧ (s = true ↔ x < 0) ∧ (f.overflowThreshold : ℝ) ≤ |x|)

/-- Ties to even: the pattern of the result ends in 0. -/
def Fmt.IsRNEReal (f : Fmt) (x : ℝ) (d : Datum) : Prop :=
  f.IsNearestReal x d fun _ => ∃ s E M, f.Fields E M ∧ f.value s E M = d ∧ 2 ∣ M

/-- Ties away from zero. -/
def Fmt.IsRNAReal (f : Fmt) (x : ℝ) (d : Datum) : Prop := f.IsNearestReal x d fun y => |x| ≤ |(y : ℝ)|

/-- Rounding in the format's mode, as the mode's name says. -/
def Fmt.IsRoundedReal (f : Fmt) (x : ℝ) (d : Datum) : Prop :=
  match f.mode with
  | .RNE => f.IsRNEReal x d
  | .RNA => f.IsRNAReal x d
  | .RTP => f.IsRTPReal x d
  | .RTN => f.IsRTNReal x d
  | .RTZ => f.IsRTZReal x d

end HW.Fp
