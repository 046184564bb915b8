import Verif.Spec.Fp

/-!
# Specification vocabulary for floating-point arithmetic

IEEE 754 operations on data: the exact result where there is one, and the table of special values (6.1-6.3).
-/

namespace HW.Fp

inductive FOp | add | sub | mul | div
  deriving DecidableEq, Repr

/-- The exact result on numbers. -/
def FOp.exact : FOp → ℚ → ℚ → Option ℚ
  | .add, a, b => some (a + b)
  | .sub, a, b => some (a - b)
  | .mul, a, b => some (a * b)
  | .div, a, b => if b = 0 then none else some (a / b)

/-- The sign bit of a datum (NaN: none). -/
def Datum.neg? : Datum → Option Bool
  | .nan => none
  | .inf s => some s
  | .zero s => some s
  | .num x => some (decide (x < 0))

/-- The sign of an exactly zero result: products and quotients by the rule of signs; sums keep a common
sign and are otherwise `+0`, or `-0` when rounding down. -/
def FOp.zeroSign (op : FOp) (m : Mode) (s t : Bool) : Bool :=
  match op with
  | .add => if s = t then s else decide (m = .RTN)
  | .sub => if s = !t then s else decide (m = .RTN)
  | _ => s ^^ t

/-- The results that are not the rounding of an exact number. -/
def FOp.special : FOp → Datum → Datum → Option Datum
  | _, .nan, _ => some .nan
  | _, _, .nan => some .nan
  | .add, .inf s, .inf t => some (if s = t then .inf s else .nan)
  | .add, .inf s, _ => some (.inf s)
  | .add, _, .inf t => some (.inf t)
  | .sub, .inf s, .inf t => some (if s = t then .nan else .inf s)
  | .sub, .inf s, _ => some (.inf s)
  | .sub, _, .inf t => some (.inf !t)
  | .mul, .inf _, .zero _ => some .nan
  | .mul, .zero _, .inf _ => some .nan
  | .mul, .inf s, y => y.neg?.map fun t => .inf (s ^^ t)
  | .mul, x, .inf t => x.neg?.map fun s => .inf (s ^^ t)
  | .div, .inf _, .inf _ => some .nan
  | .div, .zero _, .zero _ => some .nan
  | .div, .inf s, y => y.neg?.map fun t => .inf (s ^^ t)
  | .div, x, .inf t => x.neg?.map fun s => .zero (s ^^ t)
  | .div, x, .zero t => x.neg?.map fun s => .inf (s ^^ t)
  | _, _, _ => none

/-- A format without NaN has an infinity in its place. -/
def Fmt.OrNaN (f : Fmt) (e d : Datum) : Prop :=
  if e = .nan ∧ f.ieee = false then ∃ s, d = .inf s else d = e

/-- The extended number line; `none` is NaN, and the zeros are one number. -/
def Datum.ext : Datum → Option (WithBot (WithTop ℚ))
  | .nan => none
  | .inf true => some ⊥
  | .inf false => some ((⊤ : WithTop ℚ) : WithBot (WithTop ℚ))
  | .zero _ => some (((0 : ℚ) : WithTop ℚ) : WithBot (WithTop ℚ))
  | .num x => some ((x : WithTop ℚ) : WithBot (WithTop ℚ))

/-- `d` is not above `d'`. -/
def Datum.le (d d' : Datum) : Prop := ∃ a b, d.ext = some a ∧ d'.ext = some b ∧ a ≤ b

/-- `d` is below `d'`. -/
def Datum.lt (d d' : Datum) : Prop := ∃ a b, d.ext = some a ∧ d'.ext = some b ∧ a < b

/-- `d` and `d'` are the same number. -/
def Datum.same (d d' : Datum) : Prop := ∃ a, d.ext = some a ∧ d'.ext = some a

end HW.Fp
