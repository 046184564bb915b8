import Verif.Model.Fp.Vector
import Verif.Model.Warnings

/-!
# Warnings of the floating-point codec
-/

namespace HW.Fp

inductive Warning
  /-- 'denorm will be flushed to 0' -/
  | denorm
  /-- 'NaN will be flushed to infinity' -/
  | nan
  /-- 'Truncating value ...', from a vector constructor -/
  | trunc
  deriving DecidableEq, Repr

/-- The warnings of `reinterpret_from_bv` (fp_vector.py:314-360; 328, 351). -/
def Fmt.fromBVWarns (f : Fmt) (value : BVal) : PyM (List Warning) := do
  if f.size ≠ value.size then .error .typeError
  else
    let mantissa ← value.getSlice ⟨none, some f.mb, none⟩
    let exp ← value.getSlice ⟨some f.mb, some (-1), none⟩
    if exp.size ≠ f.eb then .error .assertionError
    else if ← eqInt exp 0 then
      if ← mantissa.bvne (.int 0) then
        if ¬ f.ieee then return [.denorm] else return []
      else return []
    else if ← eqInt exp (-1) then
      if ← mantissa.bveq (.int 0) then return []
      else if ¬ f.ieee then return [.nan] else return []
    else return []

/-- The warnings of `reinterpret_as_bv` (fp_vector.py:267-310; 292); the exponent and the significand are `mpz`, which
the vector constructors take as number-like objects (303, 305, 306). -/
def Fmt.asBVWarns (f : Fmt) : Mpfr → List Warning
  | .fin neg m e =>
      let mant : Int := if neg then -m else m
      let exp : Int := e + f.mb
      let (ws, mant, exp) : List Warning × Int × Int :=
        if exp < 1 - f.bias then
          (if ¬ f.ieee then ([.denorm], 0, 0) else ([], shiftLoop (1 - f.bias - exp).toNat mant, 0))
        else ([], mant, exp + f.bias)
      if ¬ pyBitLength exp ≤ f.eb then ws
      else ws ++ (if truncWarns (f.mb + 1) (.other (some mant) none) then [.trunc] else []) ++
        (if truncWarns f.eb (.other (some exp) none) then [.trunc] else [])
  | _ => []

end HW.Fp
