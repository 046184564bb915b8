import Verif.Model.Smt.Fp
import Verif.Model.Fp.Sqrt
import Verif.Spec.Fp

/-!
# Vocabulary for `SMTFPVector`

Which concrete method a symbolic one stands for, and when a symbolic value reads as a concrete one.
-/

namespace HW.SmtFp
open HW.Fp

/-- Result of a method of the symbolic family. -/
inductive SRes
  | fp (x : SFP)
  | bit (b : BTm)

/-- Result of a method of the concrete family. -/
inductive FRes
  | fp (v : Mpfr)
  | bit (b : Bool)

/-- The Python call `x.<m>(*ys)`; a wrong number of arguments is a `TypeError`. -/
def call (m : Meth) (x : SFP) (ys : List SArg) : PyM SRes :=
  match m, ys with
  | .abs, [] => x.fpAbs.map .fp
  | .neg, [] => x.fpNeg.map .fp
  | .add, [y] => (x.fpAdd y).map .fp
  | .sub, [y] => (x.fpSub y).map .fp
  | .mul, [y] => (x.fpMul y).map .fp
  | .div, [y] => (x.fpDiv y).map .fp
  | .fma, [y, z] => (x.fpFma y z).map .fp
  | .sqrt, [] => x.fpSqrt.map .fp
  | .rem, [y] => (x.fpRem y).map .fp
  | .rint, [] => x.fpRint.map .fp
  | .min, [y] => (x.fpMin y).map .fp
  | .max, [y] => (x.fpMax y).map .fp
  | .leq, [y] => (x.fpLeq y).map .bit
  | .lt, [y] => (x.fpLt y).map .bit
  | .geq, [y] => (x.fpGeq y).map .bit
  | .gt, [y] => (x.fpGt y).map .bit
  | .eq, [y] => (x.fpEq y).map .bit
  | .isNormal, [] => x.isNormal.map .bit
  | .isSubnormal, [] => x.isSubnormal.map .bit
  | .isZero, [] => x.isZero.map .bit
  | .isInfinite, [] => x.isInfinite.map .bit
  | .isNaN, [] => x.isNaN.map .bit
  | .isNegative, [] => x.isNegative.map .bit
  | .isPositive, [] => x.isPositive.map .bit
  | _, _ => .error .typeError

/-- The same call on objects of `FPVector[f]`; `o` is the sign of a NaN result (left open by MPFR);
a wrong number of arguments is a `TypeError`. -/
def concrete (m : Meth) (f : Fmt) (o : Bool) (v : Mpfr) (ws : List Mpfr) : PyM FRes :=
  match m, ws with
  | .abs, [] => .ok (.fp (f.fpAbs v))
  | .neg, [] => .ok (.fp (f.fpNeg v))
  | .add, [w] => (f.fpAdd o v (.fp f w)).map .fp
  | .sub, [w] => (f.fpSub o v (.fp f w)).map .fp
  | .mul, [w] => (f.fpMul o v (.fp f w)).map .fp
  | .div, [w] => (f.fpDiv o v (.fp f w)).map .fp
  | .fma, [w, u] => (f.fpFma o v (.fp f w) (.fp f u)).map .fp
  | .sqrt, [] => .ok (.fp (f.fpSqrt o v))
  | .rem, [w] => (f.fpRem o v (.fp f w)).map .fp
  | .rint, [] => .ok (.fp (f.fpRint v))
  | .min, [w] => (f.fpMin o v (.fp f w)).map .fp
  | .max, [w] => (f.fpMax o v (.fp f w)).map .fp
  | .leq, [w] => (f.fpLeq v (.fp f w)).map .bit
  | .lt, [w] => (f.fpLt v (.fp f w)).map .bit
  | .geq, [w] => (f.fpGeq v (.fp f w)).map .bit
  | .gt, [w] => (f.fpGt v (.fp f w)).map .bit
  | .eq, [w] => (f.fpEq v (.fp f w)).map .bit
  | .isNormal, [] => (f.isNormal v).map .bit
  | .isSubnormal, [] => (f.isSubnormal v).map .bit
  | .isZero, [] => .ok (.bit (HW.Fp.isZero v))
  | .isInfinite, [] => .ok (.bit (isInf v))
  | .isNaN, [] => .ok (.bit (HW.Fp.isNaN v))
  | .isNegative, [] => .ok (.bit (HW.Fp.isNegative v))
  | .isPositive, [] => .ok (.bit (HW.Fp.isPositive v))
  | _, _ => .error .typeError

/-- In the interpretation `e` the bits of `x` are a pattern of `v`: decoding them gives `v` (a NaN without
its sign). -/
structure Reads (e : Interp) (x : SFP) (v : Mpfr) : Prop where
  width : x.val.w = x.cls.fmt.size
  bits : x.cls.fmt.fromBV ⟨.root .bv, x.cls.fmt.size, (x.val.den e).toNat⟩ = .ok v.plainNaN

/-- A result reads as a concrete one; an fp result is an object of the class. -/
def ReadsRes (e : Interp) (c : Cls) : SRes → FRes → Prop
  | .fp x, .fp v => x.cls = c ∧ Reads e x v
  | .bit b, .bit B => b e = B
  | _, _ => False

end HW.SmtFp

namespace HW.SmtFp
open HW.Fp
open HW.Smt (Name)

/-! ### Expressions and formulas a user can write in both families -/

inductive Ex
  | var (i : Nat)
  | app (m : Meth) (a : Ex)
  | app2 (m : Meth) (a b : Ex)
  | app3 (m : Meth) (a b c : Ex)

inductive Fm
  | test (m : Meth) (a : Ex)
  | rel (m : Meth) (a b : Ex)
  | not (p : Fm)
  | and (p q : Fm)
  | or (p q : Fm)

def SRes.asFp : SRes → PyM SFP
  | .fp x => .ok x
  | .bit _ => .error .typeError
def SRes.asBit : SRes → PyM BTm
  | .bit b => .ok b
  | .fp _ => .error .typeError
def FRes.asFp : FRes → PyM Mpfr
  | .fp v => .ok v
  | .bit _ => .error .typeError
def FRes.asBit : FRes → PyM Bool
  | .bit b => .ok b
  | .fp _ => .error .typeError

/-- The expression in the symbolic family. -/
def Ex.sym (xs : Nat → SFP) : Ex → PyM SFP
  | .var i => .ok (xs i)
  | .app m a => do (← call m (← a.sym xs) []).asFp
  | .app2 m a b => do
      let x ← a.sym xs
      let y ← b.sym xs
      (← call m x [.fp y]).asFp
  | .app3 m a b c => do
      let x ← a.sym xs
      let y ← b.sym xs
      let z ← c.sym xs
      (← call m x [.fp y, .fp z]).asFp

/-- The expression in the concrete family; `o` gives the signs of NaN results. -/
def Ex.conc (f : Fmt) (o : Meth → Mpfr → List Mpfr → Bool) (vs : Nat → Mpfr) : Ex → PyM Mpfr
  | .var i => .ok (vs i)
  | .app m a => do
      let v ← a.conc f o vs
      (← concrete m f (o m v []) v []).asFp
  | .app2 m a b => do
      let v ← a.conc f o vs
      let w ← b.conc f o vs
      (← concrete m f (o m v [w]) v [w]).asFp
  | .app3 m a b c => do
      let v ← a.conc f o vs
      let w ← b.conc f o vs
      let u ← c.conc f o vs
      (← concrete m f (o m v [w, u]) v [w, u]).asFp

/-- The formula in the symbolic family. -/
def Fm.sym (xs : Nat → SFP) : Fm → PyM BTm
  | .test m a => do (← call m (← a.sym xs) []).asBit
  | .rel m a b => do
      let x ← a.sym xs
      let y ← b.sym xs
      (← call m x [.fp y]).asBit
  | .not p => do
      let b ← p.sym xs
      return fun e => !b e
  | .and p q => do
      let b ← p.sym xs
      let c ← q.sym xs
      return fun e => b e && c e
  | .or p q => do
      let b ← p.sym xs
      let c ← q.sym xs
      return fun e => b e || c e

/-- The formula in the concrete family. -/
def Fm.conc (f : Fmt) (o : Meth → Mpfr → List Mpfr → Bool) (vs : Nat → Mpfr) : Fm → PyM Bool
  | .test m a => do
      let v ← a.conc f o vs
      (← concrete m f (o m v []) v []).asBit
  | .rel m a b => do
      let v ← a.conc f o vs
      let w ← b.conc f o vs
      (← concrete m f (o m v [w]) v [w]).asBit
  | .not p => do return !(← p.conc f o vs)
  | .and p q => do
      let a ← p.conc f o vs
      let b ← q.conc f o vs
      return a && b
  | .or p q => do
      let a ← p.conc f o vs
      let b ← q.conc f o vs
      return a || b

/-- `SMTFPVector[..](name=n)`. -/
def named (c : Cls) (n : Name) : SFP := ⟨c, ⟨c.fmt.size, fun e => e.bv n c.fmt.size⟩⟩

end HW.SmtFp
