import Verif.Spec.Vector
import Verif.Model.Operators

/-!
# Reference meaning of the operators on numbers

`refA signed op n a b` is the value of `a op b` for `n`-bit patterns `a`, `b`
(`0 ≤ a, b < 2^n`), reading them as two's complement where the operator depends on the sign.
Only the *names* of the operators are taken from the model.
-/

namespace HW
open Spec

/-- Bitwise combination of the `n` low bits. -/
def Spec.bitwise (f : Bool → Bool → Bool) (n : Nat) (a b : Int) : Int :=
  ofBits ((List.range n).map fun i => f (ibit a i) (ibit b i))

def Spec.refA (s : Bool) (op : AOp) (n : Nat) (a b : Int) : Int :=
  match op with
  | .and => bitwise (· && ·) n a b
  | .or => bitwise (· || ·) n a b
  | .xor => bitwise (· ^^ ·) n a b
  | .shl => wrap n (a * 2 ^ b.toNat)
  | .shr => if s then wrap n (signed n a / 2 ^ b.toNat) else a / 2 ^ b.toNat
  | .add => wrap n (a + b)
  | .sub => wrap n (a - b)
  | .mul => wrap n (a * b)
  | .fdiv =>
      if b = 0 then 2 ^ n - 1
      else if s then wrap n ((signed n a).fdiv (signed n b)) else ((a.toNat / b.toNat : Nat) : Int)
  | .mod =>
      if b = 0 then a
      else if s then wrap n ((signed n a).fmod (signed n b)) else ((a.toNat % b.toNat : Nat) : Int)

def Spec.refC (s : Bool) (op : COp) (n : Nat) (a b : Int) : Bool :=
  let a' := if s then signed n a else a
  let b' := if s then signed n b else b
  match op with
  | .eq => decide (a = b)
  | .ne => decide (a ≠ b)
  | .ge => decide (b' ≤ a')
  | .gt => decide (b' < a')
  | .le => decide (a' ≤ b')
  | .lt => decide (a' < b')

/-- Whether a class reads its values as signed in sign-dependent operators: `SIntVector` does, a
polymorphic class does what its *selected* branch does. -/
def Spec.readsSigned : Kind → Bool
  | .root r => decide (r = .sint)
  | .poly _ t f sel => if sel then readsSigned t else readsSigned f

/-- Every predefined class a class is built from is `r` or derives from it. -/
def Spec.under (r : Root) : Kind → Bool
  | .root r' => decide (r' = r ∨ r = .bv ∨ (r = .num ∧ (r' = .uint ∨ r' = .sint)))
  | .poly _ t f _ => under r t && under r f

/-- The unsized class `y` is another class than `x` and derives from it: `x` is predefined and all that `y` is
built from is below it. -/
def Spec.derives (y x : Kind) : Bool :=
  match x with
  | .root r => decide (y ≠ .root r) && under r y
  | .poly .. => false

end HW
