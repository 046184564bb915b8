import Mathlib.Data.Int.Notation

/-!
# Specification vocabulary for bit vectors

Everything a reader needs to understand the statements in `Verif/Props/BitVector*.lean`:
plain integer arithmetic, nothing from the model.
-/

namespace HW.Spec

/-- `v mod 2^n`, in `[0, 2^n)`. -/
def wrap (n : Nat) (v : Int) : Int := v % 2 ^ n

/-- Bit `i` of an integer in (infinite) two's complement. -/
def ibit (v : Int) (i : Nat) : Bool := decide ((v / 2 ^ i) % 2 = 1)

/-- Two's-complement reading of an `n`-bit pattern `u` with `0 ≤ u < 2^n`. -/
def signed (n : Nat) (u : Int) : Int := if 2 * u < 2 ^ n then u else u - 2 ^ n

/-- The number whose bit `i` is `l[i]` (least significant first). -/
def ofBits : List Bool → Int
  | [] => 0
  | b :: l => (if b then 1 else 0) + 2 * ofBits l

/-- The `n` low bits of `v`, least significant first. -/
def toBits (n : Nat) (v : Int) : List Bool := (List.range n).map (ibit v)

/-- Value of a string of binary digits, most significant first; `none` on a non-digit. -/
def parseBin : Int → List Char → Option Int
  | acc, [] => some acc
  | acc, '0' :: cs => parseBin (2 * acc) cs
  | acc, '1' :: cs => parseBin (2 * acc + 1) cs
  | _, _ :: _ => none

end HW.Spec
