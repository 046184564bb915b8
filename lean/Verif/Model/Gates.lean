import Verif.Model.Circuit

/-!
# Programs that compute the vector operators from smaller ones

User code over one of the three families (`Circuit.Family`, Model/Circuit.lean): every call goes through the
methods modelled there (`x[i]`, `a & b`, `~a`, `c.ite(t, f)`, `bvadd`, ...; abstract_bit_vector_bit.py,
bit_vector.py, smt_bit_vector.py, z3_bit_vector.py).  The loops are Python `for` loops over `range(n)`.
-/

namespace HW.Gates
open Circuit

variable (F : Family)

/-- A full adder: `s = a ^ b ^ c`, `co = (a & b) | ((a ^ b) & c)`. -/
def fullAdd (a b c : F.B) : PyM (F.B × F.B) := do
  let p ← F.bit .xor a b
  let s ← F.bit .xor p c
  let g ← F.bit .and a b
  let q ← F.bit .and p c
  let co ← F.bit .or g q
  return (s, co)

/-- `for j in range(i, i + n): s, c = full_add(x[j], y[j], c); out.append(s)`; the list and the last carry. -/
def ripple (x y : F.V) : Nat → Nat → F.B → PyM (List F.B × F.B)
  | _, 0, c => return ([], c)
  | i, n + 1, c => do
      let a ← F.index x i
      let b ← F.index y i
      let (s, co) ← fullAdd F a b c
      let (l, c') ← ripple x y (i + 1) n co
      return (s :: l, c')

/-- A subtractor: `ripple` on `x` and `~y`. -/
def rippleSub (x y : F.V) (n : Nat) (c : F.B) : PyM (List F.B × F.B) := do
  let y' ← F.un .not y
  ripple F x y' 0 n c

/-- One digit of a comparator: `(~a & b) | (~(a ^ b) & c)`. -/
def ltStep (a b c : F.B) : PyM F.B := do
  let na ← F.bitNot a
  let l ← F.bit .and na b
  let d ← F.bit .xor a b
  let e ← F.bitNot d
  let k ← F.bit .and e c
  F.bit .or l k

/-- `for j in range(i, i + n): c = lt_step(x[j], y[j], c)`. -/
def ltChain (x y : F.V) : Nat → Nat → F.B → PyM F.B
  | _, 0, c => return c
  | i, n + 1, c => do
      let a ← F.index x i
      let b ← F.index y i
      let c ← ltStep F a b c
      ltChain x y (i + 1) n c

/-- The signed comparator: the digits below the top as before, the top digit with its operands exchanged. -/
def sltChain (x y : F.V) (m : Nat) (c : F.B) : PyM F.B := do
  let c ← ltChain F x y 0 m c
  let a ← F.index x m
  let b ← F.index y m
  ltStep F b a c

/-- `for j in range(i, i + n): c = c & ~(x[j] ^ y[j])`. -/
def eqChain (x y : F.V) : Nat → Nat → F.B → PyM F.B
  | _, 0, c => return c
  | i, n + 1, c => do
      let a ← F.index x i
      let b ← F.index y i
      let d ← F.bit .xor a b
      let e ← F.bitNot d
      let c ← F.bit .and c e
      eqChain x y (i + 1) n c

/-- `for j in range(i, i + n): acc = acc.bvadd(y[j].ite(x.bvshl(j), zero))`. -/
def mulLoop (x y zero : F.V) : Nat → Nat → F.V → PyM F.V
  | _, 0, acc => return acc
  | i, n + 1, acc => do
      let p ← F.bin .shl x (.int i)
      let b ← F.index y i
      let t ← F.mux b p zero
      let acc ← F.bin .add acc (.vec t)
      mulLoop x y zero (i + 1) n acc

/-- Shift-and-add multiplication of two vectors of class `r[n]`. -/
def multiply (r : Root) (n : Nat) (x y : F.V) : PyM F.V := do
  let zero ← F.const r n 0
  mulLoop F x y zero 0 n zero

/-- `for j in range(i, i + n): x = s[j].ite(x.op(2**j), x)`: a barrel shifter. -/
def barrel (op : Bin) (s : F.V) : Nat → Nat → F.V → PyM F.V
  | _, 0, x => return x
  | i, n + 1, x => do
      let t ← F.bin op x (.int (2 ^ i))
      let b ← F.index s i
      let x ← F.mux b t x
      barrel op s (i + 1) n x

/-- Restoring division, from bit `k - 1` of `x` down:
`rem = rem.bvshl(1).bvadd(x[j].ite(one, zero)); q = rem.bvuge(y); rem = q.ite(rem.bvsub(y), rem)`.
The digits of the quotient, least significant first, and the remainder. -/
def divLoop (x y one zero : F.V) : Nat → F.V → PyM (List F.B × F.V)
  | 0, rem => return ([], rem)
  | k + 1, rem => do
      let d ← F.bin .shl rem (.int 1)
      let b ← F.index x k
      let t ← F.mux b one zero
      let rem ← F.bin .add d (.vec t)
      let q ← F.cmp .uge rem (.vec y)
      let m ← F.bin .sub rem (.vec y)
      let rem ← F.mux q m rem
      let (l, rem) ← divLoop x y one zero k rem
      return (l ++ [q], rem)

/-- Division of two vectors of class `r[n]`; the work is done in `r[n + 1]`. -/
def divide (r : Root) (n : Nat) (x y : F.V) : PyM (List F.B × F.V) := do
  let y ← F.zext y 1
  let one ← F.const r (n + 1) 1
  let zero ← F.const r (n + 1) 0
  divLoop F x y one zero n zero

end HW.Gates
