import Verif.Model.Circuit

/-!
# Packing records into vectors

Client code over the methods `concat` (bit_vector.py:263-267) and `x[lo:hi]` (bit_vector.py:244-246) of any family.
-/

namespace HW.Circuit

variable (F : Family)

/-- `for y in xs: x = x.concat(y)` -/
def pack : F.V → List F.V → PyM F.V
  | x, [] => .ok x
  | x, y :: ys => do pack (← F.concat x y) ys

/-- `for w in ws: fields.append(p[off:off+w]); off += w` -/
def unpack (p : F.V) : Nat → List Nat → PyM (List F.V)
  | _, [] => .ok []
  | off, w :: ws => do
      let x ← F.slice p off (off + w)
      let r ← unpack p (off + w) ws
      return x :: r

/-- `x[0:lo].concat(y).concat(x[hi:len(x)])` -/
def update (x : F.V) (lo hi : Nat) (y : F.V) : PyM F.V := do
  let a ← F.slice x 0 lo
  let b ← F.concat a y
  let c ← F.slice x hi (F.size x)
  F.concat b c

end HW.Circuit
