import Verif.Model.Z3.Vector

/-!
# z3 expressions inside sequences

`ZObj` has z3 expressions (`boolRef`, `bvRef`) among the values and operands; `ZElem` leaves them out of sequences.
Here the elements are any objects that are not sequences themselves.
-/

namespace HW.Z3

/-- `reduce(lambda acc, elem: acc.concat(elem), map(B1, value))` after the first element (z3_bit_vector.py:233);
`B1(elem)` is the constructor at `cls.unsized_t[1]` (232). -/
def concatObjs (r : Root) : ZBV → List ZObj → PyM ZBV
  | acc, [] => .ok acc
  | acc, e :: l => do
      let x ← mkZBV r 1 e
      let acc' ← acc.concat x
      concatObjs r acc' l

/-- `z3BitVector.__init__` at class `r[n]` for a sequence (z3_bit_vector.py:199, 228-233, 243-244). -/
def mkSeq (r : Root) (n : Nat) (l : List ZObj) : PyM ZBV := do
  bitVecSort n
  if l.length ≠ n then .error .valueError
  else match l with
    | [] => .error .typeError
    | e :: l => do
        let x ← mkZBV r 1 e
        let y ← concatObjs r x l
        if y.expr.w = n then return ⟨r, n, y.expr⟩ else .error .assertionError

end HW.Z3
