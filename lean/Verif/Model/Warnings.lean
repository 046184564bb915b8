import Verif.Model.BitVector
import Verif.Model.Smt.Vector
import Verif.Model.Z3.Vector

/-!
# Truncation warnings

When the constructors of the vector classes give a warning `Truncating value ...`.
-/

namespace HW

/-- `BitVector.__init__` at width `n` warns (bit_vector.py:183-201; ints are let through without one, 189-193). -/
def truncWarns (n : Nat) : Obj → Bool
  | .bv x => x.size > n
  | .bit _ => false
  | .int _ => false
  | .bool _ => false
  | .seq l => l.length > n
  | .other (some v) _ => pyBitLength v > n
  | .other none _ => false

/-- `_coerce` warns (bit_vector.py:134-140). -/
def coerceWarns (n : Nat) : Obj → Bool
  | .bv _ => false
  | o => truncWarns n o

/-- `SMTBitVector.__init__` warns about truncation (smt_bit_vector.py:260-272). -/
def Smt.truncWarns (n : Nat) : Smt.SObj → Bool
  | .bv x => (n : Int) - x.size < 0
  | _ => false

/-- `z3BitVector.__init__` warns about truncation (z3_bit_vector.py:209-221). -/
def Z3.truncWarns (n : Nat) : Z3.ZObj → Bool
  | .bv x => (n : Int) - x.size < 0
  | _ => false

end HW
