import Verif.Model.Circuit

/-!
# Circuits with state

A design with registers is simulated and verified by calling one python function per clock cycle: it takes the
state and the inputs of the cycle and returns the next state and a bit that is asserted.  With `BitVector` this is
a simulation; with `SMTBitVector` or `z3BitVector` and new variables for the inputs of every cycle it unrolls the
design.  The functions are those of `Verif.Model.Circuit` (methods of bit_vector_abc.py:121-470), with the
simplifications made there; nothing else in the repository is involved.
-/

namespace HW.Circuit
open HW

structure SeqCircuit where
  /-- computes the initial state from parameters -/
  reset : List Instr
  /-- where `reset` has the initial state -/
  first : List Nat
  /-- one cycle, on the state and the inputs -/
  body : List Instr
  /-- where `body` has the next state -/
  next : List Nat
  /-- where `body` has the asserted bit -/
  prop : Nat

section
variable (F : Family)

def readAll (u : List (Reg F.V F.B)) : List Nat → PyM (List (Reg F.V F.B))
  | [] => .ok []
  | i :: is => do
      let r ← read F u i
      let rs ← readAll u is
      return r :: rs

variable (m : SeqCircuit)

def start (par : List (Reg F.V F.B)) : PyM (List (Reg F.V F.B)) := do
  let u ← run F par m.reset
  readAll F u m.first

/-- One cycle: the next state and the asserted bit. -/
def cycle (s i : List (Reg F.V F.B)) : PyM (List (Reg F.V F.B) × F.B) := do
  let u ← run F (s ++ i) m.body
  let b ← readB F u m.prop
  let n ← readAll F u m.next
  return (n, b)

/-- Cycles with the given inputs: the state after them, and the bits asserted. -/
def unroll (s : List (Reg F.V F.B)) : List (List (Reg F.V F.B)) → PyM (List (Reg F.V F.B) × List F.B)
  | [] => .ok (s, [])
  | i :: is => do
      let r ← cycle F m s i
      let r' ← unroll r.1 is
      return (r'.1, r.2 :: r'.2)

/-- From reset. -/
def trace (par : List (Reg F.V F.B)) (is : List (List (Reg F.V F.B))) : PyM (List (Reg F.V F.B) × List F.B) := do
  let s ← start F m par
  unroll F m s is

end
end HW.Circuit
