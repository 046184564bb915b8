import Verif.Model.SeqCircuit

/-!
# `if` on bits, and the same function with `ite`

A simulation may branch on a bit (`Bit.__bool__`, bit_vector.py:118-119).  A symbolic run cannot, so the function is
rewritten, by hand or by a tool: both branches are run, every variable they assign is merged with `c.ite(t, f)`
(bit_vector.py:96-116), and an `assert` in a branch becomes an obligation guarded by the path condition.  `exec` is the
function with `if`, `both` the rewritten one, for any family.

Instructions and simplifications as in `Verif.Model.Circuit`; branches end by falling through (no early `return`).  Two
bits are merged as `(c & t) | (~c & f)`, which all families have; `z3Bit.ite` does not return a bit (C96).
-/

namespace HW.Circuit.IfConv
open HW HW.Circuit

inductive Code
  | done
  | instr (i : Instr) (p : Code)
  /-- `assert a` -/
  | check (a : Nat) (p : Code)
  /-- `if c: t else: f`, then `p`.  Every pair in `outs` is a variable that is used afterwards: where the first branch
  has it and where the second has it. -/
  | cond (c : Nat) (t f : Code) (outs : List (Nat × Nat)) (p : Code)

section
variable (F : Family)

/-- The function as it stands; `truth` is `bool(b)`. -/
def exec (truth : F.B → Bool) : List (Reg F.V F.B) → Code → PyM (List (Reg F.V F.B))
  | s, .done => .ok s
  | s, .instr i p => do exec truth (← step F s i) p
  | s, .check a p => do
      let a ← readB F s a
      if truth a then exec truth s p else .error .assertionError
  | s, .cond c t f outs p => do
      let c ← readB F s c
      if truth c then do
        let u ← exec truth s t
        let vs ← readAll F u (outs.map (·.1))
        exec truth (s ++ vs) p
      else do
        let u ← exec truth s f
        let vs ← readAll F u (outs.map (·.2))
        exec truth (s ++ vs) p

/-- The value of a variable after both branches. -/
def merge (c : F.B) : Reg F.V F.B → Reg F.V F.B → PyM (Reg F.V F.B)
  | .vec x, .vec y => do
      Circuit.check (F.sameClass x y = true)
      return .vec (← F.mux c x y)
  | .bit a, .bit b => do
      let n ← F.bitNot c
      let l ← F.bit .and c a
      let r ← F.bit .and n b
      return .bit (← F.bit .or l r)
  | _, _ => .error .assertionError

def mergeAll (c : F.B) (u w : List (Reg F.V F.B)) : List (Nat × Nat) → PyM (List (Reg F.V F.B))
  | [] => .ok []
  | o :: os => do
      let a ← Circuit.read F u o.1
      let b ← Circuit.read F w o.2
      let v ← merge F c a b
      let vs ← mergeAll c u w os
      return v :: vs

/-- The path condition of a branch inside the path `pc`. -/
def path (pc : Option F.B) (c : F.B) : PyM F.B :=
  match pc with
  | none => .ok c
  | some q => F.bit .and q c

/-- What is left to prove of `assert a` on the path `pc`. -/
def oblige (pc : Option F.B) (a : F.B) : PyM F.B :=
  match pc with
  | none => .ok a
  | some q => do F.bit .or (← F.bitNot q) a

/-- The rewritten function: the values and the obligations. -/
def both : Option F.B → List (Reg F.V F.B) → Code → PyM (List (Reg F.V F.B) × List F.B)
  | _, s, .done => .ok (s, [])
  | pc, s, .instr i p => do both pc (← step F s i) p
  | pc, s, .check a p => do
      let a ← readB F s a
      let g ← oblige F pc a
      let r ← both pc s p
      return (r.1, g :: r.2)
  | pc, s, .cond c t f outs p => do
      let c ← readB F s c
      let n ← F.bitNot c
      let ct ← path F pc c
      let cf ← path F pc n
      let u ← both (some ct) s t
      let w ← both (some cf) s f
      let vs ← mergeAll F c u.1 w.1 outs
      let r ← both pc (s ++ vs) p
      return (r.1, u.2 ++ w.2 ++ r.2)

end

/-- The function with `if`, in simulation. -/
def simulate (s : List (Reg BVal Bool)) (p : Code) : PyM (List (Reg BVal Bool)) := exec concrete (fun b : Bool => b) s p

end HW.Circuit.IfConv
