import Verif.Model.IfConv

/-!
# Functions with several returns

As `Verif.Model.IfConv`, for functions that return from inside an `if` on a bit (`Bit.__bool__`, bit_vector.py:118-119):
the rewritten function runs every path to its `return` and merges the tuples of returned values with `c.ite(t, f)`
(bit_vector.py:96-116), entry by entry.

Simplified: the part of the function after an `if` that returns is written into the branches that go on (`cond`); an `if`
that does not return is a `join`.
-/

namespace HW.Circuit.Returns
open HW HW.Circuit HW.Circuit.IfConv

inductive Fn
  /-- `return` of the values at the given places -/
  | ret (outs : List Nat)
  | instr (i : Instr) (p : Fn)
  /-- `assert a` -/
  | check (a : Nat) (p : Fn)
  /-- an `if` whose branches fall through, as in `Code.cond` -/
  | join (c : Nat) (t f : Code) (outs : List (Nat × Nat)) (p : Fn)
  /-- an `if` whose branches return -/
  | cond (c : Nat) (t f : Fn)

section
variable (F : Family)

/-- The function as it stands; `truth` is `bool(b)`. -/
def call (truth : F.B → Bool) : List (Reg F.V F.B) → Fn → PyM (List (Reg F.V F.B))
  | s, .ret outs => readAll F s outs
  | s, .instr i p => do call truth (← step F s i) p
  | s, .check a p => do
      let a ← readB F s a
      if truth a then call truth s p else .error .assertionError
  | s, .join c t f outs p => do
      let c ← readB F s c
      if truth c then do
        let u ← exec F truth s t
        let vs ← readAll F u (outs.map (·.1))
        call truth (s ++ vs) p
      else do
        let u ← exec F truth s f
        let vs ← readAll F u (outs.map (·.2))
        call truth (s ++ vs) p
  | s, .cond c t f => do
      let c ← readB F s c
      if truth c then call truth s t else call truth s f

/-- Two returned tuples merged entry by entry. -/
def mergeRets (c : F.B) : List (Reg F.V F.B) → List (Reg F.V F.B) → PyM (List (Reg F.V F.B))
  | [], [] => .ok []
  | a :: u, b :: w => do
      let v ← merge F c a b
      let vs ← mergeRets c u w
      return v :: vs
  | _, _ => .error .typeError

/-- The rewritten function: the returned values and the obligations. -/
def fork : Option F.B → List (Reg F.V F.B) → Fn → PyM (List (Reg F.V F.B) × List F.B)
  | _, s, .ret outs => do
      let vs ← readAll F s outs
      return (vs, [])
  | pc, s, .instr i p => do fork pc (← step F s i) p
  | pc, s, .check a p => do
      let a ← readB F s a
      let g ← oblige F pc a
      let r ← fork pc s p
      return (r.1, g :: r.2)
  | pc, s, .join c t f outs p => do
      let c ← readB F s c
      let n ← F.bitNot c
      let ct ← path F pc c
      let cf ← path F pc n
      let u ← both F (some ct) s t
      let w ← both F (some cf) s f
      let vs ← mergeAll F c u.1 w.1 outs
      let r ← fork pc (s ++ vs) p
      return (r.1, u.2 ++ w.2 ++ r.2)
  | pc, s, .cond c t f => do
      let c ← readB F s c
      let n ← F.bitNot c
      let ct ← path F pc c
      let cf ← path F pc n
      let u ← fork (some ct) s t
      let w ← fork (some cf) s f
      let vs ← mergeRets F c u.1 w.1
      return (vs, u.2 ++ w.2)

end

/-- The function with `if` and `return`, in simulation. -/
def simCall (s : List (Reg BVal Bool)) (p : Fn) : PyM (List (Reg BVal Bool)) := call concrete (fun b : Bool => b) s p

end HW.Circuit.Returns
