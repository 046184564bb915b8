import Verif.Model.Returns

/-!
# `while` on bits, unrolled

A simulation may loop on a bit (`Bit.__bool__`, bit_vector.py:118-119), as often as it stays true.  For a symbolic run the
loop is unrolled `k` times: each turn is run whatever the condition, its variables are merged with `c.ite(turn, before)`
(bit_vector.py:96-116) and after the last turn the condition is asserted to be false.  `Exec` says what the function with
`while` does, `unwind` is the rewritten one, for any family.

Instructions and simplifications as in `Verif.Model.IfConv`; loops may be nested and may contain `if` and `assert`, but no
`break` and no `return`.
-/

namespace HW.Circuit.Loops
open HW HW.Circuit HW.Circuit.IfConv HW.Circuit.Returns

inductive Prog
  | done
  | instr (i : Instr) (p : Prog)
  /-- `assert a` -/
  | check (a : Nat) (p : Prog)
  /-- as `Code.cond` -/
  | cond (c : Nat) (t f : Prog) (outs : List (Nat × Nat)) (p : Prog)
  /-- `while c: body`, then `p`.  The variables the loop assigns start as the values at `init` and are appended to the
  others; `head` computes the condition, which it has at `c`; `body` has their next values at `next`. -/
  | loop (init : List Nat) (head : Prog) (c : Nat) (body : Prog) (next : List Nat) (p : Prog)

/-! The function with `while`. -/

/-- `f` after `R`, unless `R` raises. -/
def Then {α β : Type} (R : PyM α → Prop) (f : α → PyM β → Prop) (r : PyM β) : Prop :=
  (∃ a, R (.ok a) ∧ f a r) ∨ ∃ e, R (.error e) ∧ r = .error e

/-- What a loop with condition `T` and body `B` does, and the number of turns begun. -/
inductive Turns {α : Type} (T : α → PyM Bool → Prop) (B : α → PyM α → Prop) : α → Nat → PyM α → Prop
  | stop {a} : T a (.ok false) → Turns T B a 0 (.ok a)
  | test {a e} : T a (.error e) → Turns T B a 0 (.error e)
  | body {a e} : T a (.ok true) → B a (.error e) → Turns T B a 1 (.error e)
  | turn {a a' n r} : T a (.ok true) → B a (.ok a') → Turns T B a' n r → Turns T B a (n + 1) r

/-- Registers of a simulation. -/
abbrev Regs := List (Reg BVal Bool)

/-- What the function does in simulation: `Exec ok s p (.ok u)` if it gets from `s` to `u`, `Exec ok s p (.error e)` if it
raises `e`, nothing if it does not stop.  `ok` bounds the number of turns of each loop. -/
def Exec (ok : Nat → Prop) : Regs → Prog → PyM Regs → Prop
  | s, .done => (· = .ok s)
  | s, .instr i p => Then (· = step concrete s i) fun t : Regs => Exec ok t p
  | s, .check a p => Then (· = readB concrete s a) fun b : Bool =>
      if b then Exec ok s p else (· = .error .assertionError)
  | s, .cond c t f outs p => Then (· = readB concrete s c) fun b : Bool => Then
      (if b then Then (Exec ok s t) fun u : Regs => (· = readAll concrete u (outs.map (·.1)))
      else Then (Exec ok s f) fun u : Regs => (· = readAll concrete u (outs.map (·.2))))
      fun vs : Regs => Exec ok (s ++ vs) p
  | s, .loop init head c body next p => Then (· = readAll concrete s init) fun vs : Regs => Then
      (fun r => ∃ n, ok n ∧ Turns (fun vs : Regs => Then (Exec ok (s ++ vs) head) fun u : Regs => fun b => b = readB concrete u c)
        (fun vs : Regs => Then (Exec ok (s ++ vs) body) fun u : Regs => fun r => r = readAll concrete u next) vs n r)
      fun vs : Regs => Exec ok (s ++ vs) p

/-! The rewritten function. -/

section
variable (F : Family)

/-- `k` turns of the condition `T` and the body `B`. -/
def turns (T : Option F.B → List (Reg F.V F.B) → PyM (F.B × List F.B))
    (B : Option F.B → List (Reg F.V F.B) → PyM (List (Reg F.V F.B) × List F.B)) :
    Nat → Option F.B → List (Reg F.V F.B) → PyM (List (Reg F.V F.B) × List F.B)
  | 0, pc, vs => do
      let c ← T pc vs
      let n ← F.bitNot c.1
      let g ← oblige F pc n
      return (vs, c.2 ++ [g])
  | k + 1, pc, vs => do
      let c ← T pc vs
      let ct ← path F pc c.1
      let b ← B (some ct) vs
      let r ← turns T B k (some ct) b.1
      let ws ← mergeRets F c.1 r.1 vs
      return (ws, c.2 ++ (b.2 ++ r.2))

/-- The values and the obligations. -/
def unwind (k : Nat) : Option F.B → List (Reg F.V F.B) → Prog → PyM (List (Reg F.V F.B) × List F.B)
  | _, s, .done => .ok (s, [])
  | pc, s, .instr i p => do unwind k pc (← step F s i) p
  | pc, s, .check a p => do
      let a ← readB F s a
      let g ← oblige F pc a
      let r ← unwind k pc s p
      return (r.1, g :: r.2)
  | pc, s, .cond c t f outs p => do
      let c ← readB F s c
      let n ← F.bitNot c
      let ct ← path F pc c
      let cf ← path F pc n
      let u ← unwind k (some ct) s t
      let w ← unwind k (some cf) s f
      let vs ← mergeAll F c u.1 w.1 outs
      let r ← unwind k pc (s ++ vs) p
      return (r.1, u.2 ++ w.2 ++ r.2)
  | pc, s, .loop init head c body next p => do
      let vs ← readAll F s init
      let l ← turns F
        (fun pc vs => do
          let u ← unwind k pc (s ++ vs) head
          let b ← readB F u.1 c
          return (b, u.2))
        (fun pc vs => do
          let u ← unwind k pc (s ++ vs) body
          let ws ← readAll F u.1 next
          return (ws, u.2)) k pc vs
      let r ← unwind k pc (s ++ l.1) p
      return (r.1, l.2 ++ r.2)

end

end HW.Circuit.Loops
