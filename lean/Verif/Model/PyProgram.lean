import Verif.Model.Circuit

/-!
# Programs: circuits with the control flow of Python

A client function over the methods of a family (`Model/Circuit.lean`) with local Python values, `if`, `for`, `while`,
`raise` and `try`.  Branching may depend on anything Python can compute: lengths, classes, exceptions caught,
arguments, and (`test`) the truth value of a vector or a bit.

`Prog α` is such a function that returns a Python value of type `α`; the vectors and bits it computed are the
registers.  An exception leaves the registers assigned before it, as Python does with local variables.
-/

namespace HW.Circuit

inductive Prog : Type → Type 1
  /-- `return a` -/
  | ret {α : Type} (a : α) : Prog α
  /-- a method call, then the rest -/
  | op {α : Type} (i : Instr) (k : Prog α) : Prog α
  /-- the number of values computed so far (the name the next one will have) -/
  | next {α : Type} (k : Nat → Prog α) : Prog α
  /-- `len(x)`, `x.size` (bit_vector.py:260-261, smt_bit_vector.py:368-369, z3_bit_vector.py:319-320) -/
  | len {α : Type} (x : Nat) (k : Nat → Prog α) : Prog α
  /-- `type(x) is type(y)` for two vectors -/
  | same {α : Type} (x y : Nat) (k : Bool → Prog α) : Prog α
  /-- `isinstance(x, SIntVector)` -/
  | signed {α : Type} (x : Nat) (k : Bool → Prog α) : Prog α
  /-- `isinstance(x, AbstractBit)` -/
  | isBit {α : Type} (x : Nat) (k : Bool → Prog α) : Prog α
  /-- `if b:` on a bit, and what `not`, `and`, `or`, `assert`, `while` do with it first -/
  | test {α : Type} (b : Nat) (k : Bool → Prog α) : Prog α
  /-- `if x:` on a vector -/
  | testV {α : Type} (x : Nat) (k : Bool → Prog α) : Prog α
  /-- `raise e` -/
  | raise {α : Type} (e : PyErr) : Prog α
  /-- `try: b = body()`, `except Exception as e: return h(e)`, `else: return k(b)` -/
  | tryElse {α β : Type} (body : Prog β) (h : PyErr → Prog α) (k : β → Prog α) : Prog α
  /-- `while True: ...`, where one turn goes on with a new state or leaves the loop with a result -/
  | loop {α β σ : Type} (s : σ) (body : σ → Prog (σ ⊕ β)) (k : β → Prog α) : Prog α

/-- `b = body(); return k(b)` -/
def Prog.bind {α β : Type} (body : Prog β) (k : β → Prog α) : Prog α := .tryElse body .raise k

/-- `bool(b)`, `bool(x)`. -/
structure Truth (F : Family) where
  bit : F.B → PyM Bool
  vec : F.V → PyM Bool

section
variable (F : Family) (T : Truth F)

abbrev Store := List (Reg F.V F.B)

/-- At most `n` turns of a loop; `none` if it has not ended by then. -/
def turns {σ β : Type} (body : σ → Store F → Option (Store F × PyM (σ ⊕ β))) : Nat → σ → Store F → Option (Store F × PyM β)
  | 0, _, _ => none
  | n + 1, a, s => match body a s with
    | none => none
    | some (s', .error e) => some (s', .error e)
    | some (s', .ok (.inl a')) => turns body n a' s'
    | some (s', .ok (.inr b)) => some (s', .ok b)

/-- Read something off the registers, or raise. -/
def look {α β : Type} (s : Store F) (m : PyM β) (k : β → Option (Store F × PyM α)) : Option (Store F × PyM α) :=
  match m with
  | .ok b => k b
  | .error e => some (s, .error e)

def regIsBit : Reg F.V F.B → Bool
  | .bit _ => true
  | .vec _ => false

/-- Run a program where no loop takes more than `n` turns; `T` gives the truth values. -/
def exec (n : Nat) : {α : Type} → Prog α → Store F → Option (Store F × PyM α)
  | _, .ret a, s => some (s, .ok a)
  | _, .op i k, s => match step F s i with
    | .ok s' => exec n k s'
    | .error e => some (s, .error e)
  | _, .next k, s => exec n (k s.length) s
  | _, .len x k, s => look F s (readV F s x) fun v => exec n (k (F.size v)) s
  | _, .same x y k, s => look F s (readV F s x) fun v => look F s (readV F s y) fun w => exec n (k (F.sameClass v w)) s
  | _, .signed x k, s => look F s (readV F s x) fun v => exec n (k (F.signed v)) s
  | _, .isBit x k, s => look F s (read F s x) fun r => exec n (k (regIsBit F r)) s
  | _, .test x k, s => look F s (readB F s x) fun v => look F s (T.bit v) fun b => exec n (k b) s
  | _, .testV x k, s => look F s (readV F s x) fun v => look F s (T.vec v) fun b => exec n (k b) s
  | _, .raise e, s => some (s, .error e)
  | _, .tryElse body h k, s => match exec n body s with
    | none => none
    | some (s', .ok b) => exec n (k b) s'
    | some (s', .error e) => exec n (h e) s'
  | _, .loop a body k, s => match turns F (fun a s => exec n (body a) s) n a s with
    | none => none
    | some (s', .ok b) => exec n (k b) s'
    | some (s', .error e) => some (s', .error e)

/-- The program ends with these registers and this outcome. -/
def Ends {α : Type} (p : Prog α) (s s' : Store F) (r : PyM α) : Prop := ∃ n, exec F T n p s = some (s', r)

end

/-! ### Truth values -/

/-- `Bit.__bool__` (bit_vector.py:118-119), `BitVector.__bool__` (457-458). -/
def cTruth : Truth concrete where
  bit b := .ok b
  vec x := BVal.toBool x

/-- `SMTBit.__bool__` (smt_bit_vector.py:168-169); `SMTBitVector` has no `__bool__`, and Python then asks `__len__`
(368-369). -/
def sTruth (S : Smt.Simplifier) : Truth (smt S) where
  bit _ := .error .typeError
  vec x := .ok (decide ((smt S).size x ≠ 0))

/-- `z3Bit` (z3_bit_vector.py:53-154) has neither `__bool__` nor `__len__`: Python takes every instance for true.
`z3BitVector` has `__len__` only (319-320). -/
def zTruth : Truth z3 where
  bit _ := .ok true
  vec x := .ok (decide (z3.size x ≠ 0))

/-! ### Kinds of programs -/

/-- The program never asks for the truth value of a vector or a bit. -/
def Prog.NoTest : {α : Type} → Prog α → Prop
  | _, .ret _ => True
  | _, .op _ k => k.NoTest
  | _, .next k => ∀ n, (k n).NoTest
  | _, .len _ k => ∀ n, (k n).NoTest
  | _, .same _ _ k => ∀ b, (k b).NoTest
  | _, .signed _ k => ∀ b, (k b).NoTest
  | _, .isBit _ k => ∀ b, (k b).NoTest
  | _, .test _ _ => False
  | _, .testV _ _ => False
  | _, .raise _ => True
  | _, .tryElse body h k => body.NoTest ∧ (∀ e, (h e).NoTest) ∧ ∀ b, (k b).NoTest
  | _, .loop _ body k => (∀ a, (body a).NoTest) ∧ ∀ b, (k b).NoTest

/-- The handlers of the program do not tell exceptions related by `E` apart. -/
def Prog.Respects (E : PyErr → PyErr → Prop) : {α : Type} → Prog α → Prop
  | _, .ret _ => True
  | _, .op _ k => k.Respects E
  | _, .next k => ∀ n, (k n).Respects E
  | _, .len _ k => ∀ n, (k n).Respects E
  | _, .same _ _ k => ∀ b, (k b).Respects E
  | _, .signed _ k => ∀ b, (k b).Respects E
  | _, .isBit _ k => ∀ b, (k b).Respects E
  | _, .test _ k => ∀ b, (k b).Respects E
  | _, .testV _ k => ∀ b, (k b).Respects E
  | _, .raise _ => True
  | _, .tryElse body h k => body.Respects E ∧ (∀ e, (h e).Respects E) ∧ (∀ b, (k b).Respects E) ∧
      ∀ e e', E e e' → h e = h e' ∨ (h e = .raise e ∧ h e' = .raise e')
  | _, .loop _ body k => (∀ a, (body a).Respects E) ∧ ∀ b, (k b).Respects E

/-- The program tests bits only, and its handlers hand on a `TypeError`. -/
def Prog.Plain : {α : Type} → Prog α → Prop
  | _, .ret _ => True
  | _, .op _ k => k.Plain
  | _, .next k => ∀ n, (k n).Plain
  | _, .len _ k => ∀ n, (k n).Plain
  | _, .same _ _ k => ∀ b, (k b).Plain
  | _, .signed _ k => ∀ b, (k b).Plain
  | _, .isBit _ k => ∀ b, (k b).Plain
  | _, .test _ k => ∀ b, (k b).Plain
  | _, .testV _ _ => False
  | _, .raise _ => True
  | _, .tryElse body h k => body.Plain ∧ (∀ e, (h e).Plain) ∧ (∀ b, (k b).Plain) ∧ h .typeError = .raise .typeError
  | _, .loop _ body k => (∀ a, (body a).Plain) ∧ ∀ b, (k b).Plain

end HW.Circuit
