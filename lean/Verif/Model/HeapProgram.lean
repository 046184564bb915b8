import Verif.Model.CircuitHeap
import Verif.Model.PyProgram

/-!
# Programs with item assignment

The programs of `Verif.Model.PyProgram` over the objects of `Verif.Model.CircuitHeap`: a client function may also
write `x[i] = v`, give an object another name, and ask whether two names are names of one object.
-/

namespace HW.Circuit

/-- What a function can ask without calling a method that computes a value. -/
inductive Query
  /-- the number of values computed so far -/
  | next
  /-- `len(x)` -/
  | len (x : Nat)
  /-- `type(x) is type(y)` for two vectors -/
  | same (x y : Nat)
  /-- `isinstance(x, SIntVector)` -/
  | signed (x : Nat)
  /-- `isinstance(x, AbstractBit)` -/
  | isBit (x : Nat)
  /-- `x is y` for two vectors -/
  | ident (x y : Nat)
  /-- `bool(b)` for a bit -/
  | test (b : Nat)
  /-- `bool(x)` for a vector -/
  | testV (x : Nat)

abbrev Query.Ans : Query → Type
  | .next => Nat
  | .len _ => Nat
  | _ => Bool

/-- The query is about classes, widths and identity only. -/
def Query.Quiet : Query → Prop
  | .test _ => False
  | .testV _ => False
  | _ => True

/-- As `Prog`, with the instructions `HInstr`. -/
inductive HProg : Type → Type 1
  | ret {α : Type} (a : α) : HProg α
  | op {α : Type} (i : HInstr) (k : HProg α) : HProg α
  | ask {α : Type} (q : Query) (k : q.Ans → HProg α) : HProg α
  | raise {α : Type} (e : PyErr) : HProg α
  | tryElse {α β : Type} (body : HProg β) (h : PyErr → HProg α) (k : β → HProg α) : HProg α
  | loop {α β σ : Type} (s : σ) (body : σ → HProg (σ ⊕ β)) (k : β → HProg α) : HProg α

section
variable (F : HFamily) (al : Alias F) (T : Truth F.toFamily)

abbrev HStore := List (HReg F.V F.B)

/-- The object under a name. -/
def readObj (s : HStore F) (x : Nat) : PyM (Nat × F.V) :=
  match s[x]? with
  | some (.vec v) => .ok v
  | some (.bit _) => .error .typeError
  | none => .error .nameError

def query (s : HStore F) : (q : Query) → PyM q.Ans
  | .next => .ok s.length
  | .len x => do return F.size (← readV F.toFamily (deref s) x)
  | .same x y => do return F.sameClass (← readV F.toFamily (deref s) x) (← readV F.toFamily (deref s) y)
  | .signed x => do return F.signed (← readV F.toFamily (deref s) x)
  | .isBit x => do return regIsBit F.toFamily (← read F.toFamily (deref s) x)
  | .ident x y => do return decide ((← readObj F s x).1 = (← readObj F s y).1)
  | .test x => do T.bit (← readB F.toFamily (deref s) x)
  | .testV x => do T.vec (← readV F.toFamily (deref s) x)

/-- At most `n` turns of a loop. -/
def hturns {σ β : Type} (body : σ → HStore F → Option (HStore F × PyM (σ ⊕ β))) : Nat → σ → HStore F → Option (HStore F × PyM β)
  | 0, _, _ => none
  | n + 1, a, s => match body a s with
    | none => none
    | some (s', .error e) => some (s', .error e)
    | some (s', .ok (.inl a')) => hturns body n a' s'
    | some (s', .ok (.inr b)) => some (s', .ok b)

/-- Run a program where no loop takes more than `n` turns.  An exception leaves the objects as they are. -/
def hexec (n : Nat) : {α : Type} → HProg α → HStore F → Option (HStore F × PyM α)
  | _, .ret a, s => some (s, .ok a)
  | _, .op i k, s => match hstep F al s i with
    | .ok s' => hexec n k s'
    | .error e => some (s, .error e)
  | _, .ask q k, s => match query F T s q with
    | .ok a => hexec n (k a) s
    | .error e => some (s, .error e)
  | _, .raise e, s => some (s, .error e)
  | _, .tryElse body h k, s => match hexec n body s with
    | none => none
    | some (s', .ok b) => hexec n (k b) s'
    | some (s', .error e) => hexec n (h e) s'
  | _, .loop a body k, s => match hturns F (fun a s => hexec n (body a) s) n a s with
    | none => none
    | some (s', .ok b) => hexec n (k b) s'
    | some (s', .error e) => some (s', .error e)

/-- The program ends with these objects and this outcome. -/
def HEnds {α : Type} (p : HProg α) (s s' : HStore F) (r : PyM α) : Prop := ∃ n, hexec F al T n p s = some (s', r)

end

/-- Truth values as before. -/
def cTruthH : Truth concreteH.toFamily := cTruth
def sTruthH (S : Smt.Simplifier) : Truth (smtH S).toFamily := sTruth S
def zTruthH : Truth z3H.toFamily := zTruth

/-! ### Kinds of programs -/

/-- The program never asks for the truth value of a vector or a bit. -/
def HProg.NoTest : {α : Type} → HProg α → Prop
  | _, .ret _ => True
  | _, .op _ k => k.NoTest
  | _, .ask q k => q.Quiet ∧ ∀ a, (k a).NoTest
  | _, .raise _ => True
  | _, .tryElse body h k => body.NoTest ∧ (∀ e, (h e).NoTest) ∧ ∀ b, (k b).NoTest
  | _, .loop _ body k => (∀ a, (body a).NoTest) ∧ ∀ b, (k b).NoTest

/-- The handlers of the program do not tell exceptions related by `E` apart. -/
def HProg.Respects (E : PyErr → PyErr → Prop) : {α : Type} → HProg α → Prop
  | _, .ret _ => True
  | _, .op _ k => k.Respects E
  | _, .ask _ k => ∀ a, (k a).Respects E
  | _, .raise _ => True
  | _, .tryElse body h k => body.Respects E ∧ (∀ e, (h e).Respects E) ∧ (∀ b, (k b).Respects E) ∧
      ∀ e e', E e e' → h e = h e' ∨ (h e = .raise e ∧ h e' = .raise e')
  | _, .loop _ body k => (∀ a, (body a).Respects E) ∧ ∀ b, (k b).Respects E

/-- The program contains no `bvurem` and no `%`. -/
def HProg.NoRem : {α : Type} → HProg α → Prop
  | _, .ret _ => True
  | _, .op i k => (∀ x y, i ≠ .op (.bin .urem x y) ∧ i ≠ .op (.opA .mod x y)) ∧ k.NoRem
  | _, .ask _ k => ∀ a, (k a).NoRem
  | _, .raise _ => True
  | _, .tryElse body h k => body.NoRem ∧ (∀ e, (h e).NoRem) ∧ ∀ b, (k b).NoRem
  | _, .loop _ body k => (∀ a, (body a).NoRem) ∧ ∀ b, (k b).NoRem

end HW.Circuit
