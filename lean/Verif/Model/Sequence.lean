import Verif.Model.PyProgram
import Verif.Model.Adt.Heap

/-!
# Vectors as Python sequences

No class of the library defines `__iter__`, `__contains__` or `__reversed__` for its objects.  Python then falls back on
`__getitem__` and `__len__` (bit_vector.py:243-261, smt_bit_vector.py:314-346 and 368-369, z3_bit_vector.py:265-297 and
319-320, adt.py:45-46, which has no `__len__`).  These are Python's rules, for an object whose `__getitem__` on ints is `get`.
-/

namespace HW.PySeq
open HW

section
variable {α : Type} (get : Int → PyM α)

/-- `list(x)` from position `i` on, and what every `for` over `x` is given: `x[i]`, `x[i + 1]`, … up to the first
`IndexError`, which is caught; anything else is raised.  There is no result if no end is reached. -/
inductive Items : Nat → PyM (List α) → Prop
  | stop {i : Nat} : get i = .error .indexError → Items i (.ok [])
  | raise {i : Nat} {e : PyErr} : get i = .error e → e ≠ .indexError → Items i (.error e)
  | next {i : Nat} {a : α} {r : PyM (List α)} : get i = .ok a → Items (i + 1) r → Items i (r.map (a :: ·))

/-- `list(reversed(x))` with `i` items to go: `x[i - 1]`, …, `x[0]`; an `IndexError` ends it early. -/
def reversed : Nat → PyM (List α)
  | 0 => .ok []
  | i + 1 =>
      match get i with
      | .ok a => do return a :: (← reversed i)
      | .error .indexError => .ok []
      | .error e => .error e

/-- The first `k` items from `i` on for `a, b, … = x`; too few raise `ValueError`. -/
def take : Nat → Nat → PyM (List α)
  | _, 0 => .ok []
  | i, k + 1 =>
      match get i with
      | .ok a => do return a :: (← take (i + 1) k)
      | .error .indexError => .error .valueError
      | .error e => .error e

/-- `a, b, … = x` with `k` targets: one more item raises `ValueError`. -/
def unpack (k : Nat) : PyM (List α) := do
  let l ← take get 0 k
  match get k with
  | .ok _ => .error .valueError
  | .error .indexError => return l
  | .error e => .error e

/-- `any(test(a) for a in x)` from position `i` on, which is `any(x)` with `bool` and `v in x` with `== v` for the test
(the items are new objects, so none is `v`). -/
inductive Any (test : α → PyM Bool) : Nat → PyM Bool → Prop
  | stop {i : Nat} : get i = .error .indexError → Any test i (.ok false)
  | raise {i : Nat} {e : PyErr} : get i = .error e → e ≠ .indexError → Any test i (.error e)
  | test {i : Nat} {a : α} {e : PyErr} : get i = .ok a → test a = .error e → Any test i (.error e)
  | hit {i : Nat} {a : α} : get i = .ok a → test a = .ok true → Any test i (.ok true)
  | next {i : Nat} {a : α} {r : PyM Bool} : get i = .ok a → test a = .ok false → Any test (i + 1) r → Any test i r

/-- `all(x)` -/
inductive All (test : α → PyM Bool) : Nat → PyM Bool → Prop
  | stop {i : Nat} : get i = .error .indexError → All test i (.ok true)
  | raise {i : Nat} {e : PyErr} : get i = .error e → e ≠ .indexError → All test i (.error e)
  | test {i : Nat} {a : α} {e : PyErr} : get i = .ok a → test a = .error e → All test i (.error e)
  | miss {i : Nat} {a : α} : get i = .ok a → test a = .ok false → All test i (.ok false)
  | next {i : Nat} {a : α} {r : PyM Bool} : get i = .ok a → test a = .ok true → All test (i + 1) r → All test i r

/-- `functools.reduce(f, x, a)`, `sum(x)` from position `i` on. -/
inductive Fold {β : Type} (f : β → α → PyM β) : Nat → β → PyM β → Prop
  | stop {i : Nat} {b : β} : get i = .error .indexError → Fold f i b (.ok b)
  | raise {i : Nat} {b : β} {e : PyErr} : get i = .error e → e ≠ .indexError → Fold f i b (.error e)
  | error {i : Nat} {a : α} {b : β} {e : PyErr} : get i = .ok a → f b a = .error e → Fold f i b (.error e)
  | next {i : Nat} {a : α} {b c : β} {r : PyM β} : get i = .ok a → f b a = .ok c → Fold f (i + 1) c r → Fold f i b r

end

/-- `bool(o == v)` for a bit `o` -/
def eqTest (v : Obj) (b : Bool) : PyM Bool := do
  match ← binC .eq (.bit b) v with
  | .bit b => return b
  | .bool b => return b
  | _ => .error .typeError

/-- `acc + b`, the step of `sum(x)`, for a bit `b` -/
def addStep (acc : Obj) (b : Bool) : PyM Obj := (binA .add acc (.bit b) 0).map Prod.fst

/-- `for i, b in enumerate(x): x[i] = f(i, b)`: the iterator reads the vector as it is at the time. -/
inductive Update (f : Nat → Bool → Obj) : Nat → BVal → PyM BVal → Prop
  | stop {i : Nat} {x : BVal} : x.getIdx i = .error .indexError → Update f i x (.ok x)
  | raise {i : Nat} {x : BVal} {e : PyErr} : x.getIdx i = .error e → e ≠ .indexError → Update f i x (.error e)
  | error {i : Nat} {x : BVal} {b : Bool} {e : PyErr} : x.getIdx i = .ok b → x.setitem (.int i) (f i b) = .error e →
      Update f i x (.error e)
  | next {i : Nat} {x y : BVal} {b : Bool} {r : PyM BVal} : x.getIdx i = .ok b → x.setitem (.int i) (f i b) = .ok y →
      Update f (i + 1) y r → Update f i x r

end HW.PySeq
