import Verif.Model.Operators

/-!
# Lists of vectors: `sorted`, `min`, `max`, `in`, `index`, `count`

These functions of Python use an object through `<`, `>`, `==` and the truth value of the result only.  `sorted` is
insertion sort here; CPython's `list.sort` makes other comparisons, but is stable like it, and any two stable sorts agree
where `<` orders the items by a key (`stable_unique`).
-/

namespace HW

/-- `bool(x cmp y)`: a comparison returns a `Bit`, whose `__bool__` is its value (bit_vector.py:118-119), or, if both
sides decline, a `bool`. -/
def vCmp (op : COp) (x y : BVal) : PyM Bool := do
  match ← binC op (.bv x) (.bv y) with
  | .bit b => return b
  | .bool b => return b
  | _ => .error .typeError

section
variable {α : Type} (cmp : COp → α → α → PyM Bool)

/-- Insert behind everything that is not greater. -/
def pyInsert (x : α) : List α → PyM (List α)
  | [] => .ok [x]
  | y :: l => do
      if ← cmp .lt x y then return x :: y :: l
      else return y :: (← pyInsert x l)

def pySortFrom (acc : List α) : List α → PyM (List α)
  | [] => .ok acc
  | x :: l => do pySortFrom (← pyInsert cmp x acc) l

/-- `sorted(l)` -/
def pySorted (l : List α) : PyM (List α) := pySortFrom cmp [] l

def pyBest (op : COp) (best : α) : List α → PyM α
  | [] => .ok best
  | x :: l => do
      if ← cmp op x best then pyBest op x l else pyBest op best l

/-- `min(l)`, `max(l)`: an item replaces the best one so far if it is `<` it, `>` it. -/
def pyMin : List α → PyM α
  | [] => .error .valueError
  | x :: l => pyBest cmp .lt x l
def pyMax : List α → PyM α
  | [] => .error .valueError
  | x :: l => pyBest cmp .gt x l

/-- `l.index(x)`: the position of the first item that is `x` or `==` to it.  Objects carry their identity. -/
def pyFind (x : Nat × α) : List (Nat × α) → PyM (Option Nat)
  | [] => .ok none
  | y :: l => do
      if y.1 = x.1 then return some 0
      else if ← cmp .eq y.2 x.2 then return some 0
      else return (← pyFind x l).map (· + 1)

def pyIndex (x : Nat × α) (l : List (Nat × α)) : PyM Nat := do
  match ← pyFind cmp x l with
  | some i => return i
  | none => .error .valueError

/-- `x in l` -/
def pyIn (x : Nat × α) (l : List (Nat × α)) : PyM Bool := do return (← pyFind cmp x l).isSome

/-- `l.count(x)` -/
def pyCount (x : Nat × α) : List (Nat × α) → PyM Nat
  | [] => .ok 0
  | y :: l => do
      let b ← if y.1 = x.1 then pure true else cmp .eq y.2 x.2
      let n ← pyCount x l
      return if b then n + 1 else n

end

end HW
