import Verif.Model.Adt.Repr

/-!
# Evaluating printed ADT values

The expressions that `repr` prints (`Tuple[Bit, BitVector[8]](Bit(True), BitVector[8](3))`, `P(x=Bit(True))`, `E.a`), their
text, and their value in a namespace.

Simplified:
* only expressions of this form; keyword arguments and dictionary keys in an expression are distinct;
* a subscript is applied to an unbound class of its own kind; any other raises TypeError;
* no field has Python's `int`, `bool` or `NoneType` as its class;
* bits and vectors are constructed from numbers, `None`, bits and vectors.
-/

namespace HW.Adt.Source
open HW HW.Adt

mutual
/-- A class: `w`, `w[n]`, `w[c, …]`, `w[{'k': c, …}]`. -/
inductive CE
  | name (w : List Char)
  | idx (w : List Char) (n : Nat)
  | sub (w : List Char) (l : CEs)
  | dict (w : List Char) (d : Items)
inductive CEs
  | nil
  | cons (c : CE) (l : CEs)
inductive Items
  | nil
  | cons (k : List Char) (c : CE) (d : Items)
end

mutual
/-- A value: a number, `True`, `False`, `None`, `c.w`, `c(v, …, k=v, …)`. -/
inductive VE
  | int (z : Int)
  | bool (b : Bool)
  | none
  | attr (c : CE) (w : List Char)
  | call (c : CE) (a : Args)
inductive Args
  | nil
  | pos (v : VE) (a : Args)
  | kw (k : List Char) (v : VE) (a : Args)
end

/-! ### Text -/

mutual
def CE.text : CE → List Char
  | .name w => w
  | .idx w n => w ++ '[' :: (pyStr n ++ [']'])
  | .sub w l => w ++ '[' :: (l.text ++ [']'])
  | .dict w d => w ++ '[' :: '{' :: (d.text ++ ['}', ']'])
def CEs.text : CEs → List Char
  | .nil => []
  | .cons c l => c.text ++ l.tail
def CEs.tail : CEs → List Char
  | .nil => []
  | .cons c l => ',' :: ' ' :: (c.text ++ l.tail)
def Items.text : Items → List Char
  | .nil => []
  | .cons k c d => '\'' :: (k ++ '\'' :: ':' :: ' ' :: (c.text ++ d.tail))
def Items.tail : Items → List Char
  | .nil => []
  | .cons k c d => ',' :: ' ' :: '\'' :: (k ++ '\'' :: ':' :: ' ' :: (c.text ++ d.tail))
end

mutual
def VE.text : VE → List Char
  | .int z => pyStr z
  | .bool b => if b then ['T', 'r', 'u', 'e'] else ['F', 'a', 'l', 's', 'e']
  | .none => ['N', 'o', 'n', 'e']
  | .attr c w => c.text ++ '.' :: w
  | .call c a => c.text ++ '(' :: (a.text ++ [')'])
def Args.text : Args → List Char
  | .nil => []
  | .pos v a => v.text ++ a.tail
  | .kw k v a => k ++ '=' :: (v.text ++ a.tail)
def Args.tail : Args → List Char
  | .nil => []
  | .pos v a => ',' :: ' ' :: (v.text ++ a.tail)
  | .kw k v a => ',' :: ' ' :: (k ++ '=' :: (v.text ++ a.tail))
end

/-! ### Evaluation -/

/-- What a name can be bound to: an unbound class with fields, an unsized vector class, or a class. -/
inductive Global
  | base (s : Shape) (b : Base)
  | fam (k : Nat)
  | cls (T : Ty)

/-- The namespace given to `eval`; `key` numbers the names of fields and members. -/
structure Ns where
  get : List Char → Option Global
  key : List Char → Name

def Global.toCls : Global → PyM Ty
  | .cls T => .ok T
  | _ => .error .typeError

section
variable (W : World) (N : Ns)

def look (w : List Char) : PyM Global :=
  match N.get w with
  | some g => .ok g
  | none => .error .nameError

mutual
/-- Names and subscripts (bit_vector_abc.py:75-97; adt_meta.py:78-95, 353-357, 376-379, 501-508). -/
def CE.eval : CE → PyM Global
  | .name w => look N w
  | .idx w n => do
      match ← look N w with
      | .fam k => .ok (.cls (.leaf (.vec k (some n))))
      | _ => .error .typeError
  | .sub w l => do
      let g ← look N w
      let ts ← l.eval
      match g with
      | .base .tuple b => .ok (.cls (mkTuple b ts))
      | .base .sum b => .ok (.cls (mkSum W b ts))
      | _ => .error .typeError
  | .dict w d => do
      let g ← look N w
      let ts ← d.eval
      match g with
      | .base .anon b => .ok (.cls (mkAnon b (ts.map (·.1)) (ts.map (·.2))))
      | _ => .error .typeError
def CEs.eval : CEs → PyM (List Ty)
  | .nil => .ok []
  | .cons c l => do
      let t ← (← c.eval).toCls
      let ts ← l.eval
      return t :: ts
def Items.eval : Items → PyM (List (Name × Ty))
  | .nil => .ok []
  | .cons k c d => do
      let t ← (← c.eval).toCls
      let ts ← d.eval
      return (N.key k, t) :: ts
end

/-- What an expression can evaluate to. -/
inductive Arg
  | int (z : Int)
  | bool (b : Bool)
  | none
  | val (v : Val)

/-- `isinstance(a, T)` -/
def Arg.isinst : Arg → Ty → Bool
  | .val v, T => v.isinst W T
  | _, _ => false

/-- `type(a)`, if it is one of the classes of the model. -/
def Arg.cls : Arg → Option Ty
  | .val v => some v.cls
  | _ => Option.none

def Arg.toVal : Arg → PyM Val
  | .val v => .ok v
  | _ => .error .typeError

variable (S : Spell)

/-- `Bit.__init__` (bit_vector.py:46-58): the payload. -/
def initBit : Arg → PyM Nat
  | .bool b => .ok b.toNat
  | .int z => if z = 0 then .ok 0 else if z = 1 then .ok 1 else .error .valueError
  | .none => .ok 0
  | .val (.leaf T p) => if T.asVec.isSome then .ok (if p = 0 then 0 else 1) else .ok p
  | .val _ => .error .typeError

/-- `BitVector.__init__` (bit_vector.py:182-204): the payload. -/
def initVec (n : Nat) : Arg → PyM Nat
  | .bool b => .ok (b.toNat % 2 ^ n)
  | .int z => .ok (z % 2 ^ n).toNat
  | .none => .error .typeError
  | .val (.leaf _ p) => .ok (p % 2 ^ n)
  | .val _ => .error .typeError

/-- `T(*pos, **kw)` (adt_meta.py:232-245, 619-622). -/
def call (T : Ty) (pos : List Arg) (kw : List (Name × Arg)) : PyM Val :=
  match T with
  | .enum e =>
      match pos, kw with
      | [.val v], [] => if v.isinst W (.enum e) then .ok v else .error .typeError
      | _, _ => .error .typeError
  | _ =>
      match T.view with
      | some (k, fs) =>
          match k.shape with
          | .sum => do return .sum T (← (← callSum Arg.cls fs pos kw).toVal)
          | .tagged => do
              let r ← callTagged (Arg.isinst W) k fs pos kw
              return .tag T r.1 (← r.2.toVal)
          | _ => do return .tup T false (← (← callTuple (Arg.isinst W) k fs pos kw).mapM Arg.toVal)
      | none =>
          match T.asVec with
          | some (_, some n) =>
              match pos, kw with
              | [], [] => .ok (.leaf T 0)
              | [a], [] => do return .leaf T (← initVec n a)
              | _, _ => .error .typeError
          | some (_, none) => .error .typeError
          | none =>
              if T.unwrap.1 = .leaf (.cls S.bit) then
                match pos, kw with
                | [a], [] => do return .leaf T (← initBit a)
                | _, _ => .error .typeError
              else .error .typeError

/-- `T.w` for a member `w` of an enum (adt_meta.py:609). -/
def member (T : Ty) (w : List Char) : PyM Val :=
  match T with
  | .enum e =>
      match (e.members.map Prod.fst).idxOf? (N.key w) with
      | some i => .ok (.enum e i)
      | none => .error .attributeError
  | _ => .error .attributeError

mutual
/-- `eval(text)` -/
def VE.eval : VE → PyM Arg
  | .int z => .ok (.int z)
  | .bool b => .ok (.bool b)
  | .none => .ok .none
  | .attr c w => do
      let T ← (← c.eval W N).toCls
      return .val (← member N T w)
  | .call c a => do
      let T ← (← c.eval W N).toCls
      let l ← a.eval
      return .val (← call W S T l.1 l.2)
/-- The arguments: positional, by name. -/
def Args.eval : Args → PyM (List Arg × List (Name × Arg))
  | .nil => .ok ([], [])
  | .pos v a => do
      let x ← v.eval
      let l ← a.eval
      return (x :: l.1, l.2)
  | .kw k v a => do
      let x ← v.eval
      let l ← a.eval
      return (l.1, (N.key k, x) :: l.2)
end

end

/-! ### Well-formed expressions -/

/-- A character of an identifier, more or less. -/
def idChar (c : Char) : Bool :=
  decide (c ∉ ['[', ']', '(', ')', '{', '}', ',', '.', ':', '=', '\'', '-', ' '])

def IsName (w : List Char) : Prop := (∃ c l, w = c :: l ∧ c.isDigit = false) ∧ ∀ c ∈ w, idChar c = true

def Items.keys : Items → List (List Char)
  | .nil => []
  | .cons k _ d => k :: d.keys

def Args.keys : Args → List (List Char)
  | .nil => []
  | .pos _ a => a.keys
  | .kw k _ a => k :: a.keys

mutual
/-- Python accepts the text: names are identifiers, `w[]` is a syntax error, keys are distinct. -/
def CE.Ok : CE → Prop
  | .name w => IsName w
  | .idx w _ => IsName w
  | .sub w l => IsName w ∧ l ≠ .nil ∧ l.Ok
  | .dict w d => IsName w ∧ d.Ok ∧ d.keys.Nodup
def CEs.Ok : CEs → Prop
  | .nil => True
  | .cons c l => c.Ok ∧ l.Ok
def Items.Ok : Items → Prop
  | .nil => True
  | .cons k c d => IsName k ∧ c.Ok ∧ d.Ok
end

mutual
def VE.Ok : VE → Prop
  | .int _ => True
  | .bool _ => True
  | .none => True
  | .attr c w => c.Ok ∧ IsName w
  | .call c a => c.Ok ∧ a.Ok ∧ a.keys.Nodup
def Args.Ok : Args → Prop
  | .nil => True
  | .pos v a => v.Ok ∧ a.Ok
  | .kw k v a => IsName k ∧ v.Ok ∧ a.Ok
end

end HW.Adt.Source
