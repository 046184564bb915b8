import Verif.Model.Circuit
import Verif.Model.Adt.Heap

/-!
# Functions over records and unions, run with each family

As `Verif.Model.Circuit`, for functions whose values are also `Tuple`s, `Product`s, `Sum`s, `TaggedUnion`s and enum members
(hwtypes/adt.py).  The classes are declared once, with the family's `BitVector[n]` and `Bit` as leaves, the way
functions of the family do it: `def gen(family): class Inst(Product): a = family.BitVector[8]; …`.  `move f T` is the class
`T` of the concrete family as declared with family `f`.

Objects have identity: several variables, and several fields, may hold one record, and an assignment to a field is seen
through all of them (`Verif.Model.Adt.Heap`).

Simplified: a vector or bit is not changed in place (`Verif.Model.CircuitHeap` has that); the only tests are on the tags
of unions, whose branches go on to the end of the function.  Some instructions carry an `assert` of the caller: operands
of the instructions of `Circuit` are vectors, bits or ints, `match` is asked of unions only, and no field of a union is
called `Match`.
-/

namespace HW.Circuit.Records
open HW HW.Circuit
open HW.Adt (Ty Leaf Ref Store Name EnumT)

/-! ### Classes -/

/-- The number of a root class within a family. -/
def rootNum : Root → Nat
  | .bv => 0 | .num => 1 | .uint => 2 | .sint => 3

/-- The class of the vectors with root `r` and size `n` of family `f`. -/
def vecTy (f : Nat) (r : Root) (n : Nat) : Ty := .leaf (.vec (4 * f + rootNum r) (some n))
/-- The class of bits. -/
def bitTy (f : Nat) : Ty := .leaf (.cls f)

def moveLeaf (f : Nat) : Leaf → Leaf
  | .vec k s => .vec (4 * f + k) s
  | .cls 0 => .cls f
  | .cls c => .cls c

mutual
/-- The declaration of `T` with family `f` in place of the concrete one, which is number 0. -/
def move (f : Nat) : Ty → Ty
  | .leaf l => .leaf (moveLeaf f l)
  | .enum e => .enum e
  | .node k fs => .node k (moves f fs)
  | .mod m t => .mod m (move f t)
def moves (f : Nat) : List Ty → List Ty
  | [] => []
  | t :: ts => move f t :: moves f ts
end

/-- A family with its number and the classes of its vectors. -/
structure RFamily extends Family where
  fam : Nat
  root : V → Root

/-- `type(v)` -/
def cls (F : RFamily) : Reg F.V F.B → Ty
  | .vec x => vecTy F.fam (F.root x) (F.size x)
  | .bit _ => bitTy F.fam

/-- Circuits have no vectors of polymorphic classes. -/
def concreteR : RFamily := { concrete with
  fam := 0
  root := fun x : BVal => match x.kind with
    | .root r => r
    | .poly .. => .bv }

def smtR (S : Smt.Simplifier) : RFamily := { smt S with
  fam := 1
  root := fun x : Smt.SBV => match x.kind with
    | .root r => r
    | .poly .. => .bv }

def z3R : RFamily := { z3 with
  fam := 2
  root := fun x : Z3.ZBV => x.root }

/-! ### Functions -/

/-- A statement.  Numbers stand for variables, which are assigned once; those that get a value are new. -/
inductive Stmt
  /-- methods of vectors and bits -/
  | instr (i : Instr)
  /-- `T(*pos, **kw)` -/
  | new (T : Ty) (pos : List Nat) (kw : List (Name × Nat))
  /-- a member of an enum -/
  | member (e : EnumT) (i : Nat)
  /-- `x[idx] = v` on tuples (adt.py:48-54) -/
  | setItem (x : Nat) (idx : Adt.Idx) (v : Nat)
  /-- `x.n = v` on products and unions (adt_meta.py:442-459, 543-561) -/
  | setAttr (x : Nat) (n : Name) (v : Nat)
  /-- `x[T] = v` on sums (adt.py:157-163) -/
  | setSum (x : Nat) (T : Ty) (v : Nat)
  /-- `x[i]` on tuples (adt.py:45-46) -/
  | getItem (x : Nat) (i : Int)
  /-- `x.n` of products, `x.n.value` of unions (adt_meta.py:442-459, 543-561; adt.py:125-130) -/
  | getAttr (x : Nat) (n : Name)
  /-- `x[T].value` of sums (adt.py:125-130, 149-154) -/
  | getSum (x : Nat) (T : Ty)

inductive Prog
  | done
  | stmt (a : Stmt) (p : Prog)
  /-- `if x.n.match` -/
  | ifTag (x : Nat) (n : Name) (p q : Prog)
  /-- `if x[T].match` -/
  | ifSum (x : Nat) (T : Ty) (p q : Prog)

/-- Objects, the vectors and bits that are the payload of leaves, and what the variables refer to. -/
structure St (F : RFamily) where
  store : Store
  vals : List (Reg F.V F.B)
  vars : List Ref

def placeArg (g : Nat → PyM Nat) : Arg → PyM Arg
  | .reg i => do return .reg (← g i)
  | .int v => .ok (.int v)

/-- The instruction on other places. -/
def place (g : Nat → PyM Nat) : Instr → PyM Instr
  | .const r n v => .ok (.const r n v)
  | .un op x => do return .un op (← g x)
  | .bin op x y => do
      let x ← g x
      return .bin op x (← placeArg g y)
  | .cmp op x y => do
      let x ← g x
      return .cmp op x (← placeArg g y)
  | .rol x k => do return .rol (← g x) k
  | .ror x k => do return .ror (← g x) k
  | .zext x k => do return .zext (← g x) k
  | .sext x k => do return .sext (← g x) k
  | .slice x lo hi => do return .slice (← g x) lo hi
  | .index x i => do return .index (← g x) i
  | .concat x y => do
      let x ← g x
      return .concat x (← g y)
  | .adc x y c => do
      let x ← g x
      let y ← placeArg g y
      return .adc x y (← placeArg g c)
  | .opA op x y => do
      let x ← g x
      return .opA op x (← placeArg g y)
  | .opC op x y => do
      let x ← g x
      return .opC op x (← placeArg g y)
  | .bit op a b => do
      let a ← g a
      return .bit op a (← g b)
  | .bitNot a => do return .bitNot (← g a)
  | .mux c t f => do
      let c ← g c
      let t ← g t
      return .mux c t (← g f)

/-- What the variable refers to. -/
def var (vars : List Ref) (x : Nat) : PyM Ref :=
  match vars[x]? with
  | some r => .ok r
  | none => .error .nameError

/-- The payload of the vector or bit the variable refers to. -/
def payload (h : Store) (vars : List Ref) (x : Nat) : PyM Nat := do
  match h[← var vars x]? with
  | some (.leaf _ p) => .ok p
  | _ => .error .assertionError

def varKw (vars : List Ref) (p : Name × Nat) : PyM (Name × Ref) := do return (p.1, ← var vars p.2)

/-- The store after a statement that does not raise. -/
def done : Adt.Out → PyM Store
  | ⟨h, .ok _⟩ => .ok h
  | ⟨_, .error e⟩ => .error e

/-- Leaves for new vectors and bits, the first of which is number `n`. -/
def leaves (F : RFamily) : Nat → List (Reg F.V F.B) → Store
  | _, [] => []
  | n, v :: vs => .leaf (cls F v) n :: leaves F (n + 1) vs

section
variable (W : Adt.World) (F : RFamily)

/-- The family's vectors and bits as objects, each in a new variable. -/
def St.grow (s : St F) (vals : List (Reg F.V F.B)) : St F :=
  let new := leaves F s.vals.length (vals.drop s.vals.length)
  ⟨s.store ++ new, vals, s.vars ++ List.range' s.store.length new.length⟩

/-- A new object in a new variable. -/
def St.alloc (s : St F) (o : Adt.Obj) : St F := ⟨s.store ++ [o], s.vals, s.vars ++ [s.store.length]⟩

/-- An object in a new variable. -/
def St.push (s : St F) (r : Ref) : St F := ⟨s.store, s.vals, s.vars ++ [r]⟩

def exec1 (s : St F) : Stmt → PyM (St F)
  | .instr i => do
      let j ← place (payload s.store s.vars) i
      return s.grow F (← step F.toFamily s.vals j)
  | .new T pos kw => do
      let pos ← pos.mapM (var s.vars)
      let kw ← kw.mapM (varKw s.vars)
      return s.alloc F (← Adt.construct W s.store (move F.fam T) pos kw)
  | .member e i => if i < e.members.length then return s.alloc F (.enum e i) else .error .attributeError
  | .setItem x idx v => do
      let x ← var s.vars x
      let v ← var s.vars v
      let h ← done (s.store.setItem W x idx v)
      return ⟨h, s.vals, s.vars⟩
  | .setAttr x n v => do
      let x ← var s.vars x
      let v ← var s.vars v
      let h ← done (s.store.setAttr W x n v)
      return ⟨h, s.vals, s.vars⟩
  | .setSum x T v => do
      let x ← var s.vars x
      let v ← var s.vars v
      let h ← done (s.store.setSum W x (move F.fam T) v)
      return ⟨h, s.vals, s.vars⟩
  | .getItem x i => do
      let x ← var s.vars x
      return s.push F (← s.store.getItem x i)
  | .getAttr x n => do
      let x ← var s.vars x
      match ← s.store.getAttr x n with
      | .field v => return s.push F v
      | .match_ m => return s.push F (← m.value)
      | .call .. => .error .assertionError
  | .getSum x T => do
      let x ← var s.vars x
      let m ← s.store.getSum W x (move F.fam T)
      return s.push F (← m.value)

/-- `x.n.match` -/
def tagTest (s : St F) (x : Nat) (n : Name) : PyM Bool := do
  match ← s.store.getAttr (← var s.vars x) n with
  | .match_ m => return m.hit
  | .field _ => .error .assertionError
  | .call .. => .error .assertionError

/-- `x[T].match` -/
def sumTest (s : St F) (x : Nat) (T : Ty) : PyM Bool := do
  let m ← s.store.getSum W (← var s.vars x) (move F.fam T)
  return m.hit

def exec : St F → Prog → PyM (St F)
  | s, .done => .ok s
  | s, .stmt a p => do exec (← exec1 W F s a) p
  | s, .ifTag x n p q => do if ← tagTest F s x n then exec s p else exec s q
  | s, .ifSum x T p q => do if ← sumTest W F s x T then exec s p else exec s q

/-- The function called with vectors and bits, which are in the first variables. -/
def start (ins : List (Reg F.V F.B)) : St F := (⟨[], [], []⟩ : St F).grow F ins

/-- The vector or bit a variable refers to. -/
def St.value (s : St F) (x : Nat) : Option (Reg F.V F.B) :=
  match payload s.store s.vars x with
  | .ok p => s.vals[p]?
  | .error _ => none

end

end HW.Circuit.Records
