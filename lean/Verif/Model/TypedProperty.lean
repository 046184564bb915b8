import Verif.Py.Basic

/-!
# `TypedProperty` (util.py:43-126)

Property objects live in a store, since `__call__` and `__set_name__` change them.  Functions, types and docstrings are
numbers.  A class body is a list of statements that bind names to property objects; making the class calls `__set_name__`
of every attribute.  Reading, writing and deleting an attribute of an instance says which function is called.
-/

namespace HW.TProp

abbrev Name := Nat
abbrev Fn := Nat
abbrev Ty := Nat

/-- The attributes set by `__init__` (util.py:76-82). -/
structure Obj where
  T : Ty
  final : Bool := false
  fget : Option Fn := none
  fset : Option Fn := none
  fdel : Option Fn := none
  doc : Option Nat := none
  deriving DecidableEq, Repr

/-- The objects made so far, and the names bound in the class body. -/
structure State where
  store : List Obj
  names : List (Name × Nat)
  deriving Repr

def init : State := ⟨[], []⟩

def State.lookup (s : State) (n : Name) : Option Nat := (s.names.find? fun e => e.1 == n).map (·.2)

/-- `TypedProperty(T)`. -/
def new (st : List Obj) (T : Ty) : List Obj × Nat := (st ++ [{ T := T }], st.length)

/-- `self(fget, fset, fdel, doc)` (util.py:84-91): changes and returns `self`; `docOf` gives `f.__doc__`. -/
def call (docOf : Fn → Option Nat) (st : List Obj) (i : Nat) (fget fset fdel : Option Fn) (doc : Option Nat) : List Obj :=
  st.modify i fun o => { o with
    fget := fget, fset := fset, fdel := fdel
    doc := match doc, fget with
      | some d, _ => some d
      | none, some f => docOf f
      | none, none => none }

/-- Decorators of a property (util.py:119-126). -/
inductive Dec | getter | setter | deleter
  deriving DecidableEq, Repr

/-- `p.getter(f)`, `p.setter(f)`, `p.deleter(f)`: `type(self)(self.T)(...)`. -/
def decorate (docOf : Fn → Option Nat) (st : List Obj) (o : Obj) (d : Dec) (f : Fn) : List Obj × Nat :=
  let (st1, i) := new st o.T
  match d with
  | .getter => (call docOf st1 i (some f) o.fset o.fdel o.doc, i)
  | .setter => (call docOf st1 i o.fget (some f) o.fdel o.doc, i)
  | .deleter => (call docOf st1 i o.fget o.fset (some f) o.doc, i)

/-- Statements of a class body. -/
inductive Stmt
  /-- `n = TypedProperty(T)` -/
  | make (n : Name) (T : Ty)
  /-- `@TypedProperty(T)` over `def n` -/
  | typed (n : Name) (T : Ty) (f : Fn)
  /-- `@src` over `def n` -/
  | apply (n src : Name) (f : Fn)
  /-- `@src.setter` over `def n` -/
  | dec (n src : Name) (d : Dec) (f : Fn)
  /-- `n = src` -/
  | copy (n src : Name)
  deriving DecidableEq, Repr

def State.bind (s : State) (n : Name) (i : Nat) : State := { s with names := (n, i) :: s.names }

def State.exec (docOf : Fn → Option Nat) (s : State) : Stmt → PyM State
  | .make n T =>
      let (st, i) := new s.store T
      .ok (State.bind { s with store := st } n i)
  | .typed n T f =>
      let (st, i) := new s.store T
      .ok (State.bind { s with store := call docOf st i (some f) none none none } n i)
  | .apply n src f => match s.lookup src with
      | some i => .ok (State.bind { s with store := call docOf s.store i (some f) none none none } n i)
      | none => .error .nameError
  | .dec n src d f => match s.lookup src with
      | some i => match s.store[i]? with
        | some o =>
            let (st, j) := decorate docOf s.store o d f
            .ok (State.bind { s with store := st } n j)
        | none => .error .nameError
      | none => .error .nameError
  | .copy n src => match s.lookup src with
      | some i => .ok (s.bind n i)
      | none => .error .nameError

def State.run (docOf : Fn → Option Nat) (s : State) : List Stmt → PyM State
  | [] => .ok s
  | t :: ts => do State.run docOf (← s.exec docOf t) ts

/-- `__set_name__` of one attribute (util.py:116-117). -/
def setName (st : List Obj) (i : Nat) : List Obj := st.modify i fun o => { o with final := true }

/-- `__set_name__` of the attribute bound to a name. -/
def State.mark (s : State) (st : List Obj) (n : Name) : List Obj := match s.lookup n with
  | some i => setName st i
  | none => st

/-- `type.__new__` calls `__set_name__` for the attributes bound at the end of the body. -/
def State.makeClass (s : State) : State :=
  { s with store := (s.names.map (·.1)).foldl s.mark s.store }

/-- What reading an attribute of the class gives (util.py:93-98). -/
inductive ClsGet | type (T : Ty) | prop (i : Nat)
  deriving DecidableEq, Repr

def State.clsGet (s : State) (n : Name) : PyM ClsGet := match s.lookup n with
  | some i => match s.store[i]? with
    | some o => .ok (if o.final then .type o.T else .prop i)
    | none => .error .attributeError
  | none => .error .attributeError

/-- The function called by `x.n` (util.py:100-102). -/
def State.get (s : State) (n : Name) : PyM Fn := match s.lookup n with
  | some i => match s.store[i]? with
    | some o => match o.fget with
      | some f => .ok f
      | none => .error .attributeError
    | none => .error .attributeError
  | none => .error .attributeError

/-- The function called by `x.n = v` (util.py:104-109); `inst v T` is `isinstance(v, T)`. -/
def State.set (s : State) (inst : Nat → Ty → Bool) (n : Name) (v : Nat) : PyM Fn := match s.lookup n with
  | some i => match s.store[i]? with
    | some o => match o.fset with
      | some f => if inst v o.T then .ok f else .error .typeError
      | none => .error .attributeError
    | none => .error .attributeError
  | none => .error .attributeError

/-- The function called by `del x.n` (util.py:111-114). -/
def State.del (s : State) (n : Name) : PyM Fn := match s.lookup n with
  | some i => match s.store[i]? with
    | some o => match o.fdel with
      | some f => .ok f
      | none => .error .attributeError
    | none => .error .attributeError
  | none => .error .attributeError

end HW.TProp
