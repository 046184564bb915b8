import Verif.Model.Ite

/-!
# Model of the operators of `Bit` and the vector classes, with CPython's dispatch

`NotImplemented` is `none`.  Objects other than `Bit` and vectors are assumed to have no operator
of their own that accepts a hwtypes operand (true of int, bool, list, tuple and of classes without
operators; *not* of `str % x`, which is string formatting).
-/

namespace HW

/-- Arithmetic, bitwise and shift operators. -/
inductive AOp
  | and | or | xor | shl | shr | add | sub | mul | fdiv | mod
  deriving DecidableEq, Repr

/-- Comparison operators. -/
inductive COp
  | eq | ne | ge | gt | le | lt
  deriving DecidableEq, Repr

/-- The reflected comparison (Python data model). -/
def COp.swap : COp → COp
  | .eq => .eq | .ne => .ne | .ge => .le | .gt => .lt | .le => .ge | .lt => .gt

/-- Function found under a sign-dependent special method name in a class:
`uns` the `BitVector` one, `sgn` the `SIntVector` one, `vcall id sel a b` the `VCall` built for
the polymorphic class `id` (bit_vector_util.py:166-176). -/
inductive Impl
  | uns
  | sgn
  | vcall (id : Nat) (sel : Bool) (a b : Impl)
  deriving DecidableEq, Repr

/-- Resolution of a sign-dependent attribute: only `SIntVector` overrides them
(bit_vector.py:518-589); a polymorphic class takes the common function if both classes have the
same one (`m0 is m1`, bit_vector_util.py:167), else a new `VCall`. -/
def Kind.slot : Kind → Impl
  | .root .sint => .sgn
  | .root _ => .uns
  | .poly id t f sel => if t.slot = f.slot then t.slot else .vcall id sel t.slot f.slot

/-- `SIntVector` overrides exactly `>> // %` among the arithmetic operators
(bit_vector.py:521-553). -/
def AOp.signDep : AOp → Bool
  | .shr | .fdiv | .mod => true
  | _ => false

/-- `SIntVector` overrides exactly `>= > < <=` (bit_vector.py:555-581). -/
def COp.signDep : COp → Bool
  | .eq | .ne => false
  | _ => true

def AOp.slot (op : AOp) (k : Kind) : Impl := if op.signDep then k.slot else .uns
def COp.slot (op : COp) (k : Kind) : Impl := if op.signDep then k.slot else .uns

/-- The method behind the `BitVector` operator (bit_vector.py:402-441). -/
def AOp.uMethod : AOp → BVal → Obj → PyM BVal
  | .and => BVal.bvand
  | .or => BVal.bvor
  | .xor => BVal.bvxor
  | .shl => BVal.bvshl
  | .shr => BVal.bvlshr
  | .add => BVal.bvadd
  | .sub => BVal.bvsub
  | .mul => BVal.bvmul
  | .fdiv => BVal.bvudiv
  | .mod => BVal.bvurem

/-- The method behind the `SIntVector` operator (bit_vector.py:521-553). -/
def AOp.sMethod : AOp → BVal → Obj → PyM BVal
  | .shr => BVal.bvashr
  | .fdiv => BVal.bvsdiv
  | .mod => BVal.bvsrem
  | op => op.uMethod

def COp.uMethod : COp → BVal → Obj → PyM Bool
  | .eq => BVal.bveq
  | .ne => BVal.bvne
  | .ge => BVal.bvuge
  | .gt => BVal.bvugt
  | .le => BVal.bvule
  | .lt => BVal.bvult

def COp.sMethod : COp → BVal → Obj → PyM Bool
  | .ge => BVal.bvsge
  | .gt => BVal.bvsgt
  | .le => BVal.bvsle
  | .lt => BVal.bvslt
  | op => op.uMethod

/-- The `try ... except InconsistentSizeError: raise; except TypeError: return NotImplemented`
of `dispatch_oper` (bit_vector.py:151-160) and of the `SIntVector` operators. -/
def tryOper {α : Type} (r : PyM α) : PyM (Option α) :=
  match r with
  | .ok a => .ok (some a)
  | .error .inconsistentSize => .error .inconsistentSize
  | .error .typeError => .ok none
  | .error e => .error e

/-- `__op__` of a vector. For `vcall`: bit_vector_util.py:170-175 (both functions are called; line
173 tests `v0` twice and never `v1`; `select.ite(v0, NotImplemented)` is a `TypeError`). -/
def AOp.fwd (op : AOp) : Impl → BVal → Obj → PyF (Option BVal)
  | .uns, x, o => pyLift (tryOper (op.uMethod x o))
  | .sgn, x, o => pyLift (tryOper (op.sMethod x o))
  | .vcall _ sel a b, x, o => do
      let v0 ← op.fwd a x o
      let v1 ← op.fwd b x o
      match v0, v1 with
      | none, _ => return none
      | some _, none => pyLift (.error .typeError)
      | some v0, some v1 => return some (← iteBV sel v0 v1)

/-- `__rop__` of a vector: `dispatch_roper` (bit_vector.py:164-174), whose misspelled
`except inconsistentsizeerror` turns every coercion failure into `NameError`; `BitVector.__rrshift__`
is made with `dispatch_oper` (bit_vector.py:417), which does not swap the operands. -/
def AOp.rev (op : AOp) : Impl → BVal → Obj → PyF (Option BVal)
  | .uns, self, other =>
      if op = .shr then op.fwd .uns self other
      else match coerce self.kind self.size other with
        | .ok y => op.fwd .uns y (.bv self)
        | .error _ => pyLift (.error .nameError)
  | .sgn, self, other =>
      match coerce self.kind self.size other with
        | .ok y => op.fwd .sgn y (.bv self)
        | .error _ => pyLift (.error .nameError)
  | .vcall _ sel a b, self, other => do
      let v0 ← op.rev a self other
      let v1 ← op.rev b self other
      match v0, v1 with
      | none, _ => return none
      | some _, none => pyLift (.error .typeError)
      | some v0, some v1 => return some (← iteBV sel v0 v1)

/-- Comparison method of a vector (`Bit` results, so `select.ite` picks one). -/
def COp.fwd (op : COp) : Impl → BVal → Obj → PyM (Option Bool)
  | .uns, x, o => tryOper (op.uMethod x o)
  | .sgn, x, o => tryOper (op.sMethod x o)
  | .vcall _ sel a b, x, o => do
      let v0 ← op.fwd a x o
      let v1 ← op.fwd b x o
      match v0, v1 with
      | none, _ => return none
      | some _, none => .error .typeError
      | some v0, some v1 => return some (if sel then v0 else v1)

/-- `type(x)` is `type(y)`. -/
def BVal.sameType (x y : BVal) : Bool := x.kind == y.kind && x.size == y.size

/-- `issubclass(type(y), type(x))`, proper. Sized classes of different widths are unrelated
(C32). -/
def BVal.properSub (y x : BVal) : Bool :=
  !(x.sameType y) && y.size == x.size && y.kind.isSub x.kind

/-- Bit operators (bit_vector.py:63-92) behind `bit_cast` (27-38): `NotImplemented` for other
operators and when `Bit(other)` raises `TypeError`. -/
def bitA (op : AOp) (b : Bool) (o : Obj) : PyM (Option Bool) :=
  match op with
  | .and => castBit fun c => b && c
  | .or => castBit fun c => b || c
  | .xor => castBit fun c => b != c
  | _ => .ok none
where
  castBit (f : Bool → Bool) : PyM (Option Bool) :=
    match mkBit o with
    | .ok c => .ok (some (f c))
    | .error e => if e.isTypeError then .ok none else .error e

/-- `Bit.__eq__`, `Bit.__ne__` (bit_vector.py:63-69); `Bit` has no ordering. -/
def bitC (op : COp) (b : Bool) (o : Obj) : PyM (Option Bool) :=
  match op with
  | .eq => castBit fun c => b == c
  | .ne => castBit fun c => b != c
  | _ => .ok none
where
  castBit (f : Bool → Bool) : PyM (Option Bool) :=
    match mkBit o with
    | .ok c => .ok (some (f c))
    | .error e => if e.isTypeError then .ok none else .error e

/-- `type(l).__op__(l, r)`. -/
def fwdA (op : AOp) (l r : Obj) : PyF (Option Obj) :=
  match l with
  | .bv x => do return (← op.fwd (op.slot x.kind) x r).map .bv
  | .bit b => pyLift do return (← bitA op b r).map .bit
  | _ => pure none

/-- `type(r).__rop__(r, l)` (`Bit.__rand__` etc. are symmetric, bit_vector.py:75-92). -/
def revA (op : AOp) (l r : Obj) : PyF (Option Obj) :=
  match r with
  | .bv y => do return (← op.rev (op.slot y.kind) y l).map .bv
  | .bit b => pyLift do return (← bitA op b l).map .bit
  | _ => pure none

/-- `l op r` (CPython `binary_op1`/`SLOT1BINFULL`): the reflected method goes first if the right
operand's class is a proper subclass that overrides it. -/
def binA (op : AOp) (l r : Obj) : PyF Obj := do
  let raise : PyF Obj := pyLift (.error .typeError)
  match l, r with
  | .bv x, .bv y =>
      if y.properSub x && op.slot y.kind != op.slot x.kind then
        match ← revA op l r with
        | some v => return v
        | none => match ← fwdA op l r with
          | some v => return v
          | none => raise
      else match ← fwdA op l r with
        | some v => return v
        | none =>
          if x.sameType y then raise
          else match ← revA op l r with
            | some v => return v
            | none => raise
  | .bit _, .bit _ => match ← fwdA op l r with
      | some v => return v
      | none => raise
  | _, _ => match ← fwdA op l r with
      | some v => return v
      | none => match ← revA op l r with
        | some v => return v
        | none => raise

/-- `type(l).__cmp__(l, r)`. -/
def fwdC (op : COp) (l r : Obj) : PyM (Option Bool) :=
  match l with
  | .bv x => op.fwd (op.slot x.kind) x r
  | .bit b => bitC op b r
  | _ => .ok none

/-- Fallback of `==`, `!=` (identity; the two operands are distinct objects when both decline) and
of the orderings. -/
def defaultC : COp → PyM Obj
  | .eq => .ok (.bool false)
  | .ne => .ok (.bool true)
  | _ => .error .typeError

/-- `l cmp r` (CPython `do_richcompare`). -/
def binC (op : COp) (l r : Obj) : PyM Obj := do
  let sub := match l, r with
    | .bv x, .bv y => y.properSub x
    | _, _ => false
  if sub then
    match ← fwdC op.swap r l with
    | some v => return .bit v
    | none => match ← fwdC op l r with
      | some v => return .bit v
      | none => defaultC op
  else match ← fwdC op l r with
    | some v => return .bit v
    | none => match ← fwdC op.swap r l with
      | some v => return .bit v
      | none => defaultC op

/-- `~x` (bit_vector.py:402, 60) and `-x` (bit_vector.py:419), with those of `int`. -/
def unInvert : Obj → PyM Obj
  | .bv x => do return .bv (← x.bvnot)
  | .bit b => .ok (.bit (!b))
  | .int v => .ok (.int (pyNot v))
  | .bool b => .ok (.int (pyNot (b2i b)))
  | _ => .error .typeError
def unNeg : Obj → PyM Obj
  | .bv x => do return .bv (← x.bvneg)
  | .int v => .ok (.int (-v))
  | .bool b => .ok (.int (-b2i b))
  | _ => .error .typeError

/-- `ext` (bit_vector.py:487-488, 588-589), with `VCall` for polymorphic classes. -/
def extImpl : Impl → BVal → Int → PyF BVal
  | .uns, x, k => pyLift (x.zext k)
  | .sgn, x, k => pyLift (x.sext k)
  | .vcall _ sel a b, x, k => do
      let v0 ← extImpl a x k
      let v1 ← extImpl b x k
      iteBV sel v0 v1

def BVal.ext (x : BVal) (k : Int) : PyF BVal := extImpl x.kind.slot x k

end HW
