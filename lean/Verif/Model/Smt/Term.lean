import Verif.Py.Basic

/-!
# SMT terms (pysmt `FNode`s) and their meaning

pysmt is a third-party library and not part of the repository.  What hwtypes uses of it is
represented here: sorts, term constructors with pysmt's argument checks
(`pysmt.formula.FormulaManager`; ill-sorted applications raise `PysmtTypeError`, a `TypeError`), and
the SMT-LIB meaning of each symbol, taken from Lean's own `BitVec` library.
-/

namespace HW.Smt

/-- Sorts: `BOOL`, `INT`, `BVType(w)`. -/
inductive Ty
  | bool
  | int
  | bv (w : Nat)
  deriving DecidableEq, Repr

/-- Symbol names (strings as character lists). -/
abbrev Name := List Char

/-- Unary symbols; `extract lo hi` has both ends inclusive. -/
inductive UOp
  | not | bvnot | bvneg
  | extract (lo hi : Nat)
  | zext (k : Nat) | sext (k : Nat)
  | rol (k : Nat) | ror (k : Nat)
  | rep (k : Nat)
  | bv2nat
  deriving DecidableEq, Repr

/-- Binary symbols. -/
inductive BOp
  | and | or | iff | equals
  | bvand | bvor | bvxor | bvshl | bvlshr | bvashr | bvadd | bvsub | bvmul
  | bvudiv | bvurem | bvsdiv | bvsrem | bvcomp | bvconcat
  | bvult | bvule | bvslt | bvsle
  | plus | minus | times | div | le | lt
  deriving DecidableEq, Repr

inductive Term
  | sym (name : Name) (ty : Ty)
  | boolC (b : Bool)
  | intC (i : Int)
  | bvC (v : Nat) (w : Nat)
  | un (op : UOp) (t : Term)
  | bin (op : BOp) (a b : Term)
  | ite (c t f : Term)
  deriving DecidableEq, Repr

/-- Values. -/
inductive Val
  | bool (b : Bool)
  | int (i : Int)
  | bv (w : Nat) (x : BitVec w)
  deriving DecidableEq, Repr

def Val.ty : Val → Ty
  | .bool _ => .bool
  | .int _ => .int
  | .bv w _ => .bv w

/-- An assignment of values to the symbols. -/
structure Env where
  bool : Name → Bool
  int : Name → Int
  bv : Name → (w : Nat) → BitVec w

def Env.get (e : Env) (n : Name) : Ty → Val
  | .bool => .bool (e.bool n)
  | .int => .int (e.int n)
  | .bv w => .bv w (e.bv n w)

/-- Result sort, `none` if ill-sorted. -/
def UOp.ty? : UOp → Ty → Option Ty
  | .not, .bool => some .bool
  | .bvnot, .bv w => some (.bv w)
  | .bvneg, .bv w => some (.bv w)
  | .extract lo hi, .bv w => if lo ≤ hi ∧ hi < w then some (.bv (hi - lo + 1)) else none
  | .zext k, .bv w => some (.bv (w + k))
  | .sext k, .bv w => some (.bv (w + k))
  | .rol k, .bv w => if k ≤ w then some (.bv w) else none
  | .ror k, .bv w => if k ≤ w then some (.bv w) else none
  | .rep k, .bv w => some (.bv (w * k))
  | .bv2nat, .bv _ => some .int
  | _, _ => none

def BOp.ty? : BOp → Ty → Ty → Option Ty
  | .and, .bool, .bool | .or, .bool, .bool | .iff, .bool, .bool => some .bool
  | .equals, .bv w, .bv w' => if w = w' then some .bool else none
  | .equals, .int, .int => some .bool
  | .bvconcat, .bv w, .bv w' => some (.bv (w + w'))
  | .bvcomp, .bv w, .bv w' => if w = w' then some (.bv 1) else none
  | .bvult, .bv w, .bv w' | .bvule, .bv w, .bv w' | .bvslt, .bv w, .bv w' | .bvsle, .bv w, .bv w' =>
      if w = w' then some .bool else none
  | .bvand, .bv w, .bv w' | .bvor, .bv w, .bv w' | .bvxor, .bv w, .bv w' | .bvshl, .bv w, .bv w'
  | .bvlshr, .bv w, .bv w' | .bvashr, .bv w, .bv w' | .bvadd, .bv w, .bv w' | .bvsub, .bv w, .bv w'
  | .bvmul, .bv w, .bv w' | .bvudiv, .bv w, .bv w' | .bvurem, .bv w, .bv w' | .bvsdiv, .bv w, .bv w'
  | .bvsrem, .bv w, .bv w' => if w = w' then some (.bv w) else none
  | .plus, .int, .int | .minus, .int, .int | .times, .int, .int | .div, .int, .int => some .int
  | .le, .int, .int | .lt, .int, .int => some .bool
  | _, _, _ => none

/-- Sort of a term (pysmt's type checker). -/
def Term.ty? : Term → Option Ty
  | .sym _ ty => some ty
  | .boolC _ => some .bool
  | .intC _ => some .int
  | .bvC v w => if v < 2 ^ w then some (.bv w) else none
  | .un op t => t.ty?.bind op.ty?
  | .bin op a b => a.ty?.bind fun x => b.ty?.bind fun y => op.ty? x y
  | .ite c t f => match c.ty?, t.ty?, f.ty? with
    | some .bool, some x, some y => if x = y then some x else none
    | _, _, _ => none

/-- SMT-LIB meaning of the unary symbols. -/
def UOp.eval : UOp → Val → Option Val
  | .not, .bool b => some (.bool !b)
  | .bvnot, .bv w x => some (.bv w (~~~x))
  | .bvneg, .bv w x => some (.bv w (-x))
  | .extract lo hi, .bv w x =>
      if lo ≤ hi ∧ hi < w then some (.bv (hi - lo + 1) (x.extractLsb hi lo)) else none
  | .zext k, .bv w x => some (.bv (w + k) (x.zeroExtend (w + k)))
  | .sext k, .bv w x => some (.bv (w + k) (x.signExtend (w + k)))
  | .rol k, .bv w x => if k ≤ w then some (.bv w (x.rotateLeft k)) else none
  | .ror k, .bv w x => if k ≤ w then some (.bv w (x.rotateRight k)) else none
  | .rep k, .bv w x => some (.bv (w * k) (x.replicate k))
  | .bv2nat, .bv _ x => some (.int x.toNat)
  | _, _ => none

/-- Operations on two vectors of one width. -/
def BOp.bv? : BOp → Option ((w : Nat) → BitVec w → BitVec w → BitVec w)
  | .bvand => some fun _ x y => x &&& y
  | .bvor => some fun _ x y => x ||| y
  | .bvxor => some fun _ x y => x ^^^ y
  | .bvshl => some fun _ x y => x <<< y
  | .bvlshr => some fun _ x y => x >>> y
  | .bvashr => some fun _ x y => x.sshiftRight' y
  | .bvadd => some fun _ x y => x + y
  | .bvsub => some fun _ x y => x - y
  | .bvmul => some fun _ x y => x * y
  | .bvudiv => some fun _ x y => x.smtUDiv y
  | .bvurem => some fun _ x y => x % y
  | .bvsdiv => some fun _ x y => x.smtSDiv y
  | .bvsrem => some fun _ x y => x.srem y
  | _ => none

/-- Predicates on two vectors of one width. -/
def BOp.rel? : BOp → Option ((w : Nat) → BitVec w → BitVec w → Bool)
  | .equals => some fun _ x y => x == y
  | .bvult => some fun _ x y => x.ult y
  | .bvule => some fun _ x y => x.ule y
  | .bvslt => some fun _ x y => x.slt y
  | .bvsle => some fun _ x y => x.sle y
  | _ => none

/-- SMT-LIB meaning of the binary symbols. -/
def BOp.eval (op : BOp) : Val → Val → Option Val
  | .bool a, .bool b => match op with
    | .and => some (.bool (a && b))
    | .or => some (.bool (a || b))
    | .iff => some (.bool (a == b))
    | _ => none
  | .int a, .int b => match op with
    | .plus => some (.int (a + b))
    | .minus => some (.int (a - b))
    | .times => some (.int (a * b))
    | .div => some (.int (a / b))            -- Euclidean, as SMT-LIB's `div`
    | .equals => some (.bool (a == b))
    | .le => some (.bool (decide (a ≤ b)))
    | .lt => some (.bool (decide (a < b)))
    | _ => none
  | .bv w x, .bv w' y =>
      if op = .bvconcat then some (.bv (w + w') (x ++ y))
      else if h : w' = w then
        if op = .bvcomp then some (.bv 1 (BitVec.ofBool (x == h ▸ y)))
        else match op.bv?, op.rel? with
          | some f, _ => some (.bv w (f w x (h ▸ y)))
          | none, some r => some (.bool (r w x (h ▸ y)))
          | none, none => none
      else none
  | _, _ => none

/-- Value of a term under an assignment. -/
def Term.eval (e : Env) : Term → Option Val
  | .sym n ty => some (e.get n ty)
  | .boolC b => some (.bool b)
  | .intC i => some (.int i)
  | .bvC v w => if v < 2 ^ w then some (.bv w (BitVec.ofNat w v)) else none
  | .un op t => (t.eval e).bind op.eval
  | .bin op a b => (a.eval e).bind fun x => (b.eval e).bind fun y => op.eval x y
  | .ite c t f => match c.eval e, t.eval e, f.eval e with
    | some (.bool b), some x, some y => if x.ty = y.ty then some (if b then x else y) else none
    | _, _, _ => none

/-! ### pysmt constructors with their checks -/

/-- `create_node` followed by the type check. -/
def node (t : Term) : PyM Term := if t.ty?.isSome then .ok t else .error .typeError

/-- `BV(value, width)`: negative or too large values raise `PysmtValueError`, a `ValueError`. -/
def mkBV (v : Int) (w : Nat) : PyM Term :=
  if v < 0 then .error .valueError
  else if v ≥ 2 ^ w then .error .valueError
  else .ok (.bvC v.toNat w)

/-- `FNode.__getitem__` → `BVExtract(formula, start, end)`: `assert`s `0 ≤ start ≤ end < width`. -/
def bvExtract (t : Term) (start stop : Int) : PyM Term :=
  match t.ty? with
  | some (.bv w) =>
      if start ≤ stop ∧ 0 ≤ start ∧ stop < w then .ok (.un (.extract start.toNat stop.toNat) t)
      else .error .assertionError
  | _ => .error .typeError

/-- `BVRol`, `BVRor`: steps outside `[0, width]` raise `PysmtValueError`. -/
def bvRot (op : Nat → UOp) (t : Term) (k : Int) : PyM Term :=
  match t.ty? with
  | some (.bv w) => if 0 ≤ k ∧ k ≤ w then .ok (.un (op k.toNat) t) else .error .valueError
  | _ => .error .typeError

/-- `BVRepeat(formula, count)`: `count < 1` is a `PysmtValueError`; otherwise a concatenation. -/
def bvRepeat (t : Term) (k : Int) : PyM Term :=
  match t.ty? with
  | some (.bv _) => if 1 ≤ k then .ok (.un (.rep k.toNat) t) else .error .valueError
  | _ => .error .typeError

/-- `smt.simplify`: any function that preserves the sort and, under every assignment, the value.
All statements about symbolic values hold for every such simplifier. -/
structure Simplifier where
  run : Term → Term
  ty : ∀ t τ, t.ty? = some τ → (run t).ty? = some τ
  eval : ∀ e t v, t.eval e = some v → (run t).eval e = some v

end HW.Smt
