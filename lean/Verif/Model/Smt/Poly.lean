import Verif.Model.Smt.Bit
import Verif.Model.Smt.Ite

/-!
# Model of the operators of polymorphic symbolic vectors

`SMTBit.ite` on vectors of different classes makes a polymorphic class whose sign-dependent methods are `VCall`s
(bit_vector_util.py:54-97, 166-176): both methods are called and `select.ite` of the results is returned, here with a
*symbolic* condition.  `sbinA`, `sbinC` are the operators of vectors of all classes, with CPython's dispatch; on the predefined
classes they are `svecLeft`, `svecVec`, `scmpLeft`, `scmpVec` of `Model/Smt/Bit.lean` (`sbinA_root`, `sbinC_root` in
`Props/SmtPoly.lean`).
-/

namespace HW.Smt
open HW

/-- Function found under a sign-dependent special method name, as `HW.Impl`. -/
inductive SImpl
  | uns
  | sgn
  | vcall (id : Nat) (sel : Term) (a b : SImpl)
  deriving DecidableEq, Repr

/-- As `HW.Kind.slot`: only `SMTSIntVector` overrides (smt_bit_vector.py:614-678). -/
def SKind.slot : SKind → SImpl
  | .root .sint => .sgn
  | .root _ => .uns
  | .poly id t f sel => if t.slot = f.slot then t.slot else .vcall id sel t.slot f.slot

def AOp.sslot (op : AOp) (k : SKind) : SImpl := if op.signDep then k.slot else .uns
def COp.sslot (op : COp) (k : SKind) : SImpl := if op.signDep then k.slot else .uns

section
variable (S : Simplifier)

/-- `select.ite(v0, v1)` of two vectors (bit_vector_util.py:175). -/
def siteBV (sel : Term) (x y : SBV) : PyF SBV := do
  match ← sIte S sel (.bv x) (.bv y) with
  | .bv r => return r
  | _ => pyLift (.error .typeError)

/-- `select.ite(v0, v1)` of two bits. -/
def siteBit (sel a b : Term) : PyM Term := do bitF S (← node (.ite sel a b))

/-- `__op__`; `VCall` as in `HW.AOp.fwd` (line 173 tests `v0` twice, never `v1`). -/
def AOp.sfwd (op : AOp) : SImpl → SBV → SObj → PyF (Option SBV)
  | .uns, x, o => pyLift (tryOper (AOp.smtU S op x o))
  | .sgn, x, o => pyLift (tryOper (AOp.smtS S op x o))
  | .vcall _ sel a b, x, o => do
      let v0 ← AOp.sfwd op a x o
      let v1 ← AOp.sfwd op b x o
      match v0, v1 with
      | none, _ => return none
      | some _, none => pyLift (.error .typeError)
      | some v0, some v1 => return some (← siteBV S sel v0 v1)

/-- `__rop__` (smt_bit_vector.py:210-220, 535, 623 ...), as `HW.AOp.rev`. -/
def AOp.srev (op : AOp) : SImpl → SBV → SObj → PyF (Option SBV)
  | .uns, self, other =>
      if op = .shr then AOp.sfwd S op .uns self other
      else match scoerce S self.kind self.size other with
        | .ok y => AOp.sfwd S op .uns y (.bv self)
        | .error _ => pyLift (.error .nameError)
  | .sgn, self, other =>
      match scoerce S self.kind self.size other with
        | .ok y => AOp.sfwd S op .sgn y (.bv self)
        | .error _ => pyLift (.error .nameError)
  | .vcall _ sel a b, self, other => do
      let v0 ← AOp.srev op a self other
      let v1 ← AOp.srev op b self other
      match v0, v1 with
      | none, _ => return none
      | some _, none => pyLift (.error .typeError)
      | some v0, some v1 => return some (← siteBV S sel v0 v1)

/-- Comparison methods. -/
def COp.sfwd (op : COp) : SImpl → SBV → SObj → PyM (Option Term)
  | .uns, x, o => tryOper (COp.smtU S op x o)
  | .sgn, x, o => tryOper (COp.smtS S op x o)
  | .vcall _ sel a b, x, o => do
      let v0 ← COp.sfwd op a x o
      let v1 ← COp.sfwd op b x o
      match v0, v1 with
      | none, _ => return none
      | some _, none => .error .typeError
      | some v0, some v1 => return some (← siteBit S sel v0 v1)

def SBV.sameType (x y : SBV) : Bool := x.kind == y.kind && x.size == y.size
def SBV.properSub (y x : SBV) : Bool := !(x.sameType y) && y.size == x.size && y.kind.isSub x.kind

/-- `x op o`, a vector on the left (CPython `binary_op1`).  When a `SMTBit` on the right is asked too, its reflected
method declines a vector (`SMTBit(vector)` is a `TypeError`), so it changes nothing. -/
def sbinA (op : AOp) (x : SBV) (o : SObj) : PyF SBV := do
  let raise : PyF SBV := pyLift (.error .typeError)
  match o with
  | .bv y =>
      if SBV.properSub y x && AOp.sslot op y.kind != AOp.sslot op x.kind then
        match ← AOp.srev S op (AOp.sslot op y.kind) y (.bv x) with
        | some v => return v
        | none => match ← AOp.sfwd S op (AOp.sslot op x.kind) x o with
          | some v => return v
          | none => raise
      else match ← AOp.sfwd S op (AOp.sslot op x.kind) x o with
        | some v => return v
        | none =>
          if SBV.sameType x y then raise
          else match ← AOp.srev S op (AOp.sslot op y.kind) y (.bv x) with
            | some v => return v
            | none => raise
  | _ => match ← AOp.sfwd S op (AOp.sslot op x.kind) x o with
      | some v => return v
      | none => raise

/-- `o op x` for a left operand that is neither a vector nor a `SMTBit`. -/
def sbinARight (op : AOp) (o : SObj) (x : SBV) : PyF SBV := do
  match ← AOp.srev S op (AOp.sslot op x.kind) x o with
  | some v => return v
  | none => pyLift (.error .typeError)

/-- `x cmp o`, a vector on the left (CPython `do_richcompare`). -/
def sbinC (op : COp) (x : SBV) (o : SObj) : PyM IRes := do
  match o with
  | .bv y =>
      if SBV.properSub y x then
        match ← COp.sfwd S op.swap (COp.sslot op.swap y.kind) y (.bv x) with
        | some v => return .sym v
        | none => match ← COp.sfwd S op (COp.sslot op x.kind) x o with
          | some v => return .sym v
          | none => sdefaultC op
      else match ← COp.sfwd S op (COp.sslot op x.kind) x o with
        | some v => return .sym v
        | none => match ← COp.sfwd S op.swap (COp.sslot op.swap y.kind) y (.bv x) with
          | some v => return .sym v
          | none => sdefaultC op
  | _ => match ← COp.sfwd S op (COp.sslot op x.kind) x o with
      | some v => return .sym v
      | none => sdefaultC op

/-- `ext` (smt_bit_vector.py:571-572, 677-678), with `VCall`. -/
def sextImpl : SImpl → SBV → Int → PyF SBV
  | .uns, x, k => pyLift (x.zext S k)
  | .sgn, x, k => pyLift (x.sext S k)
  | .vcall _ sel a b, x, k => do
      let v0 ← sextImpl a x k
      let v1 ← sextImpl b x k
      siteBV S sel v0 v1

def SBV.ext (x : SBV) (k : Int) : PyF SBV := sextImpl S x.kind.slot x k

end
end HW.Smt
