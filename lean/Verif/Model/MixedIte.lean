import Verif.Model.Mixed
import Verif.Model.Smt.Ite

/-!
# `ite` with the selector and the branches from different families

`Bit.ite` and `SMTBit.ite` share `build_ite` (bit_vector_util.py:185-243), which does not look at families except when
it has to make a polymorphic class (71-73).  Here the leaves of the branches are bits and vectors of all three
families.  Then `z3Bit.ite` (z3_bit_vector.py:128-154) with branches of the concrete family.

Simplified: predefined bit classes; no objects following `BitVectorProtocol` among the branches.  `SMTBit.ite` on z3
objects hands a z3 expression to pysmt: the exception is a guess and nothing is claimed about it.
-/

namespace HW.Mixed
open HW Smt

inductive Fam | conc | smt | z3
  deriving DecidableEq, Repr

/-- A bit or a vector of some family. -/
inductive Leaf
  | cbit (b : Bool)
  | cbv (x : BVal)
  | sbit (t : Term)
  | sbv (x : SBV)
  | zbit (b : Z3.BoolE)
  | zbv (x : Z3.ZBV)

/-- The classes of bits and vectors. -/
inductive Cls
  | bit (f : Fam)
  | cvec (k : Kind) (n : Nat)
  | svec (k : SKind) (n : Nat)
  | zvec (r : Root) (n : Nat)
  deriving DecidableEq

/-- `type(x)`. -/
def Leaf.cls : Leaf → Cls
  | .cbit _ => .bit .conc
  | .cbv x => .cvec x.kind x.size
  | .sbit _ => .bit .smt
  | .sbv x => .svec x.kind x.size
  | .zbit _ => .bit .z3
  | .zbv x => .zvec x.root x.size

/-- `T.get_family()` (bit_vector.py:42-44, 178-180; smt_bit_vector.py:60-62, 224-226;
z3_bit_vector.py:54-56, 179-181). -/
def Cls.family : Cls → Fam
  | .bit f => f
  | .cvec .. => .conc
  | .svec .. => .smt
  | .zvec .. => .z3

/-- `T.size` of a vector class; nothing for a bit class. -/
def Cls.width : Cls → Option Nat
  | .bit _ => none
  | .cvec _ n | .svec _ n | .zvec _ n => some n

/-- The bit that selects. -/
inductive Sel
  | conc (b : Bool)
  | smt (t : Term)

def Sel.family : Sel → Fam
  | .conc _ => .conc
  | .smt _ => .smt

/-- A branch: leaves, tuples, and objects of unrelated classes. -/
inductive XBranch
  | leaf (l : Leaf)
  | tup (l : List XBranch)
  | other (c : Nat)

inductive XType
  | cls (c : Cls)
  | tup (l : List XType)

/-- `PolyBit[T0, T1, select]` (bit_vector_util.py:54-97, 152-156).  The predefined bit classes are one per family, so
two different ones are of different families (71-73). -/
def polyBit : PyF Cls := pyLift (.error .typeError)

/-- `PolyVector[T0, T1, select]` (bit_vector_util.py:54-97, 121-150): widths (126-127), then families (71-73), then the
new class. -/
def polyVec (sel : Sel) (T0 T1 : Cls) : PyF Cls := fun i =>
  if T0.width ≠ T1.width then .error .inconsistentSize
  else if T0.family ≠ T1.family ∨ T0.family ≠ sel.family then .error .typeError
  else match sel, T0, T1 with
    | .conc b, .cvec k0 n, .cvec k1 _ => .ok (.cvec (.poly i k0 k1 b) n, i + 1)
    | .smt t, .svec k0 n, .svec k1 _ => .ok (.svec (.poly i k0 k1 t) n, i + 1)
    | _, _, _ => .error .typeError

/-- `determine_return_type._recurse` on two bits or vectors (bit_vector_util.py:201-208, 214). -/
def leafType (sel : Sel) (t f : Leaf) : PyF Cls :=
  match t.cls.width, f.cls.width with
  | none, none => if t.cls = f.cls then pure t.cls else polyBit
  | some _, some _ => if t.cls = f.cls then pure t.cls else polyVec sel t.cls f.cls
  | _, _ => pyLift (.error .typeError)

mutual
/-- `determine_return_type._recurse` (bit_vector_util.py:186-214). -/
def xType (sel : Sel) : XBranch → XBranch → PyF XType
  | .tup ts, .tup fs =>
      if ts.length = fs.length then fun i =>
        match xTypes sel ts fs i with
        | .ok (l, i) => .ok (.tup l, i)
        | .error e => if e.isTypeError then .error .typeError else .error e
      else pyLift (.error .typeError)
  | .leaf t, .leaf f => do return .cls (← leafType sel t f)
  | _, _ => pyLift (.error .typeError)
/-- The generator in line 194. -/
def xTypes (sel : Sel) : List XBranch → List XBranch → PyF (List XType)
  | t :: ts, f :: fs => do
      let r ← xType sel t f
      return r :: (← xTypes sel ts fs)
  | _, _ => pure []
end

/-- What `push_ite` returns: the leaves themselves, or the terms made by the symbolic selector. -/
inductive XRaw
  | leaf (l : Leaf)
  | term (t : Term)
  | tup (l : List XRaw)

/-- `t.value` for `smt.Ite` (smt_bit_vector.py:155-156): a concrete bit has no attribute `value`, that of a concrete
vector is an int, which has none of the attributes that pysmt asks its nodes for. -/
def Leaf.term : Leaf → PyM Term
  | .sbit t => .ok t
  | .sbv x => .ok x.term
  | _ => .error .attributeError

/-- The `_ite` of the selector: `t_branch if select else f_branch` (bit_vector.py:112-113), or an SMT `Ite`
(smt_bit_vector.py:155-156). -/
def leafIte : Sel → Leaf → Leaf → PyM XRaw
  | .conc b, t, f => .ok (.leaf (if b then t else f))
  | .smt s, t, f => do
      let t ← t.term
      let f ← f.term
      return .term (← node (.ite s t f))

mutual
/-- `push_ite._recurse` (bit_vector_util.py:227-236). -/
def xPush (sel : Sel) : XBranch → XBranch → PyM XRaw
  | .tup ts, .tup fs =>
      if ts.length = fs.length then do return .tup (← xPushes sel ts fs)
      else .error .assertionError
  | .tup _, _ => .error .assertionError
  | .leaf t, .leaf f => leafIte sel t f
  | _, _ => .error .attributeError
def xPushes (sel : Sel) : List XBranch → List XBranch → PyM (List XRaw)
  | t :: ts, f :: fs => do
      let r ← xPush sel t f
      return r :: (← xPushes sel ts fs)
  | _, _ => pure []
end

section
variable (S : Simplifier)

/-- `T(value)` where the value is of the family of `T`, or a term. -/
def castLeaf : Cls → XRaw → PyM Leaf
  | .bit .conc, .leaf (.cbit b) => do return .cbit (← mkBit (.bit b))
  | .cvec k n, .leaf (.cbv x) => do return .cbv (← HW.mkBV k n (.bv x))
  | .bit .smt, .leaf (.sbit t) => do return .sbit (← mkSBit S (.bit t))
  | .bit .smt, .term t => do return .sbit (← bitF S t)
  | .svec k n, .leaf (.sbv x) => do return .sbv (← mkSBV S k n (.bv x))
  | .svec k n, .term t => do return .sbv (← bvF S k n t)
  | .bit .z3, .leaf (.zbit b) => do return .zbit (← Z3.mkZBit (.bit b))
  | .zvec r n, .leaf (.zbv x) => do return .zbv (← Z3.mkZBV r n (.bv x))
  | _, _ => .error .typeError   -- unreachable: `leafType` and `leafIte` agree on the family

mutual
/-- `coerce_branch` (bit_vector_util.py:218-224). -/
def xCoerce : XType → XRaw → PyM XBranch
  | .tup rs, .tup bs =>
      if rs.length = bs.length then do return .tup (← xCoerces rs bs)
      else .error .assertionError
  | .tup _, _ => .error .assertionError
  | .cls c, v => do return .leaf (← castLeaf S c v)
def xCoerces : List XType → List XRaw → PyM (List XBranch)
  | r :: rs, b :: bs => do
      let x ← xCoerce r b
      return x :: (← xCoerces rs bs)
  | _, _ => pure []
end

/-- `select.ite(t, f)` (bit_vector.py:95-115, smt_bit_vector.py:154-159): `build_ite` (bit_vector_util.py:239-243). -/
def xIte (sel : Sel) (t f : XBranch) : PyF XBranch := do
  let r ← xType sel t f
  let v ← pyLift (xPush sel t f)
  pyLift (xCoerce S r v)

end

/-! ### `z3Bit.ite` with branches of the concrete family -/

/-- A branch for `z3Bit.ite`: a vector of the z3 family or a concrete object. -/
inductive ZSide
  | z (x : Z3.ZBV)
  | c (o : CVal)

/-- `z3BitVector(o)`, the unsized class (bit_vector_abc.py:23-48), for a concrete object: the width of a vector (34-35),
1 for a bit (36-37); then `z3BitVector[n](int(o))` (z3_bit_vector.py:237-239). -/
def zUnsized (o : CVal) : PyM Z3.ZBV :=
  match o with
  | .bv X => do Z3.mkZBV .bv X.size (← o.toZ3)
  | .bit _ => do Z3.mkZBV .bv 1 (← o.toZ3)

/-- `z3Bit.ite` (z3_bit_vector.py:128-154). -/
def zMixIte (c : Z3.BoolE) : ZSide → ZSide → PyM Z3.ZBV
  | .z t, .z f =>
      if ¬ (t.root = f.root ∧ t.size = f.size) then .error .typeError
      else Z3.iteF c t.root t.size t f
  | .z t, .c f => do Z3.iteF c t.root t.size t (← Z3.mkZBV t.root t.size (← f.toZ3))
  | .c t, .z f => do Z3.iteF c f.root f.size (← Z3.mkZBV f.root f.size (← t.toZ3)) f
  | .c t, .c f => do
      let t ← zUnsized t
      let f ← zUnsized f
      let ext : Int := (t.size : Int) - f.size
      if ext > 0 then do Z3.iteF c t.root t.size t (← f.zext ext)
      else if ext < 0 then do
        let t ← t.zext (-ext)
        Z3.iteF c t.root t.size t f
      else Z3.iteF c t.root t.size t f

end HW.Mixed
