import Verif.Model.Ite
import Verif.Model.Smt.Vector

/-!
# Model of `SMTBit.ite`, `SMTBitVector.ite` and `substitute`

`bit_vector_util.build_ite` with the `_ite` of `SMTBit` (smt_bit_vector.py:154-159), which builds an
SMT `Ite` term.  Class creation as in `Verif.Model.Ite`.
-/

namespace HW.Smt
open HW

/-- A class implementing `BitVectorProtocol` over symbolic vectors. -/
structure SProto where
  id : Nat
  kind : SKind
  size : Nat
  deriving DecidableEq, Repr

/-- Branches, as `HW.Branch`. -/
inductive SBranch
  | bit (t : Term)
  | bv (x : SBV)
  | tup (l : List SBranch)
  | proto (c : SProto) (x : SBV)
  | other (c : Nat)
  deriving Repr

inductive SRType
  | bit
  | vec (k : SKind) (n : Nat)
  | tup (l : List SRType)
  | fromBV (c : SProto)
  deriving Repr

/-- `PolyVector[T0, T1, select]` (bit_vector_util.py:54-97, 121-150). -/
def spolyVector (k0 : SKind) (n0 : Nat) (k1 : SKind) (n1 : Nat) (sel : Term) : PyF SKind := fun i =>
  if n0 ≠ n1 then .error .inconsistentSize else .ok (.poly i k0 k1 sel, i + 1)

mutual
/-- `determine_return_type._recurse` (bit_vector_util.py:186-214). -/
def sreturnType (sel : Term) : SBranch → SBranch → PyF SRType
  | .tup ts, .tup fs =>
      if ts.length = fs.length then fun i =>
        match sreturnTypes sel ts fs i with
        | .ok (l, i) => .ok (.tup l, i)
        | .error e => if e.isTypeError then .error .typeError else .error e
      else pyLift (.error .typeError)
  | .tup _, _ => pyLift (.error .typeError)
  | _, .tup _ => pyLift (.error .typeError)
  | .bit _, .bit _ => pure .bit
  | .bv x, .bv y =>
      if x.kind = y.kind ∧ x.size = y.size then pure (.vec x.kind x.size)
      else do return .vec (← spolyVector x.kind x.size y.kind y.size sel) x.size
  | .proto c _, .proto c' _ =>
      if c = c' then pure (.fromBV c) else pyLift (.error .typeError)
  | _, _ => pyLift (.error .typeError)
def sreturnTypes (sel : Term) : List SBranch → List SBranch → PyF (List SRType)
  | t :: ts, f :: fs => do
      let r ← sreturnType sel t f
      return r :: (← sreturnTypes sel ts fs)
  | _, _ => pure []
end

/-- What `push_ite` returns: terms and tuples of terms. -/
inductive Raw
  | term (t : Term)
  | tup (l : List Raw)
  deriving Repr

/-- `_ite` (smt_bit_vector.py:155-156): reads `.value` of both, so an object without raises. -/
def smtIte (sel : Term) : SBranch → SBranch → PyM Raw
  | .bit t, .bit f => do return .term (← node (.ite sel t f))
  | .bv t, .bv f => do return .term (← node (.ite sel t.term f.term))
  | .bit t, .bv f => do return .term (← node (.ite sel t f.term))
  | .bv t, .bit f => do return .term (← node (.ite sel t.term f))
  | _, _ => .error .attributeError

mutual
/-- `push_ite._recurse` (bit_vector_util.py:227-236). -/
def spushIte (sel : Term) : SBranch → SBranch → PyM Raw
  | .tup ts, .tup fs =>
      if ts.length = fs.length then do return .tup (← spushItes sel ts fs)
      else .error .assertionError
  | .tup _, _ => .error .assertionError
  | .proto c x, .proto c' y =>
      if c = c' then smtIte sel (.bv x) (.bv y) else .error .assertionError
  | .proto .., _ => .error .assertionError
  | t, f => smtIte sel t f
def spushItes (sel : Term) : List SBranch → List SBranch → PyM (List Raw)
  | t :: ts, f :: fs => do
      let r ← spushIte sel t f
      return r :: (← spushItes sel ts fs)
  | _, _ => pure []
end

section
variable (S : Simplifier)

mutual
/-- `coerce_branch` (bit_vector_util.py:218-224); the leaves are `SMTBit(fnode)`, `T(fnode)`.  A tuple
given to `SMTBit` or to a vector class is a sequence; `push_ite` never produces one there. -/
def scoerceBranch : SRType → Raw → PyM SBranch
  | .tup rs, .tup bs =>
      if rs.length = bs.length then do return .tup (← scoerceBranches rs bs)
      else .error .assertionError
  | .tup _, _ => .error .assertionError
  | .bit, .term t => do return .bit (← bitF S t)
  | .vec k n, .term t => do return .bv (← bvF S k n t)
  | .fromBV c, .term t => do return .proto c (← bvF S c.kind c.size t)
  | _, .tup _ => .error .typeError
def scoerceBranches : List SRType → List Raw → PyM (List SBranch)
  | r :: rs, b :: bs => do
      let x ← scoerceBranch r b
      return x :: (← scoerceBranches rs bs)
  | _, _ => pure []
end

/-- `SMTBit.ite` (smt_bit_vector.py:154-159): `build_ite` (bit_vector_util.py:239-243). -/
def sIte (sel : Term) (t f : SBranch) : PyF SBranch := do
  let r ← sreturnType sel t f
  let v ← pyLift (spushIte sel t f)
  pyLift (scoerceBranch S r v)

/-- `SMTBitVector.ite` (smt_bit_vector.py:489-490): `self.bvne(0).ite(..)`. -/
def SBV.ite (x : SBV) (t f : SBranch) : PyF SBranch := do
  let c ← pyLift (x.bvne S (.int 0))
  sIte S c t f

/-! ### Substitution -/

/-- `FNode.substitute` for a mapping of symbols: every occurrence replaced, simultaneously. -/
def Term.subst (σ : List ((Name × Ty) × Term)) : Term → Term
  | .sym n ty => ((σ.find? fun p => p.1 == (n, ty)).map (·.2)).getD (.sym n ty)
  | .un op t => .un op (t.subst σ)
  | .bin op a b => .bin op (a.subst σ) (b.subst σ)
  | .ite c t f => .ite (c.subst σ) (t.subst σ) (f.subst σ)
  | t => t

/-- The dictionary `{from_.value: to.value for from_, to in subs}`: later pairs override earlier
ones. -/
def subsDict (subs : List ((Name × Ty) × Term)) : List ((Name × Ty) × Term) := subs.reverse

/-- `SMTBit.substitute` (smt_bit_vector.py:161-166). -/
def substBit (t : Term) (subs : List ((Name × Ty) × Term)) : PyM Term := bitF S (t.subst (subsDict subs))

/-- `SMTBitVector.substitute` (smt_bit_vector.py:580-585): the result has class `SMTBitVector[size]`,
whatever the class of `self`. -/
def SBV.substitute (x : SBV) (subs : List ((Name × Ty) × Term)) : PyM SBV :=
  bvF S (.root .bv) x.size (x.term.subst (subsDict subs))

end
end HW.Smt
