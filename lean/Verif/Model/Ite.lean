import Verif.Model.BitVector

/-!
# Model of `ite`: `Bit.ite`, `BitVector.ite` and `hwtypes/bit_vector_util.py`

Polymorphic classes are created afresh by every call that needs one (bit_vector_util.py:54-63:
"we can't cache as select is not necessarily hashable"), so these functions run in a state monad
carrying the next class identity.

Not modelled here: user subclasses of `Bit` (hence `PolyBit`); mixed families are in `Model/MixedIte.lean`.
-/

namespace HW

/-- Computations that may create classes: the state is the next unused class identity. -/
abbrev PyF := StateT Nat PyM

/-- Lift a computation that creates no class. -/
def pyLift {α : Type} (m : PyM α) : PyF α := fun i => m.map fun a => (a, i)

/-- A class implementing `BitVectorProtocol` (bit_vector_util.py:11-48): its identity and its
`_bitvector_t_() = kind[size]`. -/
structure ProtoCls where
  id : Nat
  kind : Kind
  size : Nat
  deriving DecidableEq, Repr

/-- Objects that can be passed as branches.
`proto c x` is an instance of a class `c` implementing `BitVectorProtocol`, whose `_to_bitvector_`
returns `x` and whose `_from_bitvector_(x)` builds the instance holding `x`.  `other c` is an
object of an unrelated class `c`. -/
inductive Branch
  | bit (b : Bool)
  | bv (x : BVal)
  | tup (l : List Branch)
  | proto (c : ProtoCls) (x : BVal)
  | other (c : Nat)
  deriving Repr

/-- Result types computed by `determine_return_type`; `fromBV` is the closure `from_bv_args`
(bit_vector_util.py:209-212). -/
inductive RType
  | bit
  | vec (k : Kind) (n : Nat)
  | tup (l : List RType)
  | fromBV (c : ProtoCls)
  deriving Repr

/-- `PolyVector[T0, T1, select]` (bit_vector_util.py:54-97, 121-150): checks widths, creates a new
class.  Both arguments are vector classes of the concrete family. -/
def polyVector (k0 : Kind) (n0 : Nat) (k1 : Kind) (n1 : Nat) (sel : Bool) : PyF Kind := fun i =>
  if n0 ≠ n1 then .error .inconsistentSize else .ok (.poly i k0 k1 sel, i + 1)

mutual
/-- `determine_return_type._recurse` (bit_vector_util.py:186-214). -/
def returnType (sel : Bool) : Branch → Branch → PyF RType
  | .tup ts, .tup fs =>
      if ts.length = fs.length then fun i =>
        match returnTypes sel ts fs i with
        | .ok (l, i) => .ok (.tup l, i)
        | .error e => if e.isTypeError then .error .typeError else .error e   -- 196-198
      else pyLift (.error .typeError)                                          -- 199-201
  | .tup _, _ => pyLift (.error .typeError)
  | _, .tup _ => pyLift (.error .typeError)
  | .bit _, .bit _ => pure .bit                                                -- 202-204
  | .bv x, .bv y =>                                                            -- 206-209
      if x.kind = y.kind ∧ x.size = y.size then pure (.vec x.kind x.size)
      else do return .vec (← polyVector x.kind x.size y.kind y.size sel) x.size
  | .proto c _, .proto c' _ =>                                         -- 210-213
      if c = c' then pure (.fromBV c) else pyLift (.error .typeError)
  | _, _ => pyLift (.error .typeError)                                         -- 214-215
/-- The generator `tuple(_recurse(t, f) for t, f in zip(..))` (bit_vector_util.py:194). -/
def returnTypes (sel : Bool) : List Branch → List Branch → PyF (List RType)
  | t :: ts, f :: fs => do
      let r ← returnType sel t f
      return r :: (← returnTypes sel ts fs)
  | _, _ => pure []
end

mutual
/-- `push_ite._recurse` (bit_vector_util.py:227-236) with `_ite` of `Bit.ite`
(bit_vector.py:113-114): `t_branch if select else f_branch`. -/
def pushIte (sel : Bool) : Branch → Branch → PyM Branch
  | .tup ts, .tup fs =>
      if ts.length = fs.length then do return .tup (← pushItes sel ts fs)
      else .error .assertionError
  | .tup _, _ => .error .assertionError
  | .proto c x, .proto c' y =>
      if c = c' then .ok (.bv (if sel then x else y)) else .error .assertionError
  | .proto .., _ => .error .assertionError
  | t, f => .ok (if sel then t else f)
def pushItes (sel : Bool) : List Branch → List Branch → PyM (List Branch)
  | t :: ts, f :: fs => do
      let r ← pushIte sel t f
      return r :: (← pushItes sel ts fs)
  | _, _ => pure []
end

/-- The argument as seen by the constructors `Bit(..)` and `T(..)`. Tuples are sequences (of
objects whose truth values are not needed: this case is excluded by `returnType`). -/
def Branch.toObj : Branch → Obj
  | .bit b => .bit b
  | .bv x => .bv x
  | _ => .other none none

mutual
/-- `coerce_branch` (bit_vector_util.py:218-224). -/
def coerceBranch : RType → Branch → PyM Branch
  | .tup rs, .tup bs =>
      if rs.length = bs.length then do return .tup (← coerceBranches rs bs)
      else .error .assertionError
  | .tup _, _ => .error .assertionError
  | .bit, b => do return .bit (← mkBit b.toObj)
  | .vec k n, b => do return .bv (← mkBV k n b.toObj)
  | .fromBV c, b => do return .proto c (← mkBV c.kind c.size b.toObj)
def coerceBranches : List RType → List Branch → PyM (List Branch)
  | r :: rs, b :: bs => do
      let x ← coerceBranch r b
      return x :: (← coerceBranches rs bs)
  | _, _ => pure []
end

/-- `build_ite` (bit_vector_util.py:239-243), i.e. `Bit.ite` (bit_vector.py:96-116). -/
def ite (sel : Bool) (t f : Branch) : PyF Branch := do
  let r ← returnType sel t f
  let v ← pyLift (pushIte sel t f)
  pyLift (coerceBranch r v)

/-- `BitVector.ite` (bit_vector.py:359-360): `self.bvne(0).ite(..)`. -/
def BVal.ite (x : BVal) (t f : Branch) : PyF Branch := do
  let c ← pyLift (x.bvne (.int 0))
  HW.ite c t f

/-- `ite` on two vectors, as `VCall` uses it (bit_vector_util.py:175). -/
def iteBV (sel : Bool) (x y : BVal) : PyF BVal := do
  match ← HW.ite sel (.bv x) (.bv y) with
  | .bv r => return r
  | _ => pyLift (.error .typeError)   -- unreachable: `C27_vec`

end HW
