import Verif.Model.Ite

/-!
# `BitVectorProtocol` and its metaclasses (hwtypes/bit_vector_util.py:11-48)

Which classes and objects are recognised: `isinstance` and `issubclass` as CPython runs them, with the overridden
checks of the three classes.

A class is a number; a universe gives the type of each class, its MRO and what its own namespace defines.

Simplified: no `__getattr__` or `__getattribute__` on metaclasses; no other metaclass overrides `__instancecheck__` or
`__subclasscheck__`; attributes set on instances play no role.
-/

namespace HW.Protocol
open HW

/-- The attributes asked for. -/
inductive Attr
  /-- `_bitvector_t_` -/
  | bvT
  /-- `_from_bitvector_` -/
  | fromBV
  /-- `_to_bitvector_` -/
  | toBV
  deriving DecidableEq, Repr

/-- Classes at some moment. -/
structure Universe where
  /-- `type(c)` -/
  ty : Nat → Nat
  /-- `c.__mro__` -/
  mro : Nat → List Nat
  /-- whether `c.__dict__` has the attribute -/
  dict : Nat → Attr → Bool
  /-- the built-in `object` and `type` -/
  object : Nat
  type : Nat
  /-- `_BitVectorProtocolMetaMeta` (12-21) -/
  metaMeta : Nat
  /-- `BitVectorProtocolMeta` (24-36) -/
  pmeta : Nat
  /-- `BitVectorProtocol` (39-48) -/
  proto : Nat
  /-- How many steps `type(type(...(c)))` takes to reach `type`. -/
  depth : Nat → Nat
  depth_ty : ∀ c, c ≠ type → depth (ty c) < depth c
  ty_type : ty type = type
  ty_metaMeta : ty metaMeta = type
  ty_pmeta : ty pmeta = metaMeta
  ty_proto : ty proto = pmeta
  /-- The MRO starts with the class itself. -/
  mro_self : ∀ c, (mro c).head? = some c
  mro_trans : ∀ c d, d ∈ mro c → ∀ e ∈ mro d, e ∈ mro c
  /-- The metaclass of a class derives from the metaclasses of its bases (else CPython reports a conflict). -/
  mro_ty : ∀ c d, d ∈ mro c → ty d ∈ mro (ty c)
  /-- A metaclass is a subclass of `type`. -/
  type_mro : ∀ c, type ∈ mro (ty c)
  /-- The three classes and what they define; `object` and `type` define nothing of the protocol. -/
  distinct : [object, type, metaMeta, pmeta, proto].Nodup
  mro_type : mro type = [type, object]
  mro_metaMeta : mro metaMeta = [metaMeta, type, object]
  mro_pmeta : mro pmeta = [pmeta, type, object]
  mro_proto : mro proto = [proto, object]
  dict_builtin : ∀ a, dict object a = false ∧ dict type a = false ∧ dict metaMeta a = false
  dict_pmeta : ∀ a, dict pmeta a = decide (a = .bvT)
  dict_proto : ∀ a, dict proto a = decide (a ≠ .bvT)

variable (U : Universe)

/-- The attribute is defined in the class or one of its bases. -/
def Universe.own (c : Nat) (a : Attr) : Bool := (U.mro c).any fun d => U.dict d a

/-- `hasattr(c, a)` of a class: also what its metaclass defines. -/
def Universe.hasattr (c : Nat) (a : Attr) : Bool := U.own c a || U.own (U.ty c) a

/-- Which `__instancecheck__` and `__subclasscheck__` the class `C` on the right of `isinstance` or `issubclass` has: the
first one in the MRO of its type. -/
inductive Check
  | default
  /-- `BitVectorProtocolMeta`'s (27-33) -/
  | pmeta
  /-- `_BitVectorProtocolMetaMeta`'s (13-21) -/
  | metaMeta
  deriving DecidableEq, Repr

def Universe.check (C : Nat) : Check :=
  match (U.mro (U.ty C)).find? fun d => d == U.pmeta || d == U.metaMeta with
  | none => .default
  | some d => if d = U.pmeta then .pmeta else .metaMeta

/-- `issubclass(s, C)`.  Both checks call `isinstance(s, _)`, which is `type(s) is _ or issubclass(type(s), _)` for the
classes concerned; `type`, whose type is itself, has no attribute, so that the recursion ends there. -/
def Universe.issubclass (s C : Nat) : Bool :=
  if _hC : C = U.type then decide (C ∈ U.mro s) else
  match U.check C with
  | .default => decide (C ∈ U.mro s)
  | .metaMeta =>                                                            -- 17-21
      U.hasattr s .bvT && !(decide (U.ty s = C) || if _h : s = U.type then false else Universe.issubclass (U.ty s) C)
  | .pmeta =>                                                               -- 30-33
      ((decide (U.ty s = U.ty C) || Universe.issubclass (U.ty s) (U.ty C)) &&
        U.hasattr s .fromBV && U.hasattr s .toBV)
termination_by (U.depth C, U.depth s)
decreasing_by
  · exact Prod.Lex.right _ (U.depth_ty _ (by assumption))
  · exact Prod.Lex.left _ _ (U.depth_ty _ (by assumption))

/-- `isinstance(x, C)` for an object, or a class, of type `t`: `type(x) is C` is asked first; all three checks reduce to
`issubclass(type(x), C)` (13-15, 27-28). -/
def Universe.isinstance (t C : Nat) : Bool := decide (t = C) || U.issubclass t C

/-- Two objects of a class that is neither a vector nor a bit as branches of `ite`: `issubclass(tb_t,
BitVectorProtocol)` decides (bit_vector_util.py:209-214). -/
def Universe.branch (c : Nat) (k : Kind) (n : Nat) (x : BVal) : Branch :=
  if U.issubclass c U.proto then .proto ⟨c, k, n⟩ x else .other c

end HW.Protocol
