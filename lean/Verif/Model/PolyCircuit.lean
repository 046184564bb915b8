import Verif.Model.Circuit
import Verif.Model.Smt.Poly

/-!
# Circuits with multiplexers over different classes

As `Model/Circuit.lean`, but `c.ite(t, f)` may have branches of different vector classes, which makes a
polymorphic class (bit_vector_util.py:54-97, 121-150, 186-214), and the operators and `ext` are those of all classes
(`Model/Operators.lean`, `Model/Smt/Poly.lean`).  The classes made are numbered, so a run carries the next number.

A circuit has no `assert` on `ite`, which raises by itself if the widths differ.  Those that remain:

* `x // y`, `x % y`: no class that went into `x` or `y` is signed (the families differ there, C35);
* `x.ext(k)`: `k >= 1` (C29).

`x >> y` where the class of `y` is a proper subclass of that of `x` may compute `y >> x` and make a class (C29, C115); both
families do.
-/

namespace HW.Circuit
open HW

/-- The class, or some alternative of a polymorphic one, is the signed one. -/
def _root_.HW.Kind.maybeSigned : Kind → Bool
  | .root r => r == .sint
  | .poly _ t f _ => t.maybeSigned || f.maybeSigned

def _root_.HW.Smt.SKind.maybeSigned : Smt.SKind → Bool
  | .root r => r == .sint
  | .poly _ t f _ => t.maybeSigned || f.maybeSigned

/-- The methods that do not depend on the class; the others are in `PFamily`. -/
def basic (F : Family) : Family :=
  { F with
    opA := fun _ _ _ => .error .assertionError
    opC := fun _ _ _ => .error .assertionError
    mux := fun _ _ _ => .error .assertionError }

/-- What a circuit uses of a family. -/
structure PFamily where
  base : Family
  maybeSigned : base.V → Bool
  ite : base.B → base.V → base.V → PyF base.V
  opA : AOp → base.V → Opnd base.V base.B → PyF base.V
  opC : COp → base.V → Opnd base.V base.B → PyM base.B
  ext : base.V → Int → PyF base.V

/-- Instructions: `op i` is one of `Model/Circuit.lean`, other than operators and `mux`. -/
inductive PInstr
  | op (i : Instr)
  | opA (op : AOp) (x : Nat) (y : Arg)
  | opC (op : COp) (x : Nat) (y : Arg)
  | ext (x : Nat) (k : Int)
  | ite (c t f : Nat)

section
variable (P : PFamily)

/-- The `assert` before an arithmetic operator. -/
def okA (op : AOp) (x : P.base.V) : Opnd P.base.V P.base.B → Bool
  | .vec y => !(op == .fdiv || op == .mod) || (!P.maybeSigned x && !P.maybeSigned y)
  | _ => !(op == .fdiv || op == .mod) || !P.maybeSigned x

/-- The values so far and the number of the next class. -/
abbrev PState := List (Reg P.base.V P.base.B) × Nat

def pstep (s : PState P) : PInstr → PyM (PState P)
  | .op i => do return (← step P.base s.1 i, s.2)
  | .opA op x y => do
      let x ← readV P.base s.1 x
      let y ← readArg P.base s.1 y
      check (okA P op x y = true)
      let r ← P.opA op x y s.2
      return (putV P.base s.1 r.1, r.2)
  | .opC op x y => do
      let x ← readV P.base s.1 x
      let y ← readArg P.base s.1 y
      return (putB P.base s.1 (← P.opC op x y), s.2)
  | .ext x k => do
      let x ← readV P.base s.1 x
      check (1 ≤ k)
      let r ← P.ext x k s.2
      return (putV P.base s.1 r.1, r.2)
  | .ite c t f => do
      let c ← readB P.base s.1 c
      let t ← readV P.base s.1 t
      let f ← readV P.base s.1 f
      let r ← P.ite c t f s.2
      return (putV P.base s.1 r.1, r.2)

/-- The whole circuit. -/
def prun (s : PState P) : List PInstr → PyM (PState P)
  | [] => .ok s
  | i :: p => do prun (← pstep P s i) p

end

/-- `x op o` where the result is a vector. -/
def cOpAP (op : AOp) (x : BVal) (o : Obj) : PyF BVal := fun i => do
  match ← binA op (.bv x) o i with
  | (.bv v, j) => return (v, j)
  | _ => .error .typeError

/-- `Bit`, `BitVector` (bit_vector.py). -/
def concretePF : PFamily where
  base := basic concrete
  maybeSigned x := x.kind.maybeSigned
  ite := iteBV
  opA op x o := cOpAP op x (cObj o)
  opC op x o := cOpC op x (cObj o)
  ext := BVal.ext

/-- `SMTBit`, `SMTBitVector` (smt_bit_vector.py). -/
def smtPF (S : Smt.Simplifier) : PFamily where
  base := basic (smt S)
  maybeSigned x := x.kind.maybeSigned
  ite := Smt.siteBV S
  opA op x o := Smt.sbinA S op x (sObj o)
  opC op x o := Smt.sbinC S op x (sObj o) >>= iBit
  ext := Smt.SBV.ext S

end HW.Circuit
