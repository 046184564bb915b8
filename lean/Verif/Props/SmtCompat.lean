import Verif.Props.SmtBit
import Verif.Props.SmtInt

/-!
# Property C72: argument compatibility of the two families; bits on the left of vectors (C75)
-/

namespace HW
open Spec Smt

variable (S : Simplifier)

/-- The call returns (no exception). -/
def Returns {α : Type} (m : PyM α) : Prop := ∃ a, m = .ok a

theorem Smt.RelM.returns {α β : Type} {R : α → β → Prop} {m : PyM α} {M : PyM β} (h : RelM R m M) :
    Returns m ↔ Returns M := by
  cases m <;> cases M
  · exact ⟨fun ⟨_, h⟩ => (nomatch h), fun ⟨_, h⟩ => (nomatch h)⟩
  · exact h.elim
  · exact h.elim
  · exact ⟨fun _ => ⟨_, rfl⟩, fun _ => ⟨_, rfl⟩⟩

/-- **C72 (partial)**: full claim: every constructor call and operation returns in one family iff it
returns in the other.  Proved for construction from ints, bools, bits, vectors of any width, and (see
`SObj.Fits`) sequences of exactly `n` bits and objects whose `int()` is in range. -/
theorem C72_construct_partial {e : Env} {k : SKind} {K : Kind} {n : Nat} {o : SObj} {O : Obj} (hn : 0 < n)
    (hk : k.At e K) (ho : DenObj e o O) (hf : SObj.Fits n o) :
    Returns (mkSBV S k n o) ↔ Returns (mkBV K n O) :=
  Smt.RelM.returns (C36_construct S hn hk ho hf)

/-- **C72 (partial)** for the arithmetic, bitwise and shift operators of the predefined classes, against
any operand that is not a vector (same restriction on sequences and `int()` objects) and any vector of
the same class. -/
theorem C72_operators_partial {e : Env} {r : Root} {x : SBV} {X : BVal} {o : SObj} {O : Obj} (op : AOp) (i : Nat)
    (hop : ¬ (r = .sint ∧ (op = .fdiv ∨ op = .mod))) (hk : x.kind = .root r) (hx : Den e x X) (hn : 0 < x.size)
    (ho : DenObj e o O) (hf : SObj.Fits x.size o) (hno : ∀ y, o ≠ .bv y) :
    Returns (svecLeft S op r x o) ↔ Returns (binA op (.bv X) O i) :=
  Smt.RelM.returns (C75_left S op i hop hk hx hn ho hf hno)

/-- **C72 refuted**, construction: a sequence of any length but `n` is a `ValueError`, and so is an object
whose `int()` is negative; the concrete constructor takes both. -/
theorem C72_construct_refuted (k : SKind) (K : Kind) (n : Nat) (l : List SElem) (L : List Bool)
    (hl : l.length ≠ n) (v : Int) (hv : v < 0) (t : Option Bool) :
    (mkSBV S k n (.seq l) = .error .valueError ∧ Returns (mkBV K n (.seq L))) ∧
    (mkSBV S k n (.other (some v) t) = .error .valueError ∧ Returns (mkBV K n (.other (some v) t))) := by
  refine ⟨⟨?_, ?_⟩, ?_, ?_⟩
  · simp only [mkSBV]
    rw [if_pos (by exact_mod_cast hl)]
  · exact ⟨⟨K, n, ofBits L % 2 ^ n⟩, by simp [mkBV_eq, Obj.denotes]⟩
  · simp only [mkSBV, Smt.mkBV, if_pos hv]; rfl
  · exact ⟨⟨K, n, v % 2 ^ n⟩, by simp [mkBV_eq, Obj.denotes]⟩

/-- **C72 refuted**, slicing: the empty slice `x[a:a]` fails symbolically, and is the empty vector
concretely. -/
theorem C72_empty_slice_refuted {e : Env} {x : SBV} {X : BVal} (h : Den e x X) (a : Nat) :
    x.getSlice S ⟨some a, some a, none⟩ = .error .assertionError ∧
    Returns (X.getSlice ⟨some a, some a, none⟩) := by
  constructor
  · have := C36_slice S h (some a) (some a)
    rwa [if_neg] at this
    simp only [sliceFrom, sliceTo]
    split <;> omega
  · exact ⟨_, by simp only [BVal.getSlice]; rfl⟩

/-- **C72 refuted**, the other way round: `x.sext(0)` returns symbolically and fails concretely. -/
theorem C72_sext_zero_refuted {e : Env} {x : SBV} {X : BVal} (h : Den e x X) (hn : 0 < x.size) :
    Returns (x.sext S 0) ∧ X.sext 0 = .error .valueError := by
  refine ⟨?_, C18_zero_raises X (h.2.1 ▸ hn)⟩
  obtain ⟨k, K, n, t, a, rfl, rfl, hkK, ht⟩ := h.cases
  have ty := eval_ty ht
  have hn' : (Term.un (.sext 0) t).ty? = some (.bv n) := by simp [Term.ty?, ty, UOp.ty?, Val.ty]
  exact ⟨⟨k, n, S.run (.un (.sext 0) t)⟩, by
    simp [SBV.sext, bvF, node, hn', bind, Except.bind]⟩

/-- **C72 refuted**, `repeat` and rotation by a vector: `TypeError` for every symbolic vector, while the
concrete methods return. -/
theorem C72_repeat_rotate_refuted {e : Env} {x y : SBV} {X Y : BVal} (h : Den e x X) (hy : Den e y Y)
    (hs : y.size = x.size) (hn : 0 < x.size) (r : Int) (hr : 2 ≤ r) :
    (x.repeat_ S r = .error .typeError ∧ Returns (X.repeat_ r)) ∧
    (x.bvrol S (.bv y) = .error .typeError ∧ Returns (X.bvrol (.bv Y))) ∧
    (x.bvror S (.bv y) = .error .typeError ∧ Returns (X.bvror (.bv Y))) := by
  have hX : 0 < X.size := h.2.1 ▸ hn
  have hop : operand X.size (.bv Y) = .ok Y.value := by
    have : Y.size = X.size := by rw [hy.2.1, h.2.1, hs]
    simp [operand, this]
  obtain ⟨a, ha, -⟩ := C08_bvrol X hX (o := .bv Y) hy.WF hop
  obtain ⟨b, hb, -⟩ := C08_bvror X hX (o := .bv Y) hy.WF hop
  exact ⟨C37_refuted S h hn r hr, ⟨rfl, a, ha⟩, rfl, b, hb⟩

/-- **C72 refuted**, `as_sint` of a one-bit vector. -/
theorem C72_as_sint_refuted {e : Env} {x : SBV} {X : BVal} (h : Den e x X) (hn : x.size = 1) :
    x.asSint S = .error .assertionError ∧ X.asSint = .ok (-X.value) := by
  refine ⟨C41_refuted S h hn, ?_⟩
  have hX : X.size = 1 := h.2.1.trans hn
  have hw := h.WF
  obtain ⟨K, n, v⟩ := X
  dsimp only at hX
  subst hX
  simp only [BVal.WF] at hw
  have : v = 0 ∨ v = 1 := by omega
  rw [C03_as_sint h.WF]
  rcases this with rfl | rfl <;> simp [signed]

example : mkSBV noSimp (.root .bv) 4 (.seq [.bool true]) = .error .valueError ∧
    mkBV (.root .bv) 4 (.seq [true]) = .ok ⟨.root .bv, 4, 1⟩ := by decide
example : symX.getSlice noSimp ⟨some 3, some 3, none⟩ = .error .assertionError ∧
    BVal.getSlice ⟨.root .bv, 8, 200⟩ ⟨some 3, some 3, none⟩ = .ok ⟨.root .bv, 0, 0⟩ := by decide
example : symX.sext noSimp 0 = .ok ⟨.root .bv, 8, .un (.sext 0) (.sym ['x'] (.bv 8))⟩ := by decide

/-! ## C75: a bit on the left of `&`, `|`, `^` -/

/-- **C75 refuted** for a bit on the left of `&`: a symbolic bit leaves the operation to the vector, which
returns a vector; a `Bit` converts the vector by its truth value and returns a `Bit`. -/
theorem C75_bit_left_refuted {e : Env} {r : Root} {x : SBV} {X : BVal} {a : Term} {A : Bool} (i : Nat)
    (hk : x.kind = .root r) (hx : Den e x X) (hn : 0 < x.size) (ha : DenBit e a A) :
    BitOp.fwd S .and a (.bv x) = .ok none ∧ Returns (svecRight S .and r (.bit a) x) ∧
    binA .and (.bit A) (.bv X) i = .ok (.bit (A && X.value != 0), i) := by
  refine ⟨rfl, ?_, ?_⟩
  · have hX : X.size = x.size := hx.2.1
    have hc : HW.coerce X.kind X.size (.bit A) = .ok ⟨X.kind, X.size, (if A then 1 else 0) % 2 ^ X.size⟩ := by
      simp [HW.coerce, mkBV_eq, Obj.denotes]
    have := right_rel S (r := r) .and i (by simp) hx hn (.bit ha) trivial
    rw [rev_ref .and _ hx.WF (hX ▸ hn) (o := .bit A) trivial hc (by simp)] at this
    exact (Smt.RelM.returns this).2 ⟨_, rfl⟩
  · have hX : X.kind = .root r := by have := hx.1; rw [hk] at this; exact this
    have hw := hx.WF
    have hs : 0 < X.size := hx.2.1 ▸ hn
    have hm : mkBit (.bv X) = .ok (X.value != 0) := by
      rw [C30_construct (o := .bv X) hw]
      simp only [bitOf, hs.ne', and_false, if_false]
      by_cases h0 : X.value = 0 <;> simp [h0]
    simp [binA, fwdA, bitA, bitA.castBit, hm, bind, StateT.bind, pyLift, Except.map, Except.bind, pure, StateT.pure, Except.pure]

end HW
