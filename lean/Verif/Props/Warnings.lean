import Verif.Model.Warnings
import Verif.Props.SmtStruct
import Verif.Props.Z3Struct
import Verif.Props.ClassHeap

/-!
# Property C126: truncation is announced
-/

namespace HW
open Spec

theorem bitLength_le_iff (v : Int) (n : Nat) : pyBitLength v ≤ n ↔ -2 ^ n < v ∧ v < 2 ^ n := by
  have key : pyBitLength v ≤ n ↔ v.natAbs < 2 ^ n := by
    unfold pyBitLength
    by_cases h : v.natAbs = 0
    · simp [h]
    · rw [if_neg h, Nat.succ_le_iff, Nat.log2_lt h]
  rw [key]
  have e : ((2 ^ n : Nat) : Int) = 2 ^ n := by push_cast; rfl
  omega

/-- No warning: the number is kept.  `o` is a vector, a bit, a sequence or an object with `__int__`, and its number is
not negative; the full claim also has negative numbers and ints. -/
theorem C126_silent_partial {k : Kind} {n : Nat} (hn : 0 < n) {o : Obj} (ho : o.WF) (hi : ∀ v, o ≠ .int v) {x : BVal}
    (hx : mkBV k n o = .ok x) (hw : truncWarns n o = false) {v : Int} (hv : o.denotes = some v) (h0 : 0 ≤ v) :
    x.value = v := by
  rw [mkBV_eq, hv] at hx
  cases hx
  have h2 : (2 : Int) ≤ 2 ^ n := by
    have := Nat.pow_le_pow_right (show 0 < 2 by decide) hn
    exact_mod_cast this
  have mono : ∀ m, m ≤ n → (2 : Int) ^ m ≤ 2 ^ n := fun m h => by
    exact_mod_cast Nat.pow_le_pow_right (show 0 < 2 by decide) h
  refine Int.emod_eq_of_lt h0 ?_
  cases o with
  | int w => exact absurd rfl (hi w)
  | bool b => cases hv; cases b <;> simp <;> omega
  | bit b => cases hv; cases b <;> simp <;> omega
  | bv y =>
    cases hv
    simp only [truncWarns, gt_iff_lt, decide_eq_false_iff_not, not_lt] at hw
    have := ho.2
    have := mono _ hw
    omega
  | seq l =>
    cases hv
    simp only [truncWarns, gt_iff_lt, decide_eq_false_iff_not, not_lt] at hw
    have := (ofBits_bounds l).2
    have := mono _ hw
    omega
  | other i b =>
    cases hv
    simp only [truncWarns, gt_iff_lt, decide_eq_false_iff_not, not_lt] at hw
    exact ((bitLength_le_iff v n).1 hw).2

/-- Operands converted by a method without a warning keep their number; vectors of another width raise. -/
theorem C126_operand_partial {k : Kind} {n : Nat} (hn : 0 < n) {o : Obj} (ho : o.WF) (hi : ∀ v, o ≠ .int v) {x : BVal}
    (hx : coerce k n o = .ok x) (hw : coerceWarns n o = false) {v : Int} (hv : o.denotes = some v) (h0 : 0 ≤ v) :
    x.value = v := by
  cases o with
  | bv y =>
    simp only [coerce] at hx
    split at hx
    · cases hx
    · cases hx; cases hv; rfl
  | _ => exact C126_silent_partial hn ho hi hx hw hv h0

/-- **C126** an operand that is a vector is never announced: it is taken as it is, or refused because of its width. -/
theorem C126_operand_vector (k : Kind) (n : Nat) (y : BVal) :
    coerceWarns n (.bv y) = false ∧ (y.size = n → coerce k n (.bv y) = .ok y) ∧
    (y.size ≠ n → coerce k n (.bv y) = .error .inconsistentSize) :=
  ⟨rfl, fun h => by simp [coerce, h], fun h => by simp [coerce, h]⟩

/-- An object with `__int__`: the warning is given exactly outside `(-2^n, 2^n)`; for numbers that are not negative this
is exactly when the number is lost, and a negative number without a warning comes out as `v + 2^n`. -/
theorem C126_int_like (k : Kind) (n : Nat) (v : Int) (b : Option Bool) :
    (truncWarns n (.other (some v) b) = true ↔ ¬ (-2 ^ n < v ∧ v < 2 ^ n)) ∧
    (0 ≤ v → ∀ x, mkBV k n (.other (some v) b) = .ok x → (truncWarns n (.other (some v) b) = true ↔ x.value ≠ v)) ∧
    (v < 0 → truncWarns n (.other (some v) b) = false → ∀ x, mkBV k n (.other (some v) b) = .ok x → x.value = v + 2 ^ n) := by
  have hw : truncWarns n (.other (some v) b) = true ↔ ¬ (-2 ^ n < v ∧ v < 2 ^ n) := by
    rw [← bitLength_le_iff]
    simp [truncWarns]
  have hp := two_pow_pos n
  refine ⟨hw, fun h0 x hx => ?_, fun h0 h x hx => ?_⟩
  · rw [hw]
    rw [mkBV_eq] at hx
    cases hx
    dsimp only
    constructor
    · intro h e
      have := Int.emod_lt_of_pos v hp
      omega
    · intro h hc
      exact h (Int.emod_eq_of_lt h0 hc.2)
  · have hc : -2 ^ n < v ∧ v < 2 ^ n := by
      by_contra hc
      rw [hw.2 hc] at h
      cases h
    rw [mkBV_eq] at hx
    cases hx
    dsimp only
    rw [← Int.add_emod_right, Int.emod_eq_of_lt (by omega) (by omega)]

/-- **C126 refuted** for ints, which are cut without a warning whatever they are (the code says so), -/
theorem C126_int_refuted (k : Kind) (n : Nat) :
    truncWarns n (.int (2 ^ n)) = false ∧ mkBV k n (.int (2 ^ n)) = .ok ⟨k, n, 0⟩ ∧ (2 : Int) ^ n ≠ 0 :=
  ⟨rfl, by simp, by have := two_pow_pos n; omega⟩

/-- for negative numbers of other objects: `-200` becomes `56` in eight bits, which is `-200` in neither reading, -/
theorem C126_negative_refuted (k : Kind) (b : Option Bool) :
    truncWarns 8 (.other (some (-200)) b) = false ∧ mkBV k 8 (.other (some (-200)) b) = .ok ⟨k, 8, 56⟩ ∧
    BVal.asUint ⟨k, 8, 56⟩ = 56 ∧ BVal.asSint ⟨k, 8, 56⟩ = .ok 56 :=
  ⟨show decide (pyBitLength (-200) > 8) = false by decide, by rw [mkBV_eq]; rfl, rfl, by
    rw [asSint_eq (x := ⟨k, 8, 56⟩) ⟨show (0 : Int) ≤ 56 by decide, show (56 : Int) < 2 ^ 8 by decide⟩]; rfl⟩

/-- and for bits put into a vector without bits. -/
theorem C126_width_zero_refuted (k : Kind) :
    truncWarns 0 (.bit true) = false ∧ mkBV k 0 (.bit true) = .ok ⟨k, 0, 0⟩ := ⟨rfl, by rw [mkBV_eq]; rfl⟩

/-- The converse fails as well: a warning is given by width, also when nothing is lost. -/
theorem C126_needless (k : Kind) (n m : Nat) (h : n < m) (v : Int) (h0 : 0 ≤ v) (h1 : v < 2 ^ n) :
    truncWarns n (.bv ⟨k, m, v⟩) = true ∧ mkBV k n (.bv ⟨k, m, v⟩) = .ok ⟨k, n, v⟩ := by
  refine ⟨by simp [truncWarns, h], ?_⟩
  rw [mkBV_eq]
  simp [Obj.denotes, Int.emod_eq_of_lt h0 h1]

/-- The symbolic constructors, where they accept an argument at all, warn as the concrete one does: pysmt's for all
arguments, -/
theorem C126_smt {e : Smt.Env} {n : Nat} {o : Smt.SObj} {O : Obj} (h : Smt.DenObj e o O) (hf : o.Fits n) :
    Smt.truncWarns n o = truncWarns n O := by
  cases h with
  | bv h =>
    have := h.2.1
    simp only [Smt.truncWarns, truncWarns]
    rw [decide_eq_decide]
    omega
  | seq h =>
    have := h.length_eq
    have := hf.1
    simp only [Smt.truncWarns, truncWarns]
    symm
    rw [decide_eq_false_iff_not]
    omega
  | @other i b =>
    cases i with
    | none => rfl
    | some v =>
      obtain ⟨h0, h1⟩ := hf
      have := (bitLength_le_iff v n).2 ⟨by have := two_pow_pos n; omega, h1⟩
      simp only [Smt.truncWarns, truncWarns]
      symm
      rw [decide_eq_false_iff_not]
      omega
  | _ => rfl

/-- z3's for all but objects with `__int__`, -/
theorem C126_z3_partial {e : Z3.Env} {n : Nat} {o : Z3.ZObj} {O : Obj} (h : Z3.DenObj e o O) (hf : o.Fits n)
    (ho : ∀ i b, o ≠ .other i b) : Z3.truncWarns n o = truncWarns n O := by
  cases h with
  | bv h =>
    have := h.2.1
    simp only [Z3.truncWarns, truncWarns]
    rw [decide_eq_decide]
    omega
  | seq h =>
    have := h.length_eq
    have := hf.1
    simp only [Z3.truncWarns, truncWarns]
    symm
    rw [decide_eq_false_iff_not]
    omega
  | other => exact absurd rfl (ho _ _)
  | _ => rfl

/-- which z3 cuts without a warning where the concrete class warns. -/
theorem C126_z3_refuted (r : Root) (b : Option Bool) :
    Z3.truncWarns 8 (.other (some 300) b) = false ∧ truncWarns 8 (.other (some 300) b) = true ∧
    ∃ x, Z3.mkZBV r 8 (.other (some 300) b) = .ok x :=
  ⟨rfl, show decide (pyBitLength 300 > 8) = true by decide, _, rfl⟩

example : mkBV (.root .bv) 8 (.bv ⟨.root .bv, 5, 19⟩) = .ok ⟨.root .bv, 8, 19⟩ ∧
    truncWarns 8 (.bv ⟨.root .bv, 5, 19⟩) = false ∧ Obj.WF (.bv ⟨.root .bv, 5, 19⟩) := ⟨rfl, rfl, by decide, by decide⟩
example : mkBV (.root .bv) 2 (.seq [true, false, true]) = .ok ⟨.root .bv, 2, 1⟩ ∧
    truncWarns 2 (.seq [true, false, true]) = true := ⟨rfl, rfl⟩

end HW
