import Verif.Props.SmtStruct

/-!
# C41, C42: integer views and symbolic integers
-/

namespace HW
open Spec Smt

/-! ## Meaning -/

/-- The Python integer an operand of an integer operation stands for. -/
inductive DenI (e : Env) : IObj → Int → Prop
  | sint {t v} : DenInt e t v → DenI e (.sint t) v
  | int {v} : DenI e (.obj (.int v)) v
  | bool {b} : DenI e (.obj (.bool b)) (if b then 1 else 0)
  | bv {x X} : Den e x X → DenI e (.obj (.bv x)) X.value
  | other {v b} : DenI e (.obj (.other (some v) b)) v

/-- Python's operators on ints (the divisor of `//` must not be 0, Python raises then). -/
def pyIntOp : IOp → Int → Int → Val
  | .add, a, b => .int (a + b)
  | .sub, a, b => .int (a - b)
  | .mul, a, b => .int (a * b)
  | .floordiv, a, b => .int (a.fdiv b)
  | .ge, a, b => .bool (decide (a ≥ b))
  | .gt, a, b => .bool (decide (a > b))
  | .le, a, b => .bool (decide (a ≤ b))
  | .lt, a, b => .bool (decide (a < b))
  | .eq, a, b => .bool (decide (a = b))
  | .ne, a, b => .bool (decide (a ≠ b))

section
variable (S : Simplifier)

/-! ## C41 -/

/-- **C41** `x.as_uint()` evaluates to the unsigned value. -/
theorem C41_as_uint {e : Env} {x : SBV} {X : BVal} (h : Den e x X) :
    ∃ t, x.asUint S = .ok t ∧ DenInt e t X.value := by
  obtain ⟨k, K, n, t, a, rfl, rfl, hkK, ht⟩ := h.cases
  have hev : (Term.un .bv2nat t).eval e = some (.int (toI a)) := by rw [Term.eval, ht]; rfl
  exact ⟨_, by simp only [SBV.asUint, node_ok hev, ok_bind]; rfl, S.eval _ _ _ hev⟩

theorem pyAnd_top {v : Int} {m : Nat} (h0 : 0 ≤ v) (h1 : v < 2 ^ (m + 1)) :
    pyAnd v (2 ^ m) = v / 2 ^ m * 2 ^ m := by
  apply ibit_ext; intro i
  rw [ibit_pyAnd, ibit_mul, ibit_div, ← Int.one_mul (2 ^ m), ibit_mul]
  by_cases h : m ≤ i
  · rw [show m + (i - m) = i by omega]
    rcases Nat.lt_or_ge m i with hl | hl
    · rw [ibit_lt h0 h1 (by omega)]; simp
    · have : i = m := by omega
      subst this; simp [ibit]
  · simp [h]

/-- **C41 (partial)**: full claim: `x.as_sint()` evaluates to the two's-complement value.  Proved for
every width but 1. -/
theorem C41_as_sint_partial {e : Env} {x : SBV} {X : BVal} (h : Den e x X) (hn : 2 ≤ x.size) :
    ∃ t, x.asSint S = .ok t ∧ DenInt e t (signed X.size X.value) := by
  have hs : X.size = x.size := h.2.1
  have hwf := h.WF
  obtain ⟨m, hm⟩ : ∃ m, x.size = m + 1 := ⟨x.size - 1, by omega⟩
  have hlo := C36_slice S h none (some (-1))
  have e1 : sliceFrom x.size none = 0 := rfl
  have e2 : sliceTo x.size (some (-1)) = m := by simp [sliceTo, hm]
  rw [e1, e2, if_pos (by omega), getSlice_concrete X _ _ (by simp [normStart]) (by simp [normStart, normStop]; omega)] at hlo
  obtain ⟨lo, hlo1, hlo2⟩ := hlo.ok_right
  obtain ⟨a, ha1, ha2⟩ := C41_as_uint S hlo2
  have hone : pyShl 1 ((x.size : Int) - 1) = .ok (2 ^ m) := by
    rw [pyShl, if_neg (by omega), show ((x.size : Int) - 1).toNat = m by omega, Int.one_mul]
  have hand := C34_bvand S e x X (.int (2 ^ m)) (.int (2 ^ m)) h .int (by omega) trivial
  have hpm : (2 : Int) ^ (m + 1) = 2 * 2 ^ m := by ring
  have hpos := two_pow_pos m
  have hX : X.bvand (.int (2 ^ m)) = .ok ⟨X.kind, X.size, X.value / 2 ^ m * 2 ^ m⟩ := by
    rw [show X.bvand (.int (2 ^ m)) = _ from cast_eq' (fun b => .ok ⟨X.kind, X.size, pyAnd X.value b % 2 ^ X.size⟩)
      fun y _ => by simp [BVal.asUint]]
    have hw := hwf
    simp only [BVal.WF, hs, hm] at hw
    have hop : operand X.size (.int (2 ^ m)) = .ok (2 ^ m) := by
      simp only [operand, Obj.denotes, wrap, hs, hm]
      rw [Int.emod_eq_of_lt (by omega) (by omega)]
    rw [hop]
    show Except.ok _ = _
    rw [pyAnd_top hw.1 hw.2, Int.emod_eq_of_lt]
    · have := Int.ediv_nonneg hw.1 (le_of_lt hpos); positivity
    · rw [hs, hm]
      have := Int.ediv_mul_le X.value (b := 2 ^ m) (by omega)
      omega
  rw [hX] at hand
  obtain ⟨mm, hmm1, hmm2⟩ := hand.ok_right
  obtain ⟨b, hb1, hb2⟩ := C41_as_uint S hmm2
  have hev : (Term.bin .minus a b).eval e = some (.int (signed X.size X.value)) := by
    unfold DenInt at ha2 hb2
    rw [Term.eval, ha2, hb2]
    simp only [Option.bind_some, BOp.eval, Option.some.injEq, Val.int.injEq]
    have hw := hwf
    simp only [BVal.WF, hs, hm] at hw
    rw [hs, hm]
    simp only [normStart, normStop]
    have e3 : (min (if (-1 : Int) < 0 then ((m + 1 : Nat) : Int) + -1 else -1) ((m + 1 : Nat) : Int) - 0).toNat = m := by
      simp
    rw [e3]
    unfold signed
    simp only [Int.toNat_zero, pow_zero, Int.ediv_one]
    have hd := Int.emod_add_mul_ediv X.value (2 ^ m)
    have hq0 := Int.ediv_nonneg hw.1 (le_of_lt hpos)
    have hq1 : X.value / 2 ^ m < 2 := by
      apply Int.ediv_lt_of_lt_mul hpos; omega
    have hr := Int.emod_lt_of_pos X.value hpos
    have hr0 := Int.emod_nonneg X.value (ne_of_gt hpos)
    rw [hpm]
    have : X.value / 2 ^ m = 0 ∨ X.value / 2 ^ m = 1 := by omega
    rcases this with hq | hq <;> rw [hq] at hd ⊢ <;> split <;> omega
  refine ⟨_, ?_, S.eval _ _ _ hev⟩
  simp only [SBV.asSint, hlo1, ok_bind, ha1, hone, hmm1, hb1, node_ok hev]
  rfl

/-- **C41 refuted** at width 1: `as_sint` raises, for every vector. -/
theorem C41_refuted {e : Env} {x : SBV} {X : BVal} (h : Den e x X) (hn : x.size = 1) :
    x.asSint S = .error .assertionError := by
  have hlo := C36_slice S h none (some (-1))
  rw [if_neg (by simp [sliceFrom, sliceTo, hn])] at hlo
  simp only [SBV.asSint, hlo]; rfl

example : DenInt env200 (.un .bv2nat symX.term) 200 := by unfold DenInt; decide
example : ∃ t, symX.asSint noSimp = .ok t ∧ DenInt env200 t (-56) :=
  C41_as_sint_partial noSimp (X := ⟨.root .bv, 8, 200⟩) ⟨rfl, rfl, 200#8, by decide, by decide⟩ (by decide)

/-! ## C42 -/

theorem mkSInt_den {e : Env} {o : IObj} {v : Int} (h : DenI e o v) :
    ∃ t, castInt S o = .ok t ∧ DenInt e t v := by
  cases h with
  | sint h => exact ⟨_, rfl, h⟩
  | int => exact ⟨_, rfl, S.eval _ _ _ rfl⟩
  | bool => exact ⟨_, rfl, S.eval _ _ _ rfl⟩
  | bv h => exact C41_as_uint S h
  | other => exact ⟨_, rfl, S.eval _ _ _ rfl⟩

theorem IOp.term_den {e : Env} {a b : Term} {u v : Int} (ha : DenInt e a u) (hb : DenInt e b v) (op : IOp)
    (hop : op = .floordiv → 0 < v) : (op.term a b).eval e = some (pyIntOp op u v) := by
  unfold DenInt at ha hb
  cases op <;> simp only [IOp.term, Term.eval, ha, hb, Option.bind_some, BOp.eval, UOp.eval, pyIntOp]
  case floordiv => rw [Int.fdiv_eq_ediv_of_nonneg _ (le_of_lt (hop rfl))]
  case eq => simp only [Option.some.injEq, Val.bool.injEq]; exact beq_eq_decide _ _
  case ne => simp only [Option.some.injEq, Val.bool.injEq]; rw [beq_eq_decide]; simp

theorem pyIntOp_swap (op : IOp) (h : op ≠ .sub ∧ op ≠ .floordiv) (a b : Int) :
    pyIntOp op.swap b a = pyIntOp op a b := by
  cases op <;> simp_all [IOp.swap, pyIntOp, Int.add_comm, Int.mul_comm, eq_comm]

theorem intOp_den {e : Env} {l r : IObj} {a b : Int} (hl : DenI e l a) (hr : DenI e r b) (op : IOp)
    (hs : (∃ t, l = .sint t) ∨ (∃ t, r = .sint t)) (hop : op = .floordiv → 0 < b) :
    ∃ t, intOp S op l r = .ok (.sym t) ∧ t.eval e = some (pyIntOp op a b) := by
  obtain ⟨tr, htr, hdr⟩ := mkSInt_den S hr
  by_cases hsl : ∃ t, l = .sint t
  · obtain ⟨t, rfl⟩ := hsl
    cases hl with
    | sint hl =>
      have := IOp.term_den hl hdr op hop
      refine ⟨_, ?_, S.eval _ _ _ this⟩
      simp only [intOp, intFwd, htr, node_ok this, ok_bind]; rfl
  · obtain ⟨t, rfl⟩ := hs.resolve_left hsl
    cases hr with
    | sint hr =>
    obtain ⟨tl, htl, hdl⟩ := mkSInt_den S hl
    have hll : ∀ o, l = o → ∃ o', l = .obj o' := by
      intro o _; cases l with
      | sint t => exact (hsl ⟨t, rfl⟩).elim
      | obj o => exact ⟨o, rfl⟩
    obtain ⟨o, rfl⟩ := hll _ rfl
    by_cases hrev : op ≠ .sub ∧ op ≠ .floordiv
    · have hnf : op.swap ≠ .floordiv := by cases op <;> simp_all [IOp.swap]
      have := IOp.term_den hr hdl op.swap (fun h => (hnf h).elim)
      rw [pyIntOp_swap op hrev] at this
      refine ⟨_, ?_, S.eval _ _ _ this⟩
      have hq : intRev S op t (.obj o) = intFwd S op.swap t (.obj o) := by
        cases op <;> simp_all [intRev]
      simp only [intOp, hq, intFwd, htl, node_ok this, ok_bind]; rfl
    · have := IOp.term_den hdl hr op hop
      refine ⟨_, ?_, S.eval _ _ _ this⟩
      have hq : op = .sub ∨ op = .floordiv := by
        by_contra hc; exact hrev ⟨fun h => hc (.inl h), fun h => hc (.inr h)⟩
      rcases hq with rfl | rfl <;> simp only [intOp, intRev, htl, node_ok this, ok_bind] <;> rfl

/-- **C42** `+`, `-`, `*` and the comparisons evaluate to Python's, whichever side is an int, a bool,
a vector or another object with `__int__`. -/
theorem C42_ops {e : Env} {l r : IObj} {a b : Int} (hl : DenI e l a) (hr : DenI e r b)
    (hs : (∃ t, l = .sint t) ∨ (∃ t, r = .sint t)) (op : IOp) (hop : op ≠ .floordiv) :
    ∃ t, intOp S op l r = .ok (.sym t) ∧ t.eval e = some (pyIntOp op a b) :=
  intOp_den S hl hr op hs fun h => (hop h).elim

/-- **C42 (partial)**: full claim: `//` evaluates to Python's floor division.  Proved for positive
divisors. -/
theorem C42_floordiv_partial {e : Env} {l r : IObj} {a b : Int} (hl : DenI e l a) (hr : DenI e r b)
    (hs : (∃ t, l = .sint t) ∨ (∃ t, r = .sint t)) (hb : 0 < b) :
    ∃ t, intOp S .floordiv l r = .ok (.sym t) ∧ DenInt e t (a.fdiv b) :=
  intOp_den S hl hr .floordiv hs fun _ => hb

/-- **C42** unary minus. -/
theorem C42_neg {e : Env} {a : Term} {v : Int} (h : DenInt e a v) :
    ∃ t, intNeg S a = .ok (.sym t) ∧ DenInt e t (-v) := by
  obtain ⟨t, h1, h2⟩ := intOp_den S (l := .sint (S.run (.intC 0))) (.sint (S.eval _ _ _ rfl)) (.sint h) .sub
    (.inl ⟨_, rfl⟩) (fun h => by cases h)
  refine ⟨t, h1, ?_⟩
  rw [DenInt, h2]; simp [pyIntOp]

/-- **C42** operands that are not numbers: `==` is `False`, `!=` is `True` (plain bools), everything else
raises `TypeError`, on either side. -/
theorem C42_not_numbers (a : Term) (o : SObj) (ho : (∃ t, o = .bit t) ∨ (∃ l, o = .seq l) ∨ (∃ b, o = .other none b))
    (op : IOp) :
    (intOp S op (.sint a) (.obj o) = match op with
      | .eq => .ok (.py false) | .ne => .ok (.py true) | _ => .error .typeError) ∧
    (intOp S op (.obj o) (.sint a) = match op with
      | .eq => .ok (.py false) | .ne => .ok (.py true) | _ => .error .typeError) := by
  rcases ho with ⟨t, rfl⟩ | ⟨l, rfl⟩ | ⟨b, rfl⟩ <;> cases op <;> exact ⟨rfl, rfl⟩

/-- An assignment with `x = 7`, `y = -2`. -/
def envNeg : Env := ⟨fun _ => false, fun n => if n = ['x'] then 7 else -2, fun _ _ => 0⟩

/-- **C42 refuted** for negative divisors: `7 // -2` evaluates to `-3`; Python gives `-4`. -/
theorem C42_refuted : ¬ ∀ (e : Env) (l r : Term) (a b : Int), DenInt e l a → DenInt e r b → b ≠ 0 →
    ∃ t, intOp S .floordiv (.sint l) (.sint r) = .ok (.sym t) ∧ DenInt e t (a.fdiv b) := by
  intro h
  have hx : DenInt envNeg (.sym ['x'] .int) 7 := by unfold DenInt; decide
  have hy : DenInt envNeg (.sym ['y'] .int) (-2) := by unfold DenInt; decide
  obtain ⟨t, h1, h2⟩ := h envNeg _ _ _ _ hx hy (by decide)
  have hev : (Term.bin .div (.sym ['x'] .int) (.sym ['y'] .int)).eval envNeg = some (.int (-3)) := by decide
  have h3 := S.eval _ _ _ hev
  simp only [intOp, intFwd, castInt, IOp.term, node_ok hev, ok_bind] at h1
  injection h1 with h1
  injection h1 with h1
  rw [h1, h2] at h3
  exact absurd h3 (by decide)

example : intOp noSimp .sub (.obj (.int 5)) (.sint (.sym ['x'] .int)) =
    .ok (.sym (.bin .minus (.intC 5) (.sym ['x'] .int))) ∧ DenI envNeg (.sint (.sym ['x'] .int)) 7 :=
  ⟨by decide, .sint (by unfold DenInt; decide)⟩
end

end HW
