import Verif.Props.Operators

/-! # Property C29, continued: two polymorphic operands -/

namespace HW
open Spec

theorem base_isSub (k : Kind) (r : Root) : k.base.isSub r = under r k := by
  induction k with
  | root r' => cases r <;> cases r' <;> rfl
  | poly id t f sel iht ihf =>
    rw [under, ← iht, ← ihf, Kind.base]
    generalize t.base = a
    generalize f.base = b
    cases a <;> cases b <;> cases r <;> rfl

theorem properSub_derives {x y : BVal} (hz : y.size = x.size) : y.properSub x = derives y.kind x.kind := by
  unfold BVal.properSub BVal.sameType derives
  cases hk : x.kind with
  | root r =>
    simp only [Kind.isSub, base_isSub, hz, beq_self_eq_true, Bool.and_true]
    by_cases h : y.kind = .root r
    · simp [h]
    · have : (Kind.root r == y.kind) = false := beq_eq_false_iff_ne.mpr fun e => h e.symm
      simp [h, this]
  | poly id t f sel =>
    simp only [Kind.isSub, hz, beq_self_eq_true, Bool.and_true]
    by_cases h : y.kind = .poly id t f sel
    · simp [h]
    · simp [h]

theorem vectors_ref {x y : BVal} (hx : x.WF) (hy : y.WF) (hn : 0 < x.size) (hz : y.size = x.size) (i : Nat) :
    (∀ op, (y.properSub x = true → op ≠ .shr) → binA op (.bv x) (.bv y) i = .ok (.bv ⟨x.kind, x.size,
      refA (if y.properSub x then readsSigned y.kind else readsSigned x.kind) op x.size x.value y.value⟩, i)) ∧
    (∀ op, binC op (.bv x) (.bv y) = .ok (.bit
      (refC (if y.properSub x then readsSigned y.kind else readsSigned x.kind) op x.size x.value y.value))) := by
  have hop : operand x.size (.bv y) = .ok y.value := by simp [operand, hz]
  have hop' : operand y.size (.bv x) = .ok x.value := by simp [operand, hz]
  have hf (op : AOp) := fwd_ref op (op.slot x.kind) hx hn (o := .bv y) hy hop i
  have hc (op : COp) := cfwd_ref op (op.slot x.kind) hx hn (o := .bv y) hy hop
  have hc' (op : COp) := cfwd_ref op.swap (op.swap.slot y.kind) hy (by omega) (o := .bv x) hx hop'
  constructor
  · intro op hsh
    by_cases hp : y.properSub x = true
    · rw [if_pos hp]
      by_cases hs : op.slot y.kind = op.slot x.kind
      · rw [binA_fwd (by rintro _ ⟨⟩; simp [hs]) (hf op), ← hs, slot_signed_ref]
      · have hr := rev_ref op (op.slot y.kind) hy (by omega) (o := .bv x) hx (y := x) (by simp [coerce]; omega)
          (fun h => absurd h (hsh hp)) i
        rw [binA_rev_first (by simp [hp, hs]) hr, slot_signed_ref, hz]
    · rw [if_neg hp, binA_fwd (by rintro _ ⟨⟩; simp [hp]) (hf op), slot_signed_ref]
  · intro op
    by_cases hp : y.properSub x = true
    · rw [if_pos hp, binC_rev_first hp (hc' op), swap_slot, refC_swap, cslot_signed_ref, hz]
    · rw [if_neg hp, binC_fwd (by rintro _ ⟨⟩; simpa using hp) (hc op), cslot_signed_ref]

/-- **C29** two concrete vectors of any classes of one width.  The reading is that of the left operand, unless the class of the
right operand is a proper subclass of the left one's: then it is that of the right operand.  In the latter case `>>` is excluded
(`C29_right_rshift_refuted`). -/
theorem C29_vectors_partial {x y : BVal} (hx : x.WF) (hy : y.WF) (hn : 0 < x.size) (hz : y.size = x.size) (i : Nat) :
    (∀ op, (derives y.kind x.kind = true → op ≠ .shr) → binA op (.bv x) (.bv y) i = .ok (.bv ⟨x.kind, x.size,
      refA (if derives y.kind x.kind then readsSigned y.kind else readsSigned x.kind) op x.size x.value y.value⟩, i)) ∧
    (∀ op, binC op (.bv x) (.bv y) = .ok (.bit
      (refC (if derives y.kind x.kind then readsSigned y.kind else readsSigned x.kind) op x.size x.value y.value))) := by
  rw [← properSub_derives hz]
  exact vectors_ref hx hy hn hz i

example := C29_vectors_partial (x := ⟨.root .bv, 8, 8⟩) (y := ⟨.poly 0 (.root .uint) (.root .sint) true, 8, 255⟩)
  (by decide) (by decide) (by decide) rfl 1

/-- **C29** two concrete vectors of different widths, of any classes: `InconsistentSizeError`. -/
theorem C29_widths {x y : BVal} (hx : x.WF) (hy : y.WF) (hn : 0 < x.size) (hz : y.size ≠ x.size) (i : Nat) :
    (∀ op, binA op (.bv x) (.bv y) i = .error .inconsistentSize) ∧ (∀ op, binC op (.bv x) (.bv y) = .error .inconsistentSize) := by
  have hop : operand x.size (.bv y) = .error .inconsistentSize := by
    simp only [operand]; rw [if_neg (by omega)]
  have hp : y.properSub x = false := by simp [BVal.properSub, hz]
  constructor
  · intro op
    have := fwd_err op (op.slot x.kind) hx hn (o := .bv y) hy hop i
    simp only [binA, fwdA, hp, Bool.false_and, Bool.false_eq_true, if_false, bind, StateT.bind, this]; rfl
  · intro op
    have := cfwd_err op (op.slot x.kind) hx hn (o := .bv y) hy hop
    simp only [binC, fwdC, hp, Bool.false_eq_true, if_false, this]; rfl

end HW
