import Verif.Model.Fp.Warnings
import Verif.Props.Fp
import Verif.Props.Warnings

/-!
# Property C127: flushing is announced
-/

namespace HW
open Spec Fp

/-- Which warning decoding a pattern gives. -/
theorem C127_decode_warnings {f : Fmt} (hf : f.Ok) (k : Kind) (s : Bool) {E M : Nat} (h : f.Fields E M) :
    f.fromBVWarns ⟨k, f.size, f.pattern s E M⟩ = .ok
      (if f.ieee = true ∨ M = 0 then [] else if E = 0 then [.denorm] else if E = 2 ^ f.eb - 1 then [.nan] else []) := by
  obtain ⟨s1, s2, -⟩ := slices (s := s) k hf h
  have hE := fieldsE h
  have hpe := two_pow_pos f.eb
  have hpe2 : (2 : Int) ≤ 2 ^ f.eb := by have := pow_eb hf; have := bias_nonneg f; omega
  have hcast : ((2 ^ f.eb - 1 : Nat) : Int) = 2 ^ f.eb - 1 := by
    rw [Nat.cast_sub (Nat.one_le_two_pow), cast_pow]; rfl
  have hm1 : (-1 : Int) % 2 ^ f.eb = 2 ^ f.eb - 1 := by
    rw [← Int.add_emod_right, Int.emod_eq_of_lt (by omega) (by omega)]; omega
  unfold Fmt.fromBVWarns
  rw [if_neg (by simp)]
  simp only [s1, s2, bind, Except.bind, ne_eq, not_true, if_false, eqInt_eq, bveq_eq, bvne_eq, Int.zero_emod, hm1]
  have hE1 : ((E : Int) = 2 ^ f.eb - 1) ↔ E = 2 ^ f.eb - 1 := by rw [← hcast]; norm_cast
  simp only [hE1]
  by_cases hE0 : E = 0 <;> by_cases hM0 : M = 0 <;> by_cases hi : f.ieee = true <;>
    by_cases h1 : E = 2 ^ f.eb - 1 <;> simp [hE0, hM0, hi, h1, pure, Except.pure]
  have a1 : ¬ (2 : Int) ^ f.eb - 1 = 0 := by omega
  have a2 : ¬ 2 ^ f.eb - 1 = 0 := h1 ▸ hE0
  rw [if_neg a1, if_neg a2]

/-- **C127** a pattern decodes to the value IEEE 754 gives it exactly when no warning is given. -/
theorem C127_decode {f : Fmt} (hf : f.Ok) (k : Kind) (s : Bool) {E M : Nat} (h : f.Fields E M) :
    f.fromBVWarns ⟨k, f.size, f.pattern s E M⟩ = .ok [] ↔
    (f.fromBV ⟨k, f.size, f.pattern s E M⟩).map Mpfr.datum = .ok (f.ieeeValue s E M) := by
  rw [C127_decode_warnings hf k s h, C45_value hf k s h]
  have h2 : 2 ^ f.eb - 1 ≠ 0 := by
    have : 1 < 2 ^ f.eb := Nat.one_lt_two_pow (by have := hf.1; omega)
    omega
  unfold Fmt.value
  by_cases hi : f.ieee = true
  · simp [hi]
  · simp only [hi, false_or, Except.ok.injEq, Bool.false_eq_true, if_false]
    unfold Fmt.flushValue
    by_cases hM : M = 0
    · simp only [hM, if_true, true_iff, Fmt.ieeeValue]
      by_cases h1 : E = 2 ^ f.eb - 1
      · simp [h1]
      · by_cases h0 : E = 0 <;> simp [h1, h0]
        simp [h2.symm]
    · by_cases h0 : E = 0
      · simp [hM, h0, Fmt.ieeeValue, h2.symm]
      · by_cases h1 : E = 2 ^ f.eb - 1
        · simp [hM, h1, h2, Fmt.ieeeValue]
        · simp [hM, h0, h1, Fmt.ieeeValue]

/-- **C127** encoding an object of the format never gives a warning. -/
theorem C127_encode {f : Fmt} (hf : f.Ok) (h2 : 2 ≤ f.eb) {v : Mpfr} (h : f.Object v) : f.asBVWarns v = [] := by
  obtain ⟨E, M, hF, h1, ⟨hd, h3⟩ | ⟨s, rfl, hi, hE, hM, h3⟩⟩ := rep_encode hf (object_rep hf h2 h)
  · have hE := fieldsE hF
    have hM := fieldsM hF
    have hM' := hF.2
    have hpe := two_pow_pos f.eb
    have hpm := two_pow_pos f.mb
    have hps : (2 : Int) ^ (f.mb + 1) = 2 * 2 ^ f.mb := by rw [pow_succ]; ring
    have hbl := bitLength_le (by omega : (0 : Int) ≤ E) hE
    have tE : truncWarns f.eb (.other (some (E : Int)) none) = false := by
      simp only [truncWarns]; rw [decide_eq_false_iff_not]; omega
    have tm : ∀ m : Nat, (m : Int) < 2 ^ (f.mb + 1) → ∀ s : Bool,
        truncWarns (f.mb + 1) (.other (some (if s then -(m : Int) else m)) none) = false := by
      intro m hm s
      simp only [truncWarns]
      rw [decide_eq_false_iff_not, not_lt, bitLength_le_iff]
      cases s
      · simp; omega
      · simp; omega
    cases v with
    | fin s m e =>
      change Decoded f s E M (.fin s m e) at hd
      cases hd with
      | normal a1 a2 =>
        have e1 : ¬ ((E : Int) - f.bias - f.mb + f.mb < 1 - f.bias) := by omega
        have e2 : (E : Int) - f.bias - f.mb + f.mb + f.bias = E := by ring
        have := tm (2 ^ f.mb + M) (by push_cast; omega) s
        unfold Fmt.asBVWarns
        simp only [if_neg e1, e2, hbl, not_true, if_false, tE, this, Bool.false_eq_true, List.append_nil]
      | sub _ _ h0 h1 hi hn heq =>
        subst h0
        have hsig := hn.sig
        have hm1 : 2 ^ f.mb ≤ m := by have := hsig.1; rw [ctx_p] at this; simpa using this
        have hlt : e < 1 - f.bias - f.mb := by
          by_contra hge
          have h3 : (M : ℚ) < m := by exact_mod_cast lt_of_lt_of_le hM' hm1
          have := mul_lt_mul_of_pos_right h3 (two_zpow_pos (1 - f.bias - f.mb))
          have h4 := mul_le_mul_of_nonneg_left (zpow_le_of (not_lt.mp hge)) (show (0 : ℚ) ≤ m by positivity)
          linarith
        have hmn : m = M * 2 ^ (1 - f.bias - f.mb - e).toNat := by
          rw [zpow_mul_nat hlt.le, ← mul_assoc] at heq
          have := mul_right_cancel₀ (two_zpow_pos e).ne' heq
          exact_mod_cast this
        have e1 : e + f.mb < 1 - f.bias := by omega
        have e3 : (1 - f.bias - (e + f.mb)).toNat = (1 - f.bias - f.mb - e).toNat := by congr 1; ring
        have e2 : shiftLoop (1 - f.bias - (e + f.mb)).toNat (if s then -(m : Int) else m) = if s then -(M : Int) else M := by
          rw [e3, ← shiftLoop_mul (1 - f.bias - f.mb - e).toNat (if s then -(M : Int) else M)]
          congr 1
          rw [hmn]
          cases s <;> push_cast <;> simp
        have := tm M (by omega) s
        unfold Fmt.asBVWarns
        simp only [if_pos e1, hi, not_true, if_false, e2, this, Bool.false_eq_true, List.append_nil]
        simp only [Nat.cast_zero] at tE
        simp [tE]
    | _ => rfl
  · rfl

/-- A bfloat16 pattern that is flushed, and one that is not. -/
example : brain.fromBVWarns ⟨.root .bv, 16, brain.pattern true 0 9⟩ = .ok [.denorm] ∧
    brain.fromBVWarns ⟨.root .bv, 16, brain.pattern true 255 64⟩ = .ok [.nan] ∧
    brain.fromBVWarns ⟨.root .bv, 16, brain.pattern true 1 64⟩ = .ok [] ∧
    half.fromBVWarns ⟨.root .bv, 16, half.pattern true 0 9⟩ = .ok [] :=
  ⟨C127_decode_warnings (by decide) _ _ (by decide), C127_decode_warnings (by decide) _ _ (by decide),
   C127_decode_warnings (by decide) _ _ (by decide), C127_decode_warnings (by decide) _ _ (by decide)⟩

end HW
