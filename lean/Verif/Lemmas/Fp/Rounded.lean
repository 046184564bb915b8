import Verif.Lemmas.Fp.Value
import Verif.Lemmas.Fp.Dir

/-! The rounding of a format in terms of its numbers. -/

namespace HW.Fp
open Spec

variable {f : Fmt} {x : ℚ}

theorem prec2 (hf : f.Ok) : 2 ≤ f.ctx.precision := by rw [ctx_p]; have := hf.2; omega

theorem ofRat_finish (hf : f.Ok) (h2 : 2 ≤ f.eb) (x : ℚ) (z : Bool) : f.ofRat x z = f.ctx.ofRat x z := by
  unfold Fmt.ofRat
  rcases ofRat_rep (good hf h2) (prec2 hf) x z with ⟨s, h⟩ | ⟨s, h⟩ | ⟨s, m, e, h, _⟩ <;> rw [h] <;> rfl

theorem ofRat_zero (f : Fmt) (z : Bool) : f.ofRat 0 z = .zero z := by
  simp [Fmt.ofRat, Ctx.ofRat, Fmt.finish]

theorem finite_zero (f : Fmt) : f.Finite 0 := .inl rfl

theorem finite_num (hf : f.Ok) {m : Nat} {e : Int} (hn : f.ctx.Norm m e) (s : Bool) :
    f.Finite (sgn s * m * 2 ^ e) := (finite_iff hf _).2 (.inr ⟨s, m, e, hn, rfl⟩)

theorem mul_num_nonneg (x : ℚ) (m : Nat) (e : Int) : 0 ≤ x * (sgn (decide (x < 0)) * m * 2 ^ e) := by
  have h := two_zpow_pos e
  have : x * (sgn (decide (x < 0)) * m * 2 ^ e) = |x| * (m * 2 ^ e) := by
    unfold sgn
    by_cases hx : x < 0
    · simp [hx, abs_of_neg hx]
    · simp [hx, abs_of_nonneg (not_lt.mp hx)]
  rw [this]; positivity

theorem isRTZ (hf : f.Ok) (h2 : 2 ≤ f.eb) (hx : x ≠ 0) (hd : dir f.mode.gmpy (decide (x < 0)) = .trunc) (z : Bool) :
    f.IsRTZ x (f.ofRat x z).datum := by
  rw [ofRat_finish hf h2]
  rcases ofRat_trunc (good hf h2) hx hd z with ⟨h, h1⟩ | ⟨m, e, h, hn, h1, h3⟩ <;> rw [h]
  · refine ⟨0, rfl, finite_zero f, by simp, by simp, fun y' hy hle => ?_⟩
    rcases (finite_iff hf y').1 hy with rfl | ⟨s, m, e, hn, rfl⟩
    · exact le_refl _
    · rw [abs_num] at hle
      exact absurd (h1 m e hn) (not_lt.mpr hle)
  · refine ⟨_, rfl, finite_num hf hn _, by rw [abs_num]; exact h1, mul_num_nonneg x m e, fun y' hy hle => ?_⟩
    rw [abs_num]
    rcases (finite_iff hf y').1 hy with rfl | ⟨s, m', e', hn', rfl⟩
    · have := two_zpow_pos e; simp; positivity
    · rw [abs_num] at hle ⊢
      exact h3 m' e' hn' hle

theorem isAway (hf : f.Ok) (h2 : 2 ≤ f.eb) (hx : x ≠ 0) (hd : dir f.mode.gmpy (decide (x < 0)) = .away) (z : Bool) :
    f.IsAway x (f.ofRat x z).datum := by
  rw [ofRat_finish hf h2]
  have ha : 0 < |x| := abs_pos.mpr hx
  rcases ofRat_away (good hf h2) hx hd z with ⟨h, h1⟩ | ⟨m, e, h, hn, h1, h3⟩ <;> rw [h]
  · refine .inr ⟨rfl, fun y' hy => ?_⟩
    rcases (finite_iff hf y').1 hy with rfl | ⟨s, m, e, hn, rfl⟩
    · simpa using ha
    · rw [abs_num]; exact h1 m e hn
  · refine .inl ⟨_, rfl, finite_num hf hn _, by rw [abs_num]; exact h1, mul_num_nonneg x m e, fun y' hy hle => ?_⟩
    rw [abs_num]
    rcases (finite_iff hf y').1 hy with rfl | ⟨s, m', e', hn', rfl⟩
    · rw [abs_zero] at hle; exact absurd hle (not_le.mpr ha)
    · rw [abs_num] at hle ⊢
      exact h3 m' e' hn' hle

/-- The last place of a number of the format is the last bit of its pattern. -/
theorem even_pattern (hf : f.Ok) {m : Nat} {e : Int} (hn : f.ctx.Norm m e) (hev : f.ctx.EvenLast m e) (s : Bool) :
    ∃ s' E M, f.Fields E M ∧ f.value s' E M = (Mpfr.fin s m e).datum ∧ 2 ∣ M := by
  obtain ⟨E, M, hF, hd⟩ := fields_of_norm hf hn s
  refine ⟨s, E, M, hF, (datum_decoded hf hd).symm, ?_⟩
  cases hd with
  | normal h0 h1 =>
    have : ¬ (f.ctx.subnormalize = true ∧ ((E : Int) - f.bias - f.mb) < f.ctx.emin - 1) := by
      rintro ⟨hs, hlt⟩
      rw [ctx_sub] at hs
      rw [ctx_emin, if_pos hs] at hlt
      omega
    unfold Ctx.EvenLast at hev
    rw [if_neg this] at hev
    have : 2 ∣ 2 ^ f.mb := dvd_pow_self 2 (by have := hf.2; omega)
    omega
  | sub _ _ h0 h3 hi hn' heq =>
    have hlt : e < f.ctx.emin - 1 := by
      have h1 := (hn.sig.bounds e).1
      rw [heq] at h1
      have h4 : (M : ℚ) * 2 ^ (1 - f.bias - f.mb) < 2 ^ (1 - f.bias) := by
        have : (2 : ℚ) ^ (1 - f.bias) = ((2 ^ f.mb : Nat) : ℚ) * 2 ^ (1 - f.bias - f.mb) := by
          rw [← zpow_nat, ← zpow_add']; congr 1; omega
        rw [this]
        exact mul_lt_mul_of_pos_right (by exact_mod_cast hF.2) (two_zpow_pos _)
      have := lt_of_zpow (lt_of_le_of_lt h1 h4)
      rw [ctx_p] at this
      rw [ctx_emin, if_pos hi]
      push_cast at this
      omega
    unfold Ctx.EvenLast at hev
    rw [if_pos ⟨by rw [ctx_sub]; exact hi, hlt⟩] at hev
    obtain ⟨k, hk⟩ := hev
    rw [heq, ctx_emin, if_pos hi, show (2 - f.bias - (f.mb : Int) - 1) = 1 - f.bias - f.mb by omega] at hk
    have := mul_right_cancel₀ (two_zpow_pos _).ne' hk
    have : M = 2 * k := by exact_mod_cast this
    omega

theorem threshold_eq (f : Fmt) :
    f.overflowThreshold = (2 : ℚ) ^ f.ctx.emax - 2 ^ (f.ctx.emax - f.ctx.precision - 1) := by
  unfold Fmt.overflowThreshold
  rw [ctx_emax, ctx_p]
  have h1 : (2 : ℚ) ^ (f.bias + 1) = 2 ^ f.bias * 2 := by rw [zpow_add']; norm_num
  have h2 : (2 : ℚ) ^ (f.bias + 1 - ((f.mb + 1 : Nat) : Int) - 1) = 2 ^ f.bias * (1 / 2 ^ (f.mb + 1)) := by
    rw [show f.bias + 1 - ((f.mb + 1 : Nat) : Int) - 1 = f.bias + -((f.mb + 1 : Nat) : Int) by push_cast; ring,
      zpow_add', zpow_neg, zpow_natCast, one_div]
  rw [h1, h2]
  unfold Fmt.bias
  ring

/-- Distances from `x` to the numbers on its side are distances of magnitudes. -/
theorem dist_same (x : ℚ) (a : ℚ) : |x - sgn (decide (x < 0)) * a| = |(|x| - a)| := by
  conv_lhs => rw [← sgn_mul_abs x]
  by_cases h : x < 0
  · simp only [sgn_mul_abs]
    unfold sgn
    simp only [h, decide_true, if_true, abs_of_neg h]
    rw [← abs_neg]; congr 1; ring
  · simp only [sgn_mul_abs]
    unfold sgn
    simp only [h, decide_false, abs_of_nonneg (not_lt.mp h)]
    congr 1; simp

theorem dist_other {x a : ℚ} (ha : 0 ≤ a) (s : Bool) (h : s ≠ decide (x < 0)) : |x - sgn s * a| = |x| + a := by
  have hs : s = !decide (x < 0) := by
    revert h; cases s <;> cases decide (x < 0) <;> simp
  rw [hs]
  unfold sgn
  by_cases hx : x < 0
  · simp only [hx, decide_true, Bool.not_true]
    rw [if_neg (by simp), one_mul, abs_of_neg (by linarith : x - a < 0), abs_of_neg hx]; ring
  · have hx' := not_lt.mp hx
    simp only [hx, decide_false, Bool.not_false, if_true]
    rw [show x - -1 * a = x + a by ring, abs_of_nonneg (by linarith), abs_of_nonneg hx']

theorem isRNE (hf : f.Ok) (h2 : 2 ≤ f.eb) (hx : x ≠ 0) (hd : dir f.mode.gmpy (decide (x < 0)) = .nearest) (z : Bool) :
    f.IsRNE x (f.ofRat x z).datum := by
  rw [ofRat_finish hf h2]
  have ha : 0 < |x| := abs_pos.mpr hx
  unfold Fmt.IsRNE Fmt.IsNearest
  rw [threshold_eq]
  rcases ofRat_nearest (good hf h2) (prec2 hf) hx hd z with ⟨h, h1⟩ | ⟨hth, ⟨h, h1⟩ | ⟨m, e, h, hn, h0, h1, h3⟩⟩ <;> rw [h]
  · exact .inr ⟨rfl, h1⟩
  · refine .inl ⟨0, rfl, finite_zero f, hth, fun y' hy => ?_, fun _ => ?_⟩
    · rw [sub_zero]
      rcases (finite_iff hf y').1 hy with rfl | ⟨s, m, e, hn, rfl⟩
      · simp
      · have hz := two_zpow_pos e
        rw [mul_assoc]
        by_cases hs : s = decide (x < 0)
        · subst hs; rw [dist_same]; exact h1 m e hn
        · rw [dist_other (by positivity) s hs]; linarith [show (0 : ℚ) ≤ m * 2 ^ e by positivity]
    · refine ⟨decide (x < 0), 0, 0, ⟨by positivity, by positivity⟩, ?_, by simp⟩
      exact (datum_decoded hf (.zero rfl rfl)).symm
  · have hz := two_zpow_pos e
    have hd1 : |x - sgn (decide (x < 0)) * m * 2 ^ e| = |(|x| - m * 2 ^ e)| := by rw [mul_assoc, dist_same]
    refine .inl ⟨_, rfl, finite_num hf hn _, hth, fun y' hy => ?_, ?_⟩
    · rw [hd1]
      rcases (finite_iff hf y').1 hy with rfl | ⟨s, m', e', hn', rfl⟩
      · simpa using h0
      · have hz' := two_zpow_pos e'
        rw [mul_assoc]
        by_cases hs : s = decide (x < 0)
        · subst hs; rw [dist_same]; exact h1 m' e' hn'
        · rw [dist_other (by positivity) s hs]; linarith [show (0 : ℚ) ≤ m' * 2 ^ e' by positivity]
    · rintro ⟨y', hy, hne, heq⟩
      refine even_pattern hf hn (h3 ?_) _
      rw [hd1] at heq
      rcases (finite_iff hf y').1 hy with rfl | ⟨s, m', e', hn', rfl⟩
      · left; rw [← heq]; simp
      · have hz' := two_zpow_pos e'
        have hm' : (0 : ℚ) < m' := by exact_mod_cast hn'.sig.pos
        rw [mul_assoc] at heq
        by_cases hs : s = decide (x < 0)
        · subst hs
          rw [dist_same] at heq
          refine .inr ⟨m', e', hn', fun hc => hne ?_, heq⟩
          rw [mul_assoc, hc, mul_assoc]
        · rw [dist_other (by positivity) s hs] at heq
          have : (0 : ℚ) < m' * 2 ^ e' := by positivity
          linarith

theorem isRTN_of_RTZ {d : Datum} (hx : 0 < x) (h : f.IsRTZ x d) : f.IsRTN x d := by
  obtain ⟨y, h1, h2, h3, h4, h5⟩ := h
  have hy : 0 ≤ y := nonneg_of_mul_nonneg_right h4 hx
  rw [abs_of_nonneg hy, abs_of_pos hx] at h3
  refine .inl ⟨y, h1, h2, h3, fun y' hy' hle => ?_⟩
  rcases le_total y' 0 with h0 | h0
  · exact h0.trans hy
  · have := h5 y' hy' (by rw [abs_of_nonneg h0, abs_of_pos hx]; exact hle)
    rwa [abs_of_nonneg h0, abs_of_nonneg hy] at this

theorem isRTP_of_RTZ {d : Datum} (hx : x < 0) (h : f.IsRTZ x d) : f.IsRTP x d := by
  obtain ⟨y, h1, h2, h3, h4, h5⟩ := h
  have hy : y ≤ 0 := by
    by_contra hc
    have := mul_neg_of_neg_of_pos hx (not_le.mp hc)
    linarith
  rw [abs_of_nonpos hy, abs_of_neg hx] at h3
  refine .inl ⟨y, h1, h2, by linarith, fun y' hy' hle => ?_⟩
  rcases le_total 0 y' with h0 | h0
  · exact hy.trans h0
  · have := h5 y' hy' (by rw [abs_of_nonpos h0, abs_of_neg hx]; linarith)
    rw [abs_of_nonpos h0, abs_of_nonpos hy] at this
    linarith

theorem isRTP_of_away {d : Datum} (hx : 0 < x) (h : f.IsAway x d) : f.IsRTP x d := by
  rcases h with ⟨y, h1, h2, h3, h4, h5⟩ | ⟨h1, h2⟩
  · have hy : 0 ≤ y := nonneg_of_mul_nonneg_right h4 hx
    rw [abs_of_nonneg hy, abs_of_pos hx] at h3
    refine .inl ⟨y, h1, h2, h3, fun y' hy' hle => ?_⟩
    have h0 : 0 ≤ y' := by linarith
    have := h5 y' hy' (by rw [abs_of_nonneg h0, abs_of_pos hx]; exact hle)
    rwa [abs_of_nonneg h0, abs_of_nonneg hy] at this
  · refine .inr ⟨by rw [h1]; simp [not_lt.mpr hx.le], fun y' hy' => ?_⟩
    have := h2 y' hy'
    rw [abs_of_pos hx] at this
    exact lt_of_le_of_lt (le_abs_self _) this

theorem isRTN_of_away {d : Datum} (hx : x < 0) (h : f.IsAway x d) : f.IsRTN x d := by
  rcases h with ⟨y, h1, h2, h3, h4, h5⟩ | ⟨h1, h2⟩
  · have hy : y ≤ 0 := by
      by_contra hc
      have := mul_neg_of_neg_of_pos hx (not_le.mp hc)
      linarith
    rw [abs_of_nonpos hy, abs_of_neg hx] at h3
    refine .inl ⟨y, h1, h2, by linarith, fun y' hy' hle => ?_⟩
    have h0 : y' ≤ 0 := by linarith
    have := h5 y' hy' (by rw [abs_of_nonpos h0, abs_of_neg hx]; linarith)
    rw [abs_of_nonpos h0, abs_of_nonpos hy] at this
    linarith
  · refine .inr ⟨by rw [h1]; simp [hx], fun y' hy' => ?_⟩
    have := h2 y' hy'
    rw [abs_of_neg hx] at this
    have h3 := neg_abs_le y'
    linarith

end HW.Fp
