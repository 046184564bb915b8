import Verif.Props.Fp

/-! # Floating point: the numbers of a format (C48) and rounding (C49)

For formats with at least two exponent bits; with one exponent bit every number is subnormal and MPFR's
overflow threshold is not a number of the format. -/

namespace HW
open Spec Fp

/-! ## C48 -/

/-- The finite results of construction are exactly the finite values of the format's bit patterns. -/
theorem C48_numbers {f : Fmt} (hf : f.Ok) (h2 : 2 ≤ f.eb) (y : ℚ) :
    f.Finite y ↔ ∃ x z, (f.ofRat x z).datum.fin? = some y := by
  constructor
  · intro h
    rcases (finite_iff hf y).1 h with rfl | ⟨s, m, e, hn, rfl⟩
    · exact ⟨0, false, by rw [ofRat_zero]; rfl⟩
    · refine ⟨(Mpfr.fin s m e).toRat, false, ?_⟩
      rw [ofRat_finish hf h2, ofRat_exact hn]; rfl
  · rintro ⟨x, z, h⟩
    rw [ofRat_finish hf h2] at h
    rcases ofRat_rep (good hf h2) (prec2 hf) x z with ⟨s, hr⟩ | ⟨s, hr⟩ | ⟨s, m, e, hr, hn⟩ <;> rw [hr] at h
    · cases h
    · injection h with h; rw [← h]; exact finite_zero f
    · injection h with h; rw [← h]; exact finite_num hf hn s

/-- A number of the format is constructed without rounding. -/
theorem C48_exact {f : Fmt} (hf : f.Ok) (h2 : 2 ≤ f.eb) {y : ℚ} (h : f.Finite y) (z : Bool) :
    (f.ofRat y z).datum = if y = 0 then .zero z else .num y := by
  rcases (finite_iff hf y).1 h with rfl | ⟨s, m, e, hn, rfl⟩
  · rw [ofRat_zero]; rfl
  · have h0 : sgn s * m * 2 ^ e ≠ 0 := by
      have h1 := two_zpow_pos e
      have h2 : (0 : ℚ) < m := by exact_mod_cast hn.sig.pos
      have h3 : sgn s ≠ 0 := by unfold sgn; cases s <;> simp
      exact mul_ne_zero (mul_ne_zero h3 h2.ne') h1.ne'
    rw [if_neg h0, ofRat_finish hf h2, show sgn s * m * 2 ^ e = (Mpfr.fin s m e).toRat from rfl, ofRat_exact hn]
    rfl

/-- The largest finite number. -/
theorem C48_max {f : Fmt} (hf : f.Ok) (h2 : 2 ≤ f.eb) :
    f.Finite ((2 - 1 / 2 ^ f.mb) * 2 ^ (2 ^ (f.eb - 1) - 1 : Int)) ∧
    ∀ y, f.Finite y → |y| ≤ (2 - 1 / 2 ^ f.mb) * 2 ^ (2 ^ (f.eb - 1) - 1 : Int) := by
  have e1 : (2 - 1 / 2 ^ f.mb : ℚ) * 2 ^ (2 ^ (f.eb - 1) - 1 : Int) =
      sgn false * (2 ^ f.ctx.precision - 1 : Nat) * 2 ^ (f.ctx.emax - f.ctx.precision) := by
    rw [show (2 ^ (f.eb - 1) - 1 : Int) = f.bias from rfl, ctx_emax, ctx_p,
      show f.bias + 1 - ((f.mb + 1 : Nat) : Int) = f.bias + -(f.mb : Int) by push_cast; ring, zpow_add', zpow_neg,
      zpow_natCast, Nat.cast_sub Nat.one_le_two_pow]
    simp only [sgn, Bool.false_eq_true, if_false, one_mul]
    push_cast
    have : (2 : ℚ) ^ f.mb ≠ 0 := by positivity
    field_simp
    ring
  rw [e1]
  refine ⟨finite_num hf (norm_max (good hf h2)) false, fun y hy => ?_⟩
  have hz := two_zpow_pos (f.ctx.emax - f.ctx.precision)
  simp only [sgn, Bool.false_eq_true, if_false, one_mul]
  rcases (finite_iff hf y).1 hy with rfl | ⟨s, m, e, hn, rfl⟩
  · rw [abs_zero]; positivity
  · rw [abs_num]; exact norm_le_max hn

/-- The smallest positive number. -/
theorem C48_min {f : Fmt} (hf : f.Ok) (h2 : 2 ≤ f.eb) {mn : ℚ}
    (hmn : mn = if f.ieee then (2 : ℚ) ^ (1 - (2 ^ (f.eb - 1) - 1) - f.mb : Int) else 2 ^ (1 - (2 ^ (f.eb - 1) - 1) : Int)) :
    f.Finite mn ∧ 0 < mn ∧ ∀ y, f.Finite y → 0 < y → mn ≤ y := by
  rw [show (2 ^ (f.eb - 1) - 1 : Int) = f.bias from rfl] at hmn
  have hpos : ∀ y, f.Finite y → 0 < y → ∃ m e, f.ctx.Norm m e ∧ y = m * 2 ^ e := by
    intro y hy h0
    rcases (finite_iff hf y).1 hy with rfl | ⟨s, m, e, hn, rfl⟩
    · exact absurd h0 (lt_irrefl _)
    · exact ⟨m, e, hn, by rw [← abs_num s, abs_of_pos h0]⟩
  by_cases hi : f.ieee = true
  · rw [if_pos hi] at hmn
    subst hmn
    refine ⟨?_, two_zpow_pos _, fun y hy h0 => ?_⟩
    · obtain ⟨m, e, hn, h⟩ := sub_norm (f := f) (E := 0) (M := 1) hi
        ⟨by positivity, Nat.one_lt_two_pow (by have := hf.2; omega)⟩ (by omega)
      rw [Nat.cast_one, one_mul] at h
      rw [← h]
      have := finite_num hf hn false
      simpa [sgn] using this
    · obtain ⟨m, e, hn, rfl⟩ := hpos y hy h0
      obtain ⟨k, hk⟩ := hn.sub (by rw [ctx_sub]; exact hi)
      rw [ctx_emin, if_pos hi, show (2 - f.bias - (f.mb : Int) - 1) = 1 - f.bias - f.mb by omega] at hk
      rw [hk] at h0 ⊢
      have hz := two_zpow_pos (1 - f.bias - f.mb)
      have : (0 : ℚ) < k := pos_of_mul_pos_left h0 hz.le
      have : (1 : ℚ) ≤ k := by
        have : 0 < k := by exact_mod_cast this
        exact_mod_cast this
      nlinarith
  · rw [if_neg hi] at hmn
    subst hmn
    refine ⟨?_, two_zpow_pos _, fun y hy h0 => ?_⟩
    · have h1 : (1 : Nat) ≠ 2 ^ f.eb - 1 := by
        have : 2 ^ 2 ≤ 2 ^ f.eb := Nat.pow_le_pow_right (by omega) h2
        omega
      have hn := normal_norm (f := f) (E := 1) (M := 0) hf ⟨Nat.one_lt_two_pow (by omega), by positivity⟩ (by omega) h1
      have := finite_num hf hn false
      have e1 : (2 : ℚ) ^ (1 - f.bias) = sgn false * (2 ^ f.mb + 0 : Nat) * 2 ^ (((1 : Nat) : Int) - f.bias - f.mb) := by
        simp only [sgn, Bool.false_eq_true, if_false, one_mul, Nat.add_zero]
        rw [← zpow_nat, ← zpow_add']; congr 1; push_cast; omega
      rw [e1]; exact this
    · obtain ⟨m, e, hn, rfl⟩ := hpos y hy h0
      refine (zpow_le_of ?_).trans (hn.sig.bounds e).1
      have := hn.lo
      rw [ctx_emin, if_neg hi] at this
      omega

/-- Half precision: largest 65504, smallest `2^-24`. -/
example : half.Finite 65504 ∧ ∀ y, half.Finite y → |y| ≤ 65504 := by
  have := C48_max (f := half) (by decide) (by decide)
  norm_num [half] at this
  exact this
example : half.Finite (2 ^ (-24 : Int)) ∧ ∀ y, half.Finite y → 0 < y → 2 ^ (-24 : Int) ≤ y := by
  have := C48_min (f := half) (by decide) (by decide) rfl
  norm_num [half] at this ⊢
  exact ⟨this.1, this.2⟩
example : (half.ofRat 65504 false).datum = .num 65504 := by
  rw [C48_exact (by decide) (by decide) (by
    have := (C48_max (f := half) (by decide) (by decide)).1
    norm_num [half] at this
    exact this), if_neg (by norm_num)]

/-! ## C49 -/

/-- In every mode but `RNA`, construction rounds as the mode's name says.  (`RNA` is
`C49_RNA_refuted`, `C49_RNA_actual`.) -/
theorem C49_rounds_partial {f : Fmt} (hf : f.Ok) (h2 : 2 ≤ f.eb) (hm : f.mode ≠ .RNA) (x : ℚ) (z : Bool) :
    f.IsRounded x (f.ofRat x z).datum := by
  by_cases hx : x = 0
  · subst hx
    have hT : 0 < f.overflowThreshold := by
      have h1 : (1 : ℚ) / 2 ^ (f.mb + 1) ≤ 1 := by
        rw [div_le_one (by positivity)]; exact one_le_pow₀ (by norm_num)
      unfold Fmt.overflowThreshold
      exact mul_pos (two_zpow_pos _) (by linarith)
    rw [ofRat_zero]
    have hz : (Mpfr.zero z).datum.fin? = some 0 := rfl
    unfold Fmt.IsRounded
    split
    · refine .inl ⟨0, hz, finite_zero f, by simpa using hT, fun y' _ => by simp, fun _ => ?_⟩
      exact ⟨z, 0, 0, ⟨by positivity, by positivity⟩, (datum_decoded hf (.zero rfl rfl)).symm, by simp⟩
    · exact absurd (by assumption) hm
    · exact .inl ⟨0, hz, finite_zero f, le_refl _, fun _ _ h => h⟩
    · exact .inl ⟨0, hz, finite_zero f, le_refl _, fun _ _ h => h⟩
    · exact ⟨0, hz, finite_zero f, le_refl _, by simp, fun _ _ h => h⟩
  · unfold Fmt.IsRounded
    split
    · rename_i h; exact isRNE hf h2 hx (by rw [h]; rfl) z
    · exact absurd (by assumption) hm
    · rename_i h
      rcases lt_or_gt_of_ne hx with hn | hp
      · exact isRTP_of_RTZ hn (isRTZ hf h2 hx (by rw [h]; simp [hn, Mode.gmpy, dir]) z)
      · exact isRTP_of_away hp (isAway hf h2 hx (by rw [h]; simp [not_lt.mpr hp.le, Mode.gmpy, dir]) z)
    · rename_i h
      rcases lt_or_gt_of_ne hx with hn | hp
      · exact isRTN_of_away hn (isAway hf h2 hx (by rw [h]; simp [hn, Mode.gmpy, dir]) z)
      · exact isRTN_of_RTZ hp (isRTZ hf h2 hx (by rw [h]; simp [not_lt.mpr hp.le, Mode.gmpy, dir]) z)
    · rename_i h; exact isRTZ hf h2 hx (by rw [h]; rfl) z

/-- What `RNA` does: it rounds away from zero, ties or not. -/
theorem C49_RNA_actual {f : Fmt} (hf : f.Ok) (h2 : 2 ≤ f.eb) (hm : f.mode = .RNA) (x : ℚ) (z : Bool) :
    f.IsAway x (f.ofRat x z).datum := by
  by_cases hx : x = 0
  · subst hx
    rw [ofRat_zero]
    exact .inl ⟨0, rfl, finite_zero f, le_refl _, by simp, fun _ _ h => by simp⟩
  · exact isAway hf h2 hx (by rw [hm]; rfl) z

/-- Every result carries the sign of the exact value. -/
theorem C49_sign {f : Fmt} (hf : f.Ok) (h2 : 2 ≤ f.eb) (x : ℚ) (z : Bool) :
    (f.ofRat x z).isSigned = if x = 0 then z else decide (x < 0) := by
  by_cases hx : x = 0
  · subst hx; rw [ofRat_zero]; rfl
  · rw [if_neg hx, ofRat_finish hf h2, ofRat_ne_zero hx]
    generalize decide (x < 0) = neg
    split
    · rfl
    · split
      · rw [overflow_eq]; split <;> rfl
      · unfold normalize; dsimp only; split <;> rfl

/-- `RNA` does not round to nearest, in any format: `1 + 2^-(mb+2)` goes to `1 + 2^-mb`, though 1 is nearer. -/
theorem C49_RNA_refuted {f : Fmt} (hf : f.Ok) (h2 : 2 ≤ f.eb) (hm : f.mode = .RNA) :
    ¬ f.IsRounded (1 + 1 / 2 ^ (f.mb + 2)) (f.ofRat (1 + 1 / 2 ^ (f.mb + 2)) false).datum := by
  have hb : 1 ≤ f.bias := by
    have h1 := pow_eb hf
    have h3 : (2 : Int) ^ 2 ≤ 2 ^ f.eb := by
      rw [← cast_pow, ← cast_pow]; exact_mod_cast Nat.pow_le_pow_right (by omega) h2
    have : (2 : Int) ^ 2 = 4 := rfl
    omega
  set δ : ℚ := 1 / 2 ^ (f.mb + 2) with hδ
  have hδ0 : 0 < δ := by positivity
  have hδ4 : 4 * δ * 2 ^ f.mb = 1 := by
    rw [hδ, pow_add]; field_simp; norm_num
  have hδ1 : 4 * δ ≤ 1 := by
    have : (1 : ℚ) ≤ 2 ^ f.mb := one_le_pow₀ (by norm_num)
    nlinarith
  have hone : f.Finite 1 := by
    have h1 : f.Fields (2 ^ (f.eb - 1) - 1) 0 := by
      refine ⟨?_, by positivity⟩
      have : 2 ^ (f.eb - 1) ≤ 2 ^ f.eb := Nat.pow_le_pow_right (by omega) (by omega)
      have : 0 < 2 ^ (f.eb - 1) := by positivity
      omega
    have hc : ((2 ^ (f.eb - 1) - 1 : Nat) : Int) = f.bias := by
      rw [Nat.cast_sub Nat.one_le_two_pow]; unfold Fmt.bias; push_cast; rfl
    have hp := pow_eb hf
    have hn := normal_norm hf h1 (by omega) (by
      intro h
      have : ((2 ^ f.eb - 1 : Nat) : Int) = 2 ^ f.eb - 1 := by
        rw [Nat.cast_sub Nat.one_le_two_pow]; push_cast; rfl
      rw [← h, hc, hp] at this
      omega)
    have := finite_num hf hn false
    have e1 : (1 : ℚ) = sgn false * (2 ^ f.mb + 0 : Nat) * 2 ^ (((2 ^ (f.eb - 1) - 1 : Nat) : Int) - f.bias - f.mb) := by
      simp only [sgn, Bool.false_eq_true, if_false, one_mul, Nat.add_zero]
      rw [← zpow_nat, ← zpow_add', hc]
      simp
    rw [e1]; exact this
  have hmax := (C48_max hf h2).2
  intro hr
  unfold Fmt.IsRounded at hr
  rw [hm] at hr
  have hgap : ∀ y, f.Finite y → 1 + δ ≤ y → 1 + 3 * δ ≤ y := by
    intro y hy hle
    rcases (finite_iff hf y).1 hy with rfl | ⟨s, m, e, hn, rfl⟩
    · linarith
    · have hy0 : 0 < sgn s * m * 2 ^ e := by linarith
      rw [← abs_of_pos hy0, abs_num] at hle ⊢
      by_contra hlt
      rw [not_le] at hlt
      have hb1 := hn.sig.bounds e
      rw [ctx_p] at hb1
      have h3 : (2 : ℚ) ^ (e + ((f.mb + 1 : Nat) : Int) - 1) < 2 ^ (1 : Int) := by
        refine lt_of_le_of_lt hb1.1 (lt_trans hlt ?_); norm_num; linarith
      have h4 : (2 : ℚ) ^ (0 : Int) < 2 ^ (e + ((f.mb + 1 : Nat) : Int)) := by
        refine lt_trans ?_ hb1.2; norm_num; linarith
      have h5 := lt_of_zpow h3
      have h6 := lt_of_zpow h4
      have he : e = -(f.mb : Int) := by push_cast at h5 h6; omega
      rw [he, zpow_neg, zpow_natCast] at hle hlt
      have hz : (0 : ℚ) < 2 ^ f.mb := by positivity
      rw [← div_eq_mul_inv] at hle hlt
      rw [le_div_iff₀ hz] at hle
      rw [div_lt_iff₀ hz] at hlt
      have h7 : ((2 ^ f.mb : Nat) : ℚ) < m := by push_cast; nlinarith
      have h8 : (m : ℚ) < ((2 ^ f.mb + 1 : Nat) : ℚ) := by push_cast; nlinarith
      have h7' : 2 ^ f.mb < m := by exact_mod_cast h7
      have h8' : m < 2 ^ f.mb + 1 := by exact_mod_cast h8
      omega
  have h1x : |1 + δ| = 1 + δ := abs_of_pos (by linarith)
  rcases C49_RNA_actual hf h2 hm (1 + δ) false with ⟨y, hd, hy, hle, hs, -⟩ | ⟨hd, hall⟩
  · have hy0 : 0 ≤ y := nonneg_of_mul_nonneg_right hs (by linarith)
    rw [h1x, abs_of_nonneg hy0] at hle
    have hg := hgap y hy hle
    rcases hr with ⟨y', hd', hy', -, hnear, -⟩ | ⟨hd', -⟩
    · rw [hd] at hd'
      injection hd' with hd'
      subst hd'
      have := hnear 1 hone
      rw [show |1 + δ - 1| = δ by rw [add_sub_cancel_left, abs_of_pos hδ0], abs_of_nonpos (by linarith)] at this
      linarith
    · rw [hd'] at hd; cases hd
  · rcases hr with ⟨y', hd', -⟩ | ⟨-, hT⟩
    · rw [hd] at hd'; cases hd'
    · have := hall _ (C48_max hf h2).1
      rw [h1x] at this
      have hbig : (2 : ℚ) ≤ 2 ^ f.bias := by
        calc (2 : ℚ) = 2 ^ (1 : Int) := by norm_num
          _ ≤ _ := zpow_le_of hb
      have h9 : (1 : ℚ) / 2 ^ f.mb ≤ 1 := by
        rw [div_le_one (by positivity)]; exact one_le_pow₀ (by norm_num)
      have h10 : (2 : ℚ) ≤ (2 - 1 / 2 ^ f.mb) * 2 ^ f.bias := by nlinarith
      have h11 := le_abs_self ((2 - 1 / 2 ^ f.mb : ℚ) * 2 ^ (2 ^ (f.eb - 1) - 1 : Int))
      rw [show (2 ^ (f.eb - 1) - 1 : Int) = f.bias from rfl] at *
      linarith

example : half.IsRNE (1 / 3) (half.ofRat (1 / 3) false).datum :=
  C49_rounds_partial (f := half) (by decide) (by decide) (by decide) _ _
example : brain.IsRTZ (-1 / 3) (brain.ofRat (-1 / 3) false).datum :=
  C49_rounds_partial (f := brain) (by decide) (by decide) (by decide) _ _
example : ¬ (Fmt.mk 5 10 .RNA true).IsRounded (1 + 1 / 4096) ((Fmt.mk 5 10 .RNA true).ofRat (1 + 1 / 4096) false).datum := by
  have := C49_RNA_refuted (f := ⟨5, 10, .RNA, true⟩) (by decide) (by decide) rfl
  norm_num at this ⊢
  exact this

end HW
