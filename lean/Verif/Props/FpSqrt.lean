import Verif.Lemmas.Fp.Sqrt
import Verif.Props.FpArith

/-! # Floating point: the square root (C107) -/

namespace HW
open Spec Fp

theorem Fp.fpSqrt_pos {f : Fmt} (hf : f.Ok) (h2 : 2 ≤ f.eb) (o : Bool) {v : Mpfr} {a : ℚ} (hv : v.datum = .num a)
    (ha : 0 < a) : f.fpSqrt o v = f.ofRat (sqrtAt f.ctx.places a) false := by
  cases v with
  | nan => cases hv
  | inf => cases hv
  | zero => cases hv
  | fin s m e =>
    have hv : (Mpfr.fin s m e).toRat = a := by injection hv
    have hs : s = false := by
      cases s with
      | false => rfl
      | true =>
        exfalso
        have : (0 : ℚ) ≤ (m : ℚ) * 2 ^ e := mul_nonneg (Nat.cast_nonneg _) (two_zpow_pos e).le
        simp only [Mpfr.toRat, if_true] at hv
        linarith
    subst hs
    simp only [Fmt.fpSqrt, Ctx.sqrt, hv, Bool.false_eq_true, if_false, ofMpfr_ofRat hf h2]

/-- The root of a positive number is the real root, rounded once as the mode's name says (`RNA` aside). -/
theorem C107_rounded_partial {f : Fmt} (hf : f.Ok) (h2 : 2 ≤ f.eb) (hm : f.mode ≠ .RNA) (o : Bool) {v : Mpfr} {a : ℚ}
    (hv : v.datum = .num a) (ha : 0 < a) : f.IsRoundedReal (Real.sqrt a) (f.fpSqrt o v).datum := by
  rw [fpSqrt_pos hf h2 o hv ha]
  have hp := samePlace_places f ha
  have h0 := sqrtAt_pos (k := f.ctx.places) ha
  have hx : 0 < Real.sqrt a := Real.sqrt_pos.2 (by exact_mod_cast ha)
  have hr := C49_rounds_partial hf h2 hm (sqrtAt f.ctx.places a) false
  unfold Fmt.IsRounded at hr
  unfold Fmt.IsRoundedReal
  cases h : f.mode <;> rw [h] at hr <;> dsimp only at hr ⊢
  · exact isRNE_real hp h0 hx hr
  · exact absurd h hm
  · exact isRTP_real hp hr
  · exact isRTN_real hp hr
  · exact isRTZ_real hp h0 hx hr

/-- Under `RNA` it is rounded away from zero. -/
theorem C107_RNA {f : Fmt} (hf : f.Ok) (h2 : 2 ≤ f.eb) (hm : f.mode = .RNA) (o : Bool) {v : Mpfr} {a : ℚ}
    (hv : v.datum = .num a) (ha : 0 < a) : f.IsAwayReal (Real.sqrt a) (f.fpSqrt o v).datum := by
  rw [fpSqrt_pos hf h2 o hv ha]
  exact isAway_real (samePlace_places f ha) (sqrtAt_pos ha) (Real.sqrt_pos.2 (by exact_mod_cast ha))
    (C49_RNA_actual hf h2 hm _ _)

/-- IEEE 754's special roots. -/
def Fp.sqrtSpecial : Datum → Option Datum
  | .nan => some .nan
  | .inf s => some (if s then .nan else .inf false)
  | .zero s => some (.zero s)
  | .num x => if x < 0 then some .nan else none

theorem C107_special {f : Fmt} (o : Bool) {v : Mpfr} {d : Datum} (hd : sqrtSpecial v.datum = some d) :
    f.OrNaN d (f.fpSqrt o v).datum := by
  have hnan : ∀ s, f.OrNaN .nan (f.ofMpfr (.nan s)).datum := by
    intro s
    unfold Fmt.OrNaN Fmt.ofMpfr Ctx.ofMpfr Fmt.finish
    cases f.ieee <;> simp [Mpfr.datum]
  cases v with
  | nan s => injection hd with hd; subst hd; exact hnan o
  | zero s =>
    injection hd with hd; subst hd
    simp [Fmt.OrNaN, Fmt.fpSqrt, Ctx.sqrt, Fmt.ofMpfr, Ctx.ofMpfr, Fmt.finish, Mpfr.datum]
  | inf s =>
    injection hd with hd; subst hd
    cases s
    · simp [Fmt.OrNaN, Fmt.fpSqrt, Ctx.sqrt, Fmt.ofMpfr, Ctx.ofMpfr, Fmt.finish, Mpfr.datum]
    · exact hnan o
  | fin s m e =>
    simp only [Mpfr.datum, sqrtSpecial] at hd
    split at hd
    · rename_i h
      injection hd with hd; subst hd
      cases s with
      | true => exact hnan o
      | false =>
        exfalso
        have : (0 : ℚ) ≤ (m : ℚ) * 2 ^ e := mul_nonneg (Nat.cast_nonneg _) (two_zpow_pos e).le
        simp only [sgn, Bool.false_eq_true, if_false] at h
        linarith
    · cases hd

/-- Every object falls under one of the cases. -/
theorem C107_total {f : Fmt} (hf : f.Ok) (h2 : 2 ≤ f.eb) {v : Mpfr} (hv : f.Object v) :
    (∃ d, sqrtSpecial v.datum = some d) ∨ ∃ a, v.datum = .num a ∧ 0 < a := by
  have hv := object_rep hf h2 hv
  cases v with
  | fin s m e =>
    have h0 : sgn s * m * 2 ^ e ≠ 0 := rep_toRat_ne hv ⟨_, _, _, rfl⟩
    rcases lt_or_gt_of_ne h0 with h | h
    · exact .inl ⟨.nan, by simp only [Mpfr.datum, sqrtSpecial, if_pos h]⟩
    · exact .inr ⟨_, rfl, h⟩
  | _ => exact .inl ⟨_, rfl⟩

theorem Fp.sqrtAt_le {f : Fmt} {a y : ℚ} (ha : 0 < a) (hy : f.Finite y) (h : Real.sqrt a ≤ y) :
    sqrtAt f.ctx.places a ≤ y :=
  ((samePlace_places f ha).ge y ((finite_onGrid hy).finer 1)).2 h

theorem Fp.le_sqrtAt {f : Fmt} {a y : ℚ} (ha : 0 < a) (hy : f.Finite y) (h : (y : ℝ) ≤ Real.sqrt a) :
    y ≤ sqrtAt f.ctx.places a :=
  ((samePlace_places f ha).le y ((finite_onGrid hy).finer 1)).2 h

/-- The root of a square is exact, in every mode. -/
theorem C107_exact {f : Fmt} (hf : f.Ok) (h2 : 2 ≤ f.eb) (o : Bool) {v : Mpfr} {a : ℚ} (ha : f.Finite a) (h0 : 0 < a)
    (hv : v.datum = .num (a * a)) : (f.fpSqrt o v).datum = .num a := by
  have hp : 0 < a * a := mul_pos h0 h0
  have hs : Real.sqrt ((a * a : ℚ) : ℝ) = a := by
    push_cast; exact Real.sqrt_mul_self (by exact_mod_cast h0.le)
  rw [fpSqrt_pos hf h2 o hv hp, le_antisymm (sqrtAt_le hp ha hs.le) (le_sqrtAt hp ha hs.ge), C48_exact hf h2 ha false,
    if_neg h0.ne']

/-- The root of a finite number is finite: it never overflows. -/
theorem C107_finite {f : Fmt} (hf : f.Ok) (h2 : 2 ≤ f.eb) (o : Bool) {v : Mpfr} {a : ℚ} (ha : f.Finite a) (h0 : 0 < a)
    (hv : v.datum = .num a) : ∃ y, (f.fpSqrt o v).datum.fin? = some y := by
  obtain ⟨hM, hmax⟩ := C48_max hf h2
  set M : ℚ := (2 - 1 / 2 ^ f.mb) * 2 ^ (2 ^ (f.eb - 1) - 1 : Int)
  have haM := hmax a ha
  rw [abs_of_pos h0] at haM
  have h1 : (1 : ℚ) ≤ M := by
    have h1 : (1 : ℚ) / 2 ^ f.mb ≤ 1 := by rw [div_le_one (by positivity)]; exact one_le_pow₀ (by norm_num)
    have h2 : (1 : ℚ) ≤ 2 ^ f.bias := one_le_zpow₀ (by norm_num) (bias_nonneg f)
    exact one_le_mul_of_one_le_of_one_le (by linarith) h2
  have hs : Real.sqrt a ≤ M := by
    have haM : (a : ℝ) ≤ M := by exact_mod_cast haM
    have h1 : (1 : ℝ) ≤ M := by exact_mod_cast h1
    apply Real.sqrt_le_iff.2 ⟨by linarith, ?_⟩
    calc (a : ℝ) ≤ M * 1 := by linarith
      _ ≤ M ^ 2 := by rw [sq]; exact mul_le_mul_of_nonneg_left h1 (by linarith)
  have u := C80_construct hf h2 (sqrtAt_le h0 hM hs) false false
  have l := C80_construct hf h2 (sqrtAt_pos (k := f.ctx.places) h0).le false false
  rw [← fpSqrt_pos hf h2 o hv h0] at u l
  rw [C48_exact hf h2 hM, if_neg (by linarith)] at u
  rw [ofRat_zero] at l
  revert u l
  cases (f.fpSqrt o v).datum with
  | nan => rintro ⟨_, _, h, _⟩; cases h
  | zero s => exact fun _ _ => ⟨0, rfl⟩
  | num x => exact fun _ _ => ⟨x, rfl⟩
  | inf s =>
    cases s
    · rintro ⟨p, q, h1, h2, h3⟩
      injection h1 with h1; injection h2 with h2
      subst h1; subst h2
      exact absurd h3 (by simp)
    · rintro - ⟨p, q, h1, h2, h3⟩
      injection h1 with h1; injection h2 with h2
      subst h1; subst h2
      exact absurd h3 (by simp)

/-- The root is monotone on the numbers from zero up, infinity included. -/
theorem C107_mono {f : Fmt} (hf : f.Ok) (h2 : 2 ≤ f.eb) (o o' : Bool) {v w : Mpfr} (hv : f.Object v) (hw : f.Object w)
    (h0 : (Datum.zero false).le v.datum) (h : v.datum.le w.datum) : (f.fpSqrt o v).datum.le (f.fpSqrt o' w).datum := by
  have hzero : ∀ s o, (f.fpSqrt o (.zero s)).datum.fin? = some 0 := fun s o => by
    simp [Fmt.fpSqrt, Ctx.sqrt, Fmt.ofMpfr, Ctx.ofMpfr, Fmt.finish, Mpfr.datum, Datum.fin?]
  have hinf : ∀ o, (f.fpSqrt o (.inf false)).datum = .inf false := fun o => by
    simp [Fmt.fpSqrt, Ctx.sqrt, Fmt.ofMpfr, Ctx.ofMpfr, Fmt.finish, Mpfr.datum]
  have hz : ∀ z, (f.ofRat 0 z).datum.fin? = some 0 := fun z => by rw [ofRat_zero]; rfl
  -- the objects that are not below zero
  have cls : ∀ {u : Mpfr}, f.Object u → (Datum.zero false).le u.datum →
      (∃ s, u = .zero s) ∨ u = .inf false ∨ ∃ a, u.datum = .num a ∧ 0 < a := by
    intro u hu h
    obtain ⟨p, q, h1, h2', h3⟩ := h
    injection h1 with h1
    subst h1
    cases u with
    | nan => cases h2'
    | zero s => exact .inl ⟨s, rfl⟩
    | inf s =>
      cases s
      · exact .inr (.inl rfl)
      · injection h2' with h2'; subst h2'; exact absurd h3 (by simp)
    | fin s m e =>
      injection h2' with h2'; subst h2'
      have h3 : (0 : ℚ) ≤ sgn s * m * 2 ^ e := by
        have := WithBot.coe_le_coe.1 h3
        exact WithTop.coe_le_coe.1 this
      exact .inr (.inr ⟨_, rfl, lt_of_le_of_ne h3 (Ne.symm (rep_toRat_ne (object_rep hf h2 hu) ⟨_, _, _, rfl⟩))⟩)
  have h0' : (Datum.zero false).le w.datum := by
    obtain ⟨p, q, h1, h2, h3⟩ := h0
    obtain ⟨q', r, h4, h5, h6⟩ := h
    rw [h2] at h4
    injection h4 with h4
    subst h4
    exact ⟨p, r, h1, h5, h3.trans h6⟩
  have top : ∀ {d : Datum}, d.le d → d.le (.inf false) := fun ⟨p, _, h1, _, _⟩ => ⟨p, _, h1, rfl, by simp⟩
  have hle : ∀ {a b : ℚ}, Datum.le (.num a) (.num b) → a ≤ b := by
    rintro a b ⟨p, q, h1, h2, h3⟩
    injection h1 with h1; injection h2 with h2
    subst h1; subst h2
    exact WithTop.coe_le_coe.1 (WithBot.coe_le_coe.1 h3)
  rcases cls hv h0 with ⟨s, rfl⟩ | rfl | ⟨a, ha, ha0⟩ <;> rcases cls hw h0' with ⟨s', rfl⟩ | rfl | ⟨b, hb, hb0⟩
  · exact le_fin (hzero s o) (hzero s' o') le_rfl
  · rw [hinf]; exact top (le_fin (hzero s o) (hzero s o) le_rfl)
  · rw [fpSqrt_pos hf h2 o' hb hb0]
    have := C80_construct hf h2 (sqrtAt_pos (k := f.ctx.places) hb0).le false false
    obtain ⟨p, q, h1, h2, h3⟩ := this
    refine ⟨p, q, ?_, h2, h3⟩
    rw [← h1, ofRat_zero]
    have := hzero s o
    revert this
    cases (f.fpSqrt o (.zero s)).datum with
    | nan => nofun
    | inf => nofun
    | zero => exact fun _ => rfl
    | num x => intro this; injection this with this; subst this; rfl
  · obtain ⟨p, q, h1, h2, h3⟩ := h
    injection h1 with h1; injection h2 with h2
    subst h1; subst h2
    exact absurd h3 (by rw [WithBot.coe_le_coe]; exact WithTop.not_top_le_coe _)
  · rw [hinf, hinf]; exact ⟨_, _, rfl, rfl, le_rfl⟩
  · rw [hb] at h
    obtain ⟨p, q, h1, h2, h3⟩ := h
    injection h1 with h1; injection h2 with h2
    subst h1; subst h2
    exact absurd h3 (by simp)
  · rw [ha] at h
    obtain ⟨p, q, h1, h2, h3⟩ := h
    injection h1 with h1; injection h2 with h2
    subst h1; subst h2
    have h3 := WithTop.coe_le_coe.1 (WithBot.coe_le_coe.1 h3)
    exact absurd h3 (by linarith)
  · rw [hinf, fpSqrt_pos hf h2 o ha ha0]
    exact top (C80_construct hf h2 le_rfl false false)
  · rw [fpSqrt_pos hf h2 o ha ha0, fpSqrt_pos hf h2 o' hb hb0]
    rw [ha, hb] at h
    exact C80_construct hf h2 (sqrtAt_mono ha0 (hle h)) false false

/-- `half(2)` has an irrational root, `1.4142…`; it is rounded to nearest. -/
example : half.IsRNEReal (Real.sqrt 2) (half.fpSqrt false (half.ofRat 2 false)).datum := by
  have e := C48_exact (f := half) (by decide) (by decide) (y := 2)
    (.inr ⟨false, 16, 0, by decide, by norm_num [Fmt.value, half, Fmt.ieeeValue, sgn]⟩) false
  have := C107_rounded_partial (f := half) (by decide) (by decide) (by decide) false (a := 2) (by rw [e]; simp) (by norm_num)
  exact_mod_cast this
/-- `half(9/4)` has the root `3/2`. -/
example : (half.fpSqrt false (half.ofRat (9 / 4) false)).datum = .num (3 / 2) := by
  have e := C48_exact (f := half) (by decide) (by decide) (y := 9 / 4)
    (.inr ⟨false, 16, 128, by decide, by norm_num [Fmt.value, half, Fmt.ieeeValue, sgn]⟩) false
  exact C107_exact (by decide) (by decide) false
    (.inr ⟨false, 15, 512, by decide, by norm_num [Fmt.value, half, Fmt.ieeeValue, sgn]⟩) (by norm_num) (by rw [e]; norm_num)
example : sqrtSpecial (.num (-3)) = some .nan := by norm_num [sqrtSpecial]
example : sqrtSpecial (.zero true) = some (.zero true) := rfl
example : (half.fpSqrt false (.zero true)).datum = .zero true := by decide +kernel

end HW
