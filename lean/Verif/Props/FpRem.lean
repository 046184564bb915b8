import Verif.Props.FpCompare
import Verif.Lemmas.Fp.Grid

/-!
# Properties C86, C87: remainder and rounding to an integer

`fp_rem`, `__mod__` and `fp_round_to_integral` of `/repo/hwtypes/fp_vector.py`.
-/

namespace HW

open Fp

/-! ## C86 -/

/-- `a % b` is the IEEE 754 remainder: `a - n * b` for the integer `n` nearest to `a / b`, even if two are.
In an IEEE format the difference is a number of the format and nothing is rounded, whatever the mode; an exact
zero has the sign of `a`. -/
theorem C86_remainder {f : Fmt} (hf : f.Ok) (h2 : 2 ≤ f.eb) (o : Bool) {v w : Mpfr} (hv : f.Object v) (hw : f.Object w)
    {a b : ℚ} (ha : v.datum.fin? = some a) (hb : w.datum.fin? = some b) (hb0 : b ≠ 0) :
    ∃ (n : Int) (r : Mpfr), f.fpRem o v (.fp f w) = .ok r ∧ |a - n * b| ≤ |b| / 2 ∧
      (|a - n * b| = |b| / 2 → n % 2 = 0) ∧
      (f.ieee = true → r.datum = if a - n * b = 0 then .zero v.isSigned else .num (a - n * b)) ∧
      (f.ieee = false → r = f.ofRat (a - n * b) v.isSigned) := by
  have hv := object_rep hf h2 hv
  have hw := object_rep hf h2 hw
  have hfa := rep_finite hf hv ha
  have hfb := rep_finite hf hw hb
  have hr : f.fpRem o v (.fp f w) = .ok (f.ofRat (a - nearestEven (a / b) * b) v.isSigned) := by
    obtain ⟨rfl, hv'⟩ := fin_cases ha
    obtain ⟨rfl, hw'⟩ := fin_cases hb
    simp only [Fmt.fpRem, coerce_self, bind, Except.bind, pure, Except.pure]
    rcases hw' with ⟨t, rfl⟩ | ⟨t, m', e', rfl⟩
    · exact absurd rfl hb0
    · rcases hv' with ⟨s, rfl⟩ | ⟨s, m, e, rfl⟩ <;> simp only [Ctx.rem, ofMpfr_ofRat hf h2]
  obtain ⟨h1, h3⟩ := nearestEven_spec (a / b)
  have hpos := abs_pos.mpr hb0
  have he : ∀ m : Int, |a - m * b| = |a / b - m| * |b| := by
    intro m
    rw [← abs_mul, sub_mul, div_mul_cancel₀ _ hb0]
  have hle : |a - nearestEven (a / b) * b| ≤ |b| / 2 := by rw [he]; nlinarith
  refine ⟨nearestEven (a / b), _, hr, hle, ?_, ?_, fun _ => rfl⟩
  · intro h
    rw [he] at h
    exact h3 (mul_right_cancel₀ hpos.ne' (by linarith))
  · intro hi
    refine C48_exact hf h2 (rem_finite hf hi hfa hfb hle ?_) _
    have := he 0
    simp only [Int.cast_zero, zero_mul, sub_zero] at this
    rw [he, this]
    have := nearest_min h1 0
    simp only [Int.cast_zero, sub_zero] at this
    exact mul_le_mul_of_nonneg_right this hpos.le

/-- No number is a remainder of an infinity or by a zero; by an infinity every number is its own remainder. -/
theorem C86_special {f : Fmt} (hf : f.Ok) (h2 : 2 ≤ f.eb) (o : Bool) {v w : Mpfr} (hv : f.Object v) (hw : f.Object w) :
    ((v.datum = .nan ∨ w.datum = .nan ∨ (∃ s, v.datum = .inf s) ∨ ∃ s, w.datum = .zero s) →
      ∃ r, f.fpRem o v (.fp f w) = .ok r ∧ f.OrNaN .nan r.datum) ∧
    (∀ a s, v.datum.fin? = some a → w.datum = .inf s → f.fpRem o v (.fp f w) = .ok v) := by
  have hv := object_rep hf h2 hv
  have hw := object_rep hf h2 hw
  have hnan : ∀ s, f.OrNaN .nan (f.ofMpfr (.nan s)).datum := by
    intro s
    unfold Fmt.OrNaN Fmt.ofMpfr Ctx.ofMpfr Fmt.finish
    cases f.ieee <;> simp [Mpfr.datum]
  simp only [Fmt.fpRem, coerce_self, bind, Except.bind, pure, Except.pure]
  constructor
  · intro h
    have : f.ctx.rem o v w = .nan o := by
      cases v <;> cases w <;> simp [Mpfr.datum, Ctx.rem] at h ⊢
    rw [this]
    exact ⟨_, rfl, hnan o⟩
  · intro a s ha hs
    cases w with
    | inf s' =>
      cases hv with
      | zero t => rfl
      | fin t m e hn => simp only [Ctx.rem, Ctx.ofMpfr, ofRat_exact hn, ofMpfr_exact hn]
      | _ => cases ha
    | _ => simp [Mpfr.datum] at hs

/-- `5 % 3 = -1`: two is the integer nearest to `5 / 3`. -/
example : ∃ (n : Int) (r : Mpfr), half.fpRem false (half.ofRat 5 false) (.fp half (half.ofRat 3 false)) = .ok r ∧
    |(5 : ℚ) - n * 3| ≤ |3| / 2 ∧ (|(5 : ℚ) - n * 3| = |3| / 2 → n % 2 = 0) ∧
    (half.ieee = true → r.datum = if (5 : ℚ) - n * 3 = 0 then .zero (half.ofRat 5 false).isSigned else .num (5 - n * 3)) ∧
    (half.ieee = false → r = half.ofRat (5 - n * 3) (half.ofRat 5 false).isSigned) := by
  have h5 : half.Finite 5 := .inr ⟨false, 17, 256, by decide, by norm_num [Fmt.value, half, Fmt.ieeeValue, sgn]⟩
  have h3 : half.Finite 3 := .inr ⟨false, 16, 512, by decide, by norm_num [Fmt.value, half, Fmt.ieeeValue, sgn]⟩
  refine C86_remainder (by decide) (by decide) false (.number _ _) (.number _ _) ?_ ?_ (by norm_num)
  · rw [C48_exact (by decide) (by decide) h5]; rfl
  · rw [C48_exact (by decide) (by decide) h3]; rfl

/-! ## C87 -/

/-- `k` is `a` rounded to an integer in the direction the mode names. -/
def Fp.Integral (m : Mode) (a : ℚ) (k : Int) : Prop :=
  match m with
  | .RTP => k = ⌈a⌉
  | .RTN => k = ⌊a⌋
  | .RTZ => k = trunc a
  | .RNE => |a - k| ≤ 1 / 2 ∧ (|a - k| = 1 / 2 → k % 2 = 0)
  | .RNA => |a - k| ≤ 1 / 2 ∧ (|a - k| = 1 / 2 → |a| ≤ |(k : ℚ)|)

theorem Fp.rint_int {f : Fmt} (hf : f.Ok) (h2 : 2 ≤ f.eb) {v : Mpfr} (hv : f.Object v) {a : ℚ} (ha : v.datum.fin? = some a) :
    ∃ k : Int, f.fpRint v = f.ofRat k v.isSigned ∧ (|(k : ℚ)| < 2 ^ f.ctx.emax → f.Finite k) ∧
      (f.mode ≠ .RNA → Integral f.mode a k) ∧ (f.mode = .RNA → k = if a < 0 then ⌊a⌋ else ⌈a⌉) := by
  have hv := object_rep hf h2 hv
  have hfa := rep_finite hf hv ha
  cases hv with
  | nan => cases ha
  | inf => cases ha
  | zero s =>
    injection ha with ha
    subst ha
    refine ⟨0, ?_, fun _ => .inl (by simp), ?_, ?_⟩
    · simp only [Int.cast_zero, ofRat_zero, Fmt.fpRint, Ctx.rint, Mpfr.isSigned]; rfl
    · intro _; cases f.mode <;> simp [Integral, trunc]
    · intro _; simp
  | fin s m e hn =>
    injection ha with ha
    have hm : (0 : ℚ) < m := by exact_mod_cast hn.sig.pos
    have ht : (0 : ℚ) < m * 2 ^ e := mul_pos hm (two_zpow_pos e)
    obtain ⟨d1, d2, d3⟩ := roundMag_dir f.mode.gmpy s ht.le
    have hs := roundMag_small f.mode.gmpy s hn.sig.2 e
    have hr : f.fpRint (.fin s m e) =
        f.ofRat ((if s then -1 else 1) * roundMag f.mode.gmpy s ((m : ℚ) * 2 ^ e)) (Mpfr.fin s m e).isSigned := by
      simp only [Fmt.fpRint, Ctx.rint, ofMpfr_ofRat hf h2]; rfl
    rw [mul_assoc] at ha
    generalize (m : ℚ) * 2 ^ e = t at *
    generalize hN : roundMag f.mode.gmpy s t = N at *
    refine ⟨(if s then -1 else 1) * N, ?_, ?_, ?_, ?_⟩
    · rw [hr]; cases s <;> simp
    · intro hlt
      rcases hs with hs | hs
      · convert hfa using 1
        rw [← ha, ← hs]; cases s <;> simp [sgn]
      · have := finite_int_grid hf (k := (if s then -1 else 1) * N) (q := 0) ?_ (emin_le hf h2) (by simpa using hlt)
        · simpa using this
        · cases s <;> simp <;> exact_mod_cast hs
    · intro hM
      subst ha
      cases s
      · simp only [sgn, Bool.false_eq_true, if_false, one_mul]
        revert d1 d2 d3 hM
        cases f.mode <;> intro hM d1 d2 d3
        · simp only [Integral, Int.cast_natCast]
          exact ⟨(d3 rfl).1, fun h => by have := (d3 rfl).2 h; omega⟩
        · exact absurd rfl hM
        · simpa [Integral] using d2 rfl
        · simpa [Integral] using d1 rfl
        · simpa [Integral, trunc, ht.le, not_lt.mpr ht.le] using d1 rfl
      · simp only [sgn, if_true, neg_mul, one_mul]
        revert d1 d2 d3 hM
        cases f.mode <;> intro hM d1 d2 d3
        · have e1 : |(-t) - ((-(N : Int) : Int) : ℚ)| = |t - N| := by
            push_cast; rw [← abs_neg]; congr 1; ring
          simp only [Integral, e1]
          exact ⟨(d3 rfl).1, fun h => by have := (d3 rfl).2 h; omega⟩
        · exact absurd rfl hM
        · simp only [Integral, Int.ceil_neg]; rw [d1 rfl]
        · simp only [Integral, Int.floor_neg]; rw [d2 rfl]
        · simp only [Integral, trunc, neg_lt_zero, ht, if_true, neg_neg]; rw [d1 rfl]
    · intro hM
      have := d2 (by rw [hM]; rfl)
      subst ha
      cases s
      · simp [sgn, not_lt.mpr ht.le, this]
      · simp [sgn, ht, this, Int.floor_neg]

/-- `fp_round_to_integral` rounds to an integer in the direction of the format's mode, and the result is that
integer unless it is beyond the format's range; a zero keeps its sign.  Left out: RNA. -/
theorem C87_integral_partial {f : Fmt} (hf : f.Ok) (h2 : 2 ≤ f.eb) (hm : f.mode ≠ .RNA) {v : Mpfr} (hv : f.Object v)
    {a : ℚ} (ha : v.datum.fin? = some a) :
    ∃ k : Int, Integral f.mode a k ∧
      (|(k : ℚ)| < 2 ^ (2 ^ (f.eb - 1)) → (f.fpRint v).datum = if k = 0 then .zero v.isSigned else .num k) ∧
      (2 ^ (2 ^ (f.eb - 1)) ≤ |(k : ℚ)| → f.fpRint v = f.ofRat k v.isSigned) := by
  obtain ⟨k, h1, h3, h4, _⟩ := rint_int hf h2 hv ha
  refine ⟨k, h4 hm, fun hk => ?_, fun _ => h1⟩
  rw [h1, C48_exact hf h2 (h3 (by
    rw [ctx_emax, show f.bias + 1 = ((2 ^ (f.eb - 1) : Nat) : Int) by unfold Fmt.bias; push_cast; ring, two_zpow_nat]
    exact hk))]
  simp

/-- In mode RNA it rounds away from zero, -/
theorem C87_RNA {f : Fmt} (hf : f.Ok) (h2 : 2 ≤ f.eb) (hm : f.mode = .RNA) {v : Mpfr} (hv : f.Object v)
    {a : ℚ} (ha : v.datum.fin? = some a) :
    f.fpRint v = f.ofRat (if a < 0 then ⌊a⌋ else ⌈a⌉ : Int) v.isSigned := by
  obtain ⟨k, h1, _, _, h4⟩ := rint_int hf h2 hv ha
  rw [h1, h4 hm]

/-- so not to nearest: `1 + 2^-mb` becomes 2. -/
theorem C87_RNA_refuted {f : Fmt} (hf : f.Ok) (h2 : 2 ≤ f.eb) (hm : f.mode = .RNA) (hmb : 2 ≤ f.mb) :
    f.Finite (1 + 1 / 2 ^ f.mb) ∧ (f.fpRint (f.ofRat (1 + 1 / 2 ^ f.mb) false)).datum = .num 2 ∧
      ¬ Integral f.mode (1 + 1 / 2 ^ f.mb) 2 := by
  have hd : (1 : ℚ) / 2 ^ f.mb ≤ 1 / 4 := by
    have : (2 : ℚ) ^ 2 ≤ 2 ^ f.mb := pow_le_pow_right₀ (by norm_num) hmb
    rw [div_le_div_iff₀ (by positivity) (by norm_num)]
    linarith
  have hd0 : (0 : ℚ) < 1 / 2 ^ f.mb := by positivity
  have hb := bias_pos hf h2
  have hem : (4 : ℚ) ≤ 2 ^ f.ctx.emax := by
    rw [ctx_emax]
    calc (4 : ℚ) = 2 ^ (2 : Int) := by norm_num
      _ ≤ _ := zpow_le_of (by omega)
  have hF : f.Finite (1 + 1 / 2 ^ f.mb) := by
    have hp : (1 : ℚ) / 2 ^ f.mb = 2 ^ (-(f.mb : Int)) := by rw [zpow_neg, two_zpow_nat, one_div]
    have e : (1 : ℚ) + 1 / 2 ^ f.mb = sgn false * ((2 ^ f.mb + 1 : Nat) : ℚ) * 2 ^ (-(f.mb : Int)) := by
      rw [← hp, sgn]; push_cast; field_simp
    rw [e]
    refine finite_num hf (unit_norm hf h2 ⟨by simp, ?_⟩) false
    have : 2 ^ 1 ≤ 2 ^ f.mb := Nat.pow_le_pow_right (by omega) (by omega)
    rw [pow_succ]; omega
  have hF2 : f.Finite ((2 : Int) : ℚ) := by
    have := finite_int_grid hf (k := 2) (q := 0) ?_ (emin_le hf h2) (by norm_num; linarith)
    · simpa using this
    · rw [ctx_p]
      have : (2 : Int) ^ 1 ≤ 2 ^ (f.mb + 1) := pow_le_pow_right₀ (by norm_num) (by omega)
      simpa using this
  refine ⟨hF, ?_, ?_⟩
  · rw [C87_RNA hf h2 hm (.number _ _) (by rw [C48_exact hf h2 hF, if_neg (by positivity)]; rfl), if_neg (by linarith)]
    have : ⌈(1 : ℚ) + 1 / 2 ^ f.mb⌉ = 2 := by
      rw [Int.ceil_eq_iff]; push_cast; constructor <;> linarith
    rw [this, C48_exact hf h2 hF2]
    norm_num
  · rw [hm]
    rintro ⟨h, _⟩
    rw [abs_le] at h
    push_cast at h
    linarith

example : Integral .RTN (-5 / 2) (-3) := by
  simp only [Integral]; norm_num
example : Integral .RNE (-5 / 2) (-2) := by
  simp only [Integral]; norm_num [abs_of_neg]
example : (⟨5, 10, .RNA, true⟩ : Fmt).Ok := by decide

end HW
