import Verif.Lemmas.Fp.Arith

/-! # Numbers on a grid are representable -/

namespace HW.Fp

variable {f : Fmt}

theorem emin_le (hf : f.Ok) (h2 : 2 ≤ f.eb) : f.ctx.emin - 1 ≤ 0 := by
  have := ctx_emin_le f
  have := bias_pos hf h2
  omega

/-- Small multiples of a power of two no less than the smallest number are numbers of the format. -/
theorem finite_grid (hf : f.Ok) {k : Nat} {q : Int} (hk : k ≤ 2 ^ f.ctx.precision)
    (hq : f.ctx.emin - 1 ≤ q) (hmax : (k : ℚ) * 2 ^ q < 2 ^ f.ctx.emax) (s : Bool) : f.Finite (sgn s * (k * 2 ^ q)) := by
  rcases Nat.eq_zero_or_pos k with rfl | h0
  · left; simp
  have hp : 0 < f.ctx.precision := by rw [ctx_p]; omega
  obtain ⟨m, e, _, h2, h3⟩ := normalize_spec hp h0 hk false q
  rw [finite_iff hf]
  right
  refine ⟨s, m, e, ⟨h2, ?_, ?_, ?_⟩, by rw [mul_assoc, h3]⟩
  · have hb := (h2.bounds e).2
    rw [h3] at hb
    suffices (2 : ℚ) ^ (f.ctx.emin - 1) ≤ k * 2 ^ q by
      have := lt_of_zpow (lt_of_le_of_lt this hb); omega
    have hr' : (1 : ℚ) ≤ k := by exact_mod_cast h0
    calc (2 : ℚ) ^ (f.ctx.emin - 1) ≤ 2 ^ q := zpow_le_of hq
      _ ≤ _ := by nlinarith [two_zpow_pos q]
  · have hb := (h2.bounds e).1
    rw [h3] at hb
    have := lt_of_zpow (lt_of_le_of_lt hb hmax); omega
  · intro _
    refine ⟨k * 2 ^ (q - (f.ctx.emin - 1)).toNat, ?_⟩
    rw [h3, zpow_mul_nat hq]; push_cast; ring

theorem finite_int_grid (hf : f.Ok) {k : Int} {q : Int} (hk : |k| ≤ 2 ^ f.ctx.precision)
    (hq : f.ctx.emin - 1 ≤ q) (hmax : |(k : ℚ)| * 2 ^ q < 2 ^ f.ctx.emax) : f.Finite (k * 2 ^ q) := by
  have e : (k.natAbs : ℚ) = |(k : ℚ)| := by rw [Nat.cast_natAbs, Int.cast_abs]
  have h := finite_grid hf (k := k.natAbs) (q := q) (by zify; rw [Int.abs_eq_natAbs] at hk; simpa using hk) hq
    (by rw [e]; exact hmax) (decide ((k : ℚ) < 0))
  rwa [e, ← mul_assoc, sgn_mul_abs] at h

/-- Numbers of an IEEE format lie on the grid of the smallest subnormal. -/
theorem norm_coarse {c : Ctx} (hs : c.subnormalize = true) {m : Nat} {e : Int} (h : c.Norm m e) :
    ∃ (k : Nat) (q : Int), (m : ℚ) * 2 ^ e = k * 2 ^ q ∧ k < 2 ^ c.precision ∧ c.emin - 1 ≤ q := by
  rcases le_total (c.emin - 1) e with h1 | h1
  · exact ⟨m, e, rfl, h.sig.2, h1⟩
  · obtain ⟨k, hk⟩ := h.sub hs
    refine ⟨k, c.emin - 1, hk, ?_, le_rfl⟩
    have hb := h.sig.2
    have h2 : (m : ℚ) < 2 ^ c.precision := by exact_mod_cast hb
    have h3 := zpow_le_of h1
    have : (k : ℚ) * 2 ^ (c.emin - 1) < 2 ^ c.precision * 2 ^ (c.emin - 1) := by
      rw [← hk]
      calc (m : ℚ) * 2 ^ e < 2 ^ c.precision * 2 ^ e := mul_lt_mul_of_pos_right h2 (two_zpow_pos e)
        _ ≤ _ := mul_le_mul_of_nonneg_left h3 (by positivity)
    have := lt_of_mul_lt_mul_right this (two_zpow_pos _).le
    exact_mod_cast this

theorem finite_coarse (hf : f.Ok) (hi : f.ieee = true) {a : ℚ} (h : f.Finite a) :
    ∃ (k : Int) (q : Int), a = k * 2 ^ q ∧ |k| < 2 ^ f.ctx.precision ∧ f.ctx.emin - 1 ≤ q := by
  rcases (finite_iff hf a).1 h with rfl | ⟨s, m, e, hn, rfl⟩
  · exact ⟨0, f.ctx.emin - 1, by simp, by simp, le_rfl⟩
  · obtain ⟨k, q, h1, h2, h3⟩ := norm_coarse (by rw [ctx_sub]; exact hi) hn
    refine ⟨(if s then -1 else 1) * k, q, ?_, ?_, h3⟩
    · rw [mul_assoc, h1]; cases s <;> simp [sgn]
    · cases s <;> simp <;> exact_mod_cast h2

theorem finite_lt (hf : f.Ok) {a : ℚ} (h : f.Finite a) : |a| < 2 ^ f.ctx.emax := by
  rcases (finite_iff hf a).1 h with rfl | ⟨s, m, e, hn, rfl⟩
  · simp only [abs_zero]; exact two_zpow_pos _
  · rw [abs_num]
    exact lt_of_lt_of_le (hn.sig.bounds e).2 (zpow_le_of hn.hi)

theorem nearestEven_spec (t : ℚ) :
    |t - nearestEven t| ≤ 1 / 2 ∧ (|t - nearestEven t| = 1 / 2 → nearestEven t % 2 = 0) := by
  have h1 := Int.floor_le t
  have h2 := Int.lt_floor_add_one t
  unfold nearestEven
  dsimp only
  split
  · rw [abs_of_nonneg (by linarith)]
    exact ⟨by linarith, fun h => by linarith⟩
  · split
    · push_cast
      rw [abs_of_nonpos (by linarith)]
      exact ⟨by linarith, fun h => by linarith⟩
    · have h3 : t - ⌊t⌋ = 1 / 2 := by linarith
      split
      · rw [h3]; norm_num; assumption
      · push_cast
        rw [show t - (⌊t⌋ + 1) = -(1 / 2) by linarith]
        norm_num
        omega

/-- An integer nearest to `t` is no farther than any other. -/
theorem nearest_min {t : ℚ} {n : Int} (h : |t - n| ≤ 1 / 2) (m : Int) : |t - n| ≤ |t - m| := by
  by_cases hm : m = n
  · rw [hm]
  have : (1 : ℚ) ≤ |(m : ℚ) - n| := by
    have : 1 ≤ |m - n| := Int.one_le_abs (sub_ne_zero.mpr hm)
    exact_mod_cast this
  have h3 : |(m : ℚ) - n| ≤ |t - n| + |t - m| := by
    have := abs_sub (t - n) (t - m)
    rwa [show t - n - (t - m) = (m : ℚ) - n by ring] at this
  linarith

theorem two_zpow_nat (n : Nat) : (2 : ℚ) ^ (n : Int) = 2 ^ n := zpow_natCast 2 n

/-- The IEEE remainder of two numbers of an IEEE format is a number of the format. -/
theorem rem_finite (hf : f.Ok) (hi : f.ieee = true) {a b : ℚ} (ha : f.Finite a) (hb : f.Finite b)
    {n : Int} (hn : |a - n * b| ≤ |b| / 2) (hn' : |a - n * b| ≤ |a|) : f.Finite (a - n * b) := by
  obtain ⟨k, q, hk, hk1, hk2⟩ := finite_coarse hf hi ha
  obtain ⟨l, r, hl, hl1, hl2⟩ := finite_coarse hf hi hb
  have hmax := lt_of_le_of_lt hn' (finite_lt hf ha)
  have hbig : |a - n * b| ≤ |b| := by have := abs_nonneg b; linarith
  rcases le_total q r with h | h
  · have e : a - n * b = ((k - n * l * 2 ^ (r - q).toNat : Int) : ℚ) * 2 ^ q := by
      rw [hk, hl, zpow_mul_nat h]; push_cast; ring
    have hpos := two_zpow_pos q
    rw [e]
    rw [e, abs_mul, abs_of_pos hpos] at hmax
    refine finite_int_grid hf ?_ hk2 hmax
    rw [e, hk, abs_mul, abs_mul] at hn'
    have := le_of_mul_le_mul_right hn' (by rw [abs_of_pos hpos]; exact hpos)
    have h5 : |k - n * l * 2 ^ (r - q).toNat| ≤ |k| := by exact_mod_cast this
    exact h5.trans hk1.le
  · have e : a - n * b = ((k * 2 ^ (q - r).toNat - n * l : Int) : ℚ) * 2 ^ r := by
      rw [hk, hl, zpow_mul_nat h]; push_cast; ring
    have hpos := two_zpow_pos r
    rw [e]
    rw [e, abs_mul, abs_of_pos hpos] at hmax
    refine finite_int_grid hf ?_ hl2 hmax
    rw [e, hl, abs_mul, abs_mul] at hbig
    have := le_of_mul_le_mul_right hbig (by rw [abs_of_pos hpos]; exact hpos)
    have h5 : |k * 2 ^ (q - r).toNat - n * l| ≤ |l| := by exact_mod_cast this
    exact h5.trans hl1.le

theorem floor_cast {t : ℚ} (ht : 0 ≤ t) : ((⌊t⌋.toNat : Nat) : Int) = ⌊t⌋ := Int.toNat_of_nonneg (Int.floor_nonneg.mpr ht)

/-- What rounding a magnitude to an integer gives, by direction. -/
theorem roundMag_dir (r : GMode) (neg : Bool) {t : ℚ} (ht : 0 ≤ t) :
    (dir r neg = .trunc → (roundMag r neg t : Int) = ⌊t⌋) ∧ (dir r neg = .away → (roundMag r neg t : Int) = ⌈t⌉) ∧
    (dir r neg = .nearest → |t - roundMag r neg t| ≤ 1 / 2 ∧ (|t - roundMag r neg t| = 1 / 2 → roundMag r neg t % 2 = 0)) := by
  have hc := floor_cast ht
  obtain ⟨g1, g2⟩ := floor_toNat ht
  rcases roundMag_cases r neg ht with ⟨h1, h2⟩ | ⟨h1, ⟨hd, h2⟩ | ⟨hd, h2⟩ | ⟨hd, h3, h2⟩ | ⟨hd, h3, h2⟩ | ⟨hd, h3, h4, h2⟩⟩
  · rw [h2]
    refine ⟨fun _ => hc, fun _ => ?_, fun _ => ?_⟩
    · conv_rhs => rw [h1]
      simp
    · rw [show t - (⌊t⌋.toNat : Nat) = 0 by linarith]; norm_num
  · rw [h2, hd]
    exact ⟨fun _ => hc, fun h => (by cases h), fun h => (by cases h)⟩
  · rw [h2, hd]
    refine ⟨fun h => (by cases h), fun _ => ?_, fun h => (by cases h)⟩
    symm
    rw [Int.ceil_eq_iff]
    push_cast
    exact ⟨by linarith, by linarith⟩
  · rw [h2, hd]
    refine ⟨fun h => (by cases h), fun h => (by cases h), fun _ => ?_⟩
    rw [abs_of_nonneg (by linarith)]
    exact ⟨by linarith, fun h => by linarith⟩
  · rw [h2, hd]
    refine ⟨fun h => (by cases h), fun h => (by cases h), fun _ => ?_⟩
    push_cast
    rw [abs_of_nonpos (by linarith)]
    exact ⟨by linarith, fun h => by linarith⟩
  · rw [hd]
    refine ⟨fun h => (by cases h), fun h => (by cases h), fun _ => ⟨?_, fun _ => by omega⟩⟩
    rcases h2 with h2 | h2 <;> rw [h2, h3]
    · rw [← h3]
      rw [show t - (⌊t⌋.toNat : Nat) = 1 / 2 by linarith]; norm_num
    · rw [← h3]; push_cast
      rw [show t - ((⌊t⌋.toNat : Nat) + 1) = -(1 / 2) by linarith]; norm_num

theorem roundMag_le (r : GMode) (neg : Bool) {t : ℚ} (ht : 0 ≤ t) {n : Nat} (h : t ≤ n) : roundMag r neg t ≤ n := by
  obtain ⟨g1, g2⟩ := floor_toNat ht
  have h1 : ⌊t⌋.toNat ≤ n := by have := g1.trans h; exact_mod_cast this
  have h2 : (⌊t⌋.toNat : Nat) < t → ⌊t⌋.toNat + 1 ≤ n := by
    intro h2
    have := lt_of_lt_of_le h2 h
    have : ⌊t⌋.toNat < n := by exact_mod_cast this
    omega
  rcases roundMag_cases r neg ht with ⟨_, h⟩ | ⟨h3, ⟨_, h⟩ | ⟨_, h⟩ | ⟨_, _, h⟩ | ⟨_, _, h⟩ | ⟨_, _, _, h | h⟩⟩ <;> rw [h]
  all_goals first | exact h1 | exact h2 h3

/-- Rounding a number of a context to an integer: nothing changes, or the result is small. -/
theorem roundMag_small (r : GMode) (neg : Bool) {p m : Nat} (hm : m < 2 ^ p) (e : Int) :
    (roundMag r neg ((m : ℚ) * 2 ^ e) : ℚ) = m * 2 ^ e ∨ roundMag r neg ((m : ℚ) * 2 ^ e) ≤ 2 ^ p := by
  have hpos := two_zpow_pos e
  rcases le_total 0 e with h | h
  · left
    have : (m : ℚ) * 2 ^ e = ((m * 2 ^ e.toNat : Nat) : ℚ) := by
      have := zpow_mul_nat h
      rw [this]; push_cast; simp
    rw [this, roundMag_nat]
  · right
    refine roundMag_le r neg (by positivity) ?_
    have h1 : (2 : ℚ) ^ e ≤ 1 := by have := zpow_le_of h; simpa using this
    have h2 : (m : ℚ) ≤ ((2 ^ p : Nat) : ℚ) := by exact_mod_cast hm.le
    calc (m : ℚ) * 2 ^ e ≤ m * 1 := mul_le_mul_of_nonneg_left h1 (by positivity)
      _ ≤ _ := by rw [mul_one]; exact h2

/-- The numbers from 1 up to 2. -/
theorem unit_norm (hf : f.Ok) (h2 : 2 ≤ f.eb) {m : Nat} (h : Sig (f.mb + 1) m) : f.ctx.Norm m (-f.mb) := by
  have hb := bias_pos hf h2
  refine ⟨by rw [ctx_p]; exact h, ?_, ?_, ?_⟩
  · have := ctx_emin_le f
    rw [ctx_p]; push_cast; omega
  · rw [ctx_p, ctx_emax]; push_cast; omega
  · intro hs
    rw [ctx_sub] at hs
    rw [ctx_emin, if_pos hs, show 2 - f.bias - (f.mb : Int) - 1 = 1 - f.bias - f.mb by omega]
    refine ⟨m * 2 ^ (f.bias - 1).toNat, ?_⟩
    push_cast
    rw [mul_assoc, ← two_zpow_nat, ← zpow_add']
    congr 2
    omega

end HW.Fp
