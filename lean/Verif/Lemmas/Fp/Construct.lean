import Verif.Lemmas.Fp.Rounded
import Verif.Lemmas.Fp.Grid

/-! # Numbers between 1 and 2, and numbers two formats share -/

namespace HW.Fp
variable {f g : Fmt} {x : ℚ}

theorem quantum_unit (hf : f.Ok) (h2 : 2 ≤ f.eb) (h1 : 1 ≤ x) (hx : x < 2) : quantum f.ctx x = -f.mb := by
  have hl : Int.log 2 x = 0 := log_unique (by simpa using h1) (by simpa using hx)
  have hb := bias_pos hf h2
  have he := ctx_emin_le f
  rw [quantum_eq, hl, ctx_p, ctx_sub, ctx_emin]
  cases f.ieee <;> simp <;> omega

/-- A number in `[1, 2)` is rounded to a multiple of `2^-mb`. -/
theorem ofRat_unit (hf : f.Ok) (h2 : 2 ≤ f.eb) (h1 : 1 ≤ x) (hx : x < 2) (z : Bool) :
    (f.ctx.ofRat x z).datum = .num (roundMag f.mode.gmpy false (x * 2 ^ f.mb) / 2 ^ f.mb) := by
  have h0 : x ≠ 0 := by linarith
  have hn : decide (x < 0) = false := by simp; linarith
  have ha : |x| = x := abs_of_nonneg (by linarith)
  have hb := bias_pos hf h2
  have hq : x / 2 ^ (-(f.mb : Int)) = x * 2 ^ f.mb := by rw [zpow_neg, zpow_natCast]; field_simp
  rw [ofRat_ne_zero h0, hn, ha, quantum_unit hf h2 h1 hx, hq, show f.ctx.round = f.mode.gmpy from rfl]
  have hp : (0 : ℚ) < 2 ^ f.mb := by positivity
  have hub : roundMag f.mode.gmpy false (x * 2 ^ f.mb) ≤ 2 ^ f.ctx.precision := by
    refine roundMag_le _ _ (by positivity) ?_
    rw [ctx_p, pow_succ]; push_cast; nlinarith
  have hlb : 0 < roundMag f.mode.gmpy false (x * 2 ^ f.mb) := by
    rcases Nat.eq_zero_or_pos (roundMag f.mode.gmpy false (x * 2 ^ f.mb)) with hz | hz
    · have hge : (1 : ℚ) ≤ x * 2 ^ f.mb := by
        have : (1 : ℚ) ≤ 2 ^ f.mb := one_le_pow₀ (by norm_num)
        nlinarith
      have := le_floor_toNat (t := x * 2 ^ f.mb) (k := 1) (by positivity) (by simpa using hge)
      rcases roundMag_cases f.mode.gmpy false (t := x * 2 ^ f.mb) (by positivity) with h | ⟨_, h | h | h | h | h⟩ <;>
        (have h' := h.2; try have h' := h'.2) <;> omega
    · exact hz
  rw [if_neg hlb.ne', if_neg]
  · obtain ⟨m, e, he, _, hv⟩ := normalize_spec (p := f.ctx.precision) (by rw [ctx_p]; omega) hlb hub false (-f.mb)
    rw [he]
    simp only [Mpfr.datum, sgn, Bool.false_eq_true, if_false, one_mul, hv]
    rw [zpow_neg, zpow_natCast]; rfl
  · rw [not_le]
    calc _ ≤ (2 : ℚ) ^ ((f.mb + 1 : Nat) : Int) * 2 ^ (-(f.mb : Int)) := by
          refine mul_le_mul_of_nonneg_right ?_ (two_zpow_pos _).le
          rw [zpow_natCast]; rw [ctx_p] at hub; exact_mod_cast hub
      _ = 2 ^ (1 : Int) := by rw [← zpow_add']; congr 1; push_cast; ring
      _ < _ := by rw [ctx_emax]; exact zpow_lt_of (by omega)

theorem roundMag_down {t : ℚ} {k : Nat} (h0 : (k : ℚ) ≤ t) (h1 : t < k + 1 / 2) : roundMag .toNearest false t = k := by
  have hf : ⌊t⌋ = (k : Int) := by rw [Int.floor_eq_iff]; constructor <;> push_cast <;> linarith
  unfold roundMag
  simp only [hf, Int.toNat_natCast]
  split
  · rfl
  · rw [if_pos (by linarith)]

theorem roundMag_up {t : ℚ} {k : Nat} (h0 : (k : ℚ) + 1 / 2 < t) (h1 : t < k + 1) : roundMag .toNearest false t = k + 1 := by
  have hf : ⌊t⌋ = (k : Int) := by rw [Int.floor_eq_iff]; constructor <;> push_cast <;> linarith
  unfold roundMag
  simp only [hf, Int.toNat_natCast]
  rw [if_neg (by linarith), if_neg (by linarith), if_pos (by linarith)]

theorem roundMag_tie {t : ℚ} {k : Nat} (h0 : t = (k : ℚ) + 1 / 2) (hk : k % 2 = 0) : roundMag .toNearest false t = k := by
  have hf : ⌊t⌋ = (k : Int) := by rw [Int.floor_eq_iff]; constructor <;> push_cast <;> linarith
  unfold roundMag
  simp only [hf, Int.toNat_natCast]
  rw [if_neg (by linarith), if_neg (by linarith), if_neg (by linarith), if_pos hk]

/-- Python's `float` numbers rounded in the mode `m`. -/
abbrev doubleIn (m : Mode) : Fmt := { double with mode := m }

theorem doubleIn_ok (m : Mode) : (doubleIn m).Ok := (⟨by decide, by decide⟩ : 0 < 11 ∧ 0 < 52)
theorem doubleIn_eb (m : Mode) : 2 ≤ (doubleIn m).eb := (by decide : 2 ≤ 11)

theorem finite_doubleIn (m : Mode) (y : ℚ) : (doubleIn m).Finite y ↔ double.Finite y := Iff.rfl

/-- The numbers of a format are numbers of every IEEE format no smaller. -/
theorem finite_embed (hf : f.Ok) (hg : g.Ok) (hi : g.ieee = true) (he : f.eb ≤ g.eb) (hm : f.mb ≤ g.mb) {y : ℚ}
    (h : f.Finite y) : g.Finite y := by
  have hb : f.bias ≤ g.bias := by
    have h1 := pow_eb hf
    have h2 := pow_eb hg
    have : (2 : Int) ^ f.eb ≤ 2 ^ g.eb := by
      rw [← cast_pow, ← cast_pow]; exact_mod_cast Nat.pow_le_pow_right (by omega) he
    omega
  have hlt := finite_lt hf h
  have hpow : 2 ^ f.ctx.precision ≤ 2 ^ g.ctx.precision := by
    rw [ctx_p, ctx_p]; exact Nat.pow_le_pow_right (by omega) (by omega)
  have hge := ctx_emin g
  rw [hi] at hge
  simp only [if_true] at hge
  rcases (finite_iff hf y).1 h with rfl | ⟨s, m, e, hn, rfl⟩
  · exact finite_zero g
  · rw [abs_num] at hlt
    have hmax : (m : ℚ) * 2 ^ e < 2 ^ g.ctx.emax :=
      lt_of_lt_of_le hlt (zpow_le_of (by rw [ctx_emax, ctx_emax]; omega))
    have hfe := ctx_emin f
    cases hfi : f.ieee with
    | true =>
      rw [hfi] at hfe
      simp only [if_true] at hfe
      obtain ⟨k, q, h1, h2, h3⟩ := norm_coarse (by rw [ctx_sub]; exact hfi) hn
      rw [mul_assoc, h1]
      exact finite_grid hg (by omega) (by omega) (by rw [← h1]; exact hmax) s
    | false =>
      rw [hfi] at hfe
      simp only [Bool.false_eq_true, if_false] at hfe
      have hlo := hn.lo
      rw [ctx_p] at hlo
      rw [mul_assoc]
      refine finite_grid hg (by have := hn.sig.2; omega) (by push_cast at hlo; omega) hmax s

end HW.Fp
