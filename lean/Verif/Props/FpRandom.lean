import Verif.Model.Fp.Random
import Verif.Lemmas.Fp.Grid
import Verif.Props.FpArith

/-! # Property C111: `FPVector.random` -/

namespace HW
open Spec Fp

theorem Fp.finite_pow {f : Fmt} (hf : f.Ok) {e : Int} (h1 : 1 - f.bias ≤ e) (h2 : e ≤ f.bias) : f.Finite (2 ^ e) := by
  have := finite_grid hf (k := 1) (q := e) Nat.one_le_two_pow (by have := ctx_emin_le f; omega)
    (by rw [ctx_emax]; simpa using zpow_lt_of (show e < f.bias + 1 by omega)) false
  simpa [sgn] using this

theorem Fp.finite_one {f : Fmt} (hf : f.Ok) (h2 : 2 ≤ f.eb) : f.Finite 1 := by
  have := finite_pow hf (e := 0) (by have := bias_pos hf h2; omega) (bias_nonneg f)
  simpa using this

/-- The integers `random` needs are exact if the mantissa is long enough. -/
theorem Fp.finite_exp {f : Fmt} (hf : f.Ok) (h2 : 2 ≤ f.eb) (he : f.eb ≤ f.mb + 2) {e : Int} (h1 : 1 - f.bias ≤ e)
    (h3 : e ≤ f.bias + 1) : f.Finite e := by
  have hb : f.bias + 1 ≤ 2 ^ f.ctx.precision := by
    rw [ctx_p]; unfold Fmt.bias
    have : (2 : Int) ^ (f.eb - 1) ≤ 2 ^ (f.mb + 1) := pow_le_pow_right₀ (by norm_num) (by omega)
    omega
  have habs : |e| ≤ f.bias + 1 := abs_le.2 ⟨by omega, h3⟩
  have := finite_int_grid hf (k := e) (q := 0) (habs.trans hb) (emin_le hf h2) (by
    have h4 : f.bias + 1 < 2 ^ (f.bias + 1).toNat := by
      have := Nat.lt_two_pow_self (n := (f.bias + 1).toNat)
      have hn := bias_nonneg f
      zify at this
      rw [Int.toNat_of_nonneg (by omega)] at this
      exact this
    have h5 : (|(e : ℚ)|) < 2 ^ (f.bias + 1).toNat := by exact_mod_cast lt_of_le_of_lt habs h4
    rw [ctx_emax, ← Int.toNat_of_nonneg (show 0 ≤ f.bias + 1 by have := bias_nonneg f; omega), zpow_natCast]
    simpa using h5)
  simpa using this

theorem Fp.ctx_exact {f : Fmt} (hf : f.Ok) (h2 : 2 ≤ f.eb) {y : ℚ} (h : f.Finite y) (z : Bool) :
    (f.ctx.ofRat y z).datum.fin? = some y := by
  have := C48_exact hf h2 h z
  rw [ofRat_finish hf h2] at this
  rw [this]
  split
  · rename_i h; rw [h]; rfl
  · rfl

/-- Rounding stays between two numbers of the format. -/
theorem Fp.ctx_between {f : Fmt} (hf : f.Ok) (h2 : 2 ≤ f.eb) {a b x : ℚ} (ha : f.Finite a) (hb : f.Finite b)
    (h : a ≤ x) (h' : x ≤ b) (z : Bool) :
    ∃ y, (f.ctx.ofRat x z).datum.fin? = some y ∧ a ≤ y ∧ y ≤ b ∧ f.Finite y := by
  have l := C80_construct hf h2 h z z
  have u := C80_construct hf h2 h' z z
  have hn := (C48_numbers hf h2 · |>.2)
  rw [ofRat_finish hf h2, ofRat_finish hf h2] at l u
  obtain ⟨p, q, l1, l2, l3⟩ := l
  obtain ⟨p', q', u1, u2, u3⟩ := u
  rw [ext_fin (ctx_exact hf h2 ha z)] at l1
  rw [ext_fin (ctx_exact hf h2 hb z)] at u2
  rw [l2] at u1
  cases l1; cases u2; cases u1
  have key : ∀ y, (f.ctx.ofRat x z).datum.fin? = some y → a ≤ y ∧ y ≤ b ∧ f.Finite y := by
    intro y hy
    have e := ext_fin hy
    rw [l2] at e
    cases e
    refine ⟨by exact_mod_cast l3, by exact_mod_cast u3, hn y ⟨x, z, by rw [ofRat_finish hf h2]; exact hy⟩⟩
  cases hd : (f.ctx.ofRat x z).datum with
  | nan => rw [hd] at l2; cases l2
  | zero s => exact ⟨0, rfl, key 0 (by rw [hd]; rfl)⟩
  | num y => exact ⟨y, rfl, key y (by rw [hd]; rfl)⟩
  | inf s =>
    rw [hd] at l2
    cases s <;> cases l2
    · exact absurd u3 (by simp)
    · exact absurd l3 (by simp)

theorem Fp.mantissa_facts {f : Fmt} (hf : f.Ok) (h2 : 2 ≤ f.eb) {u : ℚ} (h0 : 0 ≤ u) (h1 : u < 1) :
    ∃ μ, (f.drawMantissa u).datum.fin? = some μ ∧ 1 ≤ μ ∧ μ ≤ 2 ∧ f.Finite μ ∧
      (f.mode = .RTZ ∨ f.mode = .RTN → μ < 2) := by
  have hb := bias_pos hf h2
  have hone := finite_one hf h2
  have htwo : f.Finite 2 := by simpa using finite_pow hf (e := 1) (by omega) hb
  obtain ⟨ρ, r1, r2, r3, r4⟩ := ctx_between hf h2 (finite_zero f) hone h0 h1.le false
  have hr := (fin_cases r1).1
  obtain ⟨μ, m1, m2, m3, m4⟩ := ctx_between hf h2 hone htwo (show (1 : ℚ) ≤ ρ + 1 by linarith)
    (show ρ + 1 ≤ 2 by linarith) false
  refine ⟨μ, by unfold Fmt.drawMantissa; rw [← hr]; exact m1, m2, m3, m4, fun hm => ?_⟩
  have below : ∀ {x : ℚ}, 0 ≤ x → ∀ y, (f.ctx.ofRat x false).datum.fin? = some y → y ≤ x := by
    intro x hx y hy
    rcases hm with hm | hm <;> have h := C49_rounds_partial hf h2 (by rw [hm]; decide) x false <;>
      rw [ofRat_finish hf h2] at h <;> unfold Fmt.IsRounded at h <;> rw [hm] at h <;> dsimp only at h
    · obtain ⟨y', e1, e2, e3, _⟩ := h
      rw [hy] at e1; cases e1
      rw [abs_of_nonneg hx] at e3
      exact (le_abs_self y).trans e3
    · rcases h with ⟨y', e1, e2, e3, _⟩ | ⟨e1, _⟩
      · rw [hy] at e1; cases e1; exact e3
      · rw [e1] at hy; cases hy
  have a1 := below h0 ρ r1
  have a2 := below (by linarith) μ m1
  linarith

theorem Fp.finite_neg {f : Fmt} (hf : f.Ok) {x : ℚ} (h : f.Finite x) : f.Finite (-x) := by
  rw [finite_iff hf] at h ⊢
  rcases h with rfl | ⟨s, m, e, hn, rfl⟩
  · left; simp
  · right; refine ⟨!s, m, e, hn, ?_⟩
    cases s <;> simp [sgn]

theorem Fp.signed_mantissa {f : Fmt} (hf : f.Ok) (h2 : 2 ≤ f.eb) {m : Mpfr} {μ : ℚ} (hm : m.datum.fin? = some μ)
    (h0 : μ ≠ 0) (hF : f.Finite μ) (neg : Bool) :
    (f.ctx.ofMpfr (if neg then m.neg else m)).datum = .num (sgn neg * μ) := by
  obtain ⟨rfl, h⟩ := fin_cases hm
  rcases h with ⟨s, rfl⟩ | ⟨s, a, e, rfl⟩
  · exact absurd rfl h0
  · have hneg : f.Finite (-(Mpfr.fin s a e).toRat) := finite_neg hf hF
    have key : ∀ (s' : Bool) (x : ℚ), (Mpfr.fin s' a e).toRat = x → x ≠ 0 → f.Finite x →
        (f.ctx.ofMpfr (.fin s' a e)).datum = .num x := by
      intro s' x hx hx0 hxF
      have := C48_exact hf h2 hxF s'
      rw [ofRat_finish hf h2, if_neg hx0] at this
      rw [← this, ← hx]
      rfl
    cases neg
    · simpa [sgn] using key s _ rfl h0 hF
    · have e1 : (Mpfr.fin (!s) a e).toRat = -(Mpfr.fin s a e).toRat := by cases s <;> simp [Mpfr.toRat]
      have := key (!s) _ e1 (neg_ne_zero.2 h0) hneg
      simpa [sgn, Mpfr.neg] using this

theorem Fp.drawPower_eq {f : Fmt} (hf : f.Ok) (h2 : 2 ≤ f.eb) (he : f.eb ≤ f.mb + 2) {e : Int} (h1 : 1 - f.bias ≤ e)
    (h3 : e ≤ f.bias + 1) : f.drawPower e = f.ctx.ofRat (2 ^ e) false := by
  have := (fin_cases (ctx_exact hf h2 (finite_exp hf h2 he h1 h3) false)).1
  unfold Fmt.drawPower
  rw [← this, Int.floor_intCast]

theorem Fp.datum_num {v : Mpfr} {x : ℚ} (h : v.datum = .num x) : ∃ s m e, v = .fin s m e ∧ v.toRat = x := by
  cases v with
  | nan => cases h
  | inf => cases h
  | zero => cases h
  | fin s m e => exact ⟨s, m, e, rfl, by simpa [Mpfr.datum, Mpfr.toRat, sgn] using h⟩

/-- The product is the exact one, rounded once. -/
theorem Fp.random_eq {f : Fmt} (hf : f.Ok) (h2 : 2 ≤ f.eb) (o neg : Bool) {u μ p : ℚ} {e : Int}
    (hμ : (f.drawMantissa u).datum.fin? = some μ) (h0 : μ ≠ 0) (hF : f.Finite μ)
    (hp : (f.drawPower e).datum.fin? = some p) : ∃ z, f.random o neg u e = f.ofRat (sgn neg * μ * p) z := by
  have hm := signed_mantissa hf h2 hμ h0 hF neg
  have := (ctx_fin2 (c := f.ctx) (o := o) (v := f.ctx.ofMpfr (if neg then (f.drawMantissa u).neg else f.drawMantissa u))
    (w := f.drawPower e) (a := sgn neg * μ) (b := p) (by rw [hm]; rfl) hp).2.2
  refine ⟨((f.ctx.ofMpfr (if neg then (f.drawMantissa u).neg else f.drawMantissa u)).isSigned ^^
    (f.drawPower e).isSigned), ?_⟩
  unfold Fmt.random
  dsimp only
  rw [this, ofMpfr_ofRat hf h2]

theorem Fp.finite_scaled {f : Fmt} (hf : f.Ok) {μ : ℚ} (hF : f.Finite μ) (h1 : 1 ≤ μ) (hlt : μ < 2)
    {e : Int} (he : 1 - f.bias ≤ e) (he' : e ≤ f.bias) (s : Bool) : f.Finite (sgn s * μ * 2 ^ e) := by
  rcases (finite_iff hf μ).1 hF with rfl | ⟨t, m, x, hn, hx⟩
  · linarith
  have habs : (m : ℚ) * 2 ^ x = μ := by rw [← abs_num t, ← hx, abs_of_pos (by linarith)]
  have hlog := hn.sig.log x
  rw [habs, log_unique (k := 0) (by simpa using h1) (by simpa using hlt), ctx_p] at hlog
  have hx' : x = -(f.mb : Int) := by push_cast at hlog; omega
  subst hx'
  rw [finite_iff hf]
  right
  refine ⟨s, m, e - f.mb, ⟨hn.sig, ?_, ?_, fun hs => ?_⟩, ?_⟩
  · have := ctx_emin_le f; rw [ctx_p]; push_cast; omega
  · rw [ctx_emax, ctx_p]; push_cast; omega
  · rw [ctx_sub] at hs
    have hq : f.ctx.emin - 1 ≤ e - f.mb := by rw [ctx_emin, if_pos hs]; omega
    refine ⟨m * 2 ^ (e - f.mb - (f.ctx.emin - 1)).toNat, ?_⟩
    rw [zpow_mul_nat hq]; push_cast; ring
  · rw [← habs, show e - (f.mb : Int) = -(f.mb : Int) + e by ring, zpow_add']; ring

/-- **C111** (the value).  The result is exactly `± mantissa * 2^exp` with a mantissa of `[1, 2]`, which depends on
`mpfr_random` alone, unless that is too large: the mantissa has been rounded up to 2 and the exponent is the largest. -/
theorem C111_value {f : Fmt} (hf : f.Ok) (h2 : 2 ≤ f.eb) (he : f.eb ≤ f.mb + 2) {u : ℚ} (h0 : 0 ≤ u) (h1 : u < 1) :
    ∃ μ, 1 ≤ μ ∧ μ ≤ 2 ∧ ∀ (o neg : Bool) (e : Int), f.Draws false u e →
      ((f.random o neg u e).datum = .num (sgn neg * μ * 2 ^ e) ∨ (μ = 2 ∧ e = f.bias)) := by
  obtain ⟨μ, m1, m2, m3, m4, _⟩ := mantissa_facts hf h2 h0 h1
  refine ⟨μ, m2, m3, fun o neg e hd => ?_⟩
  obtain ⟨-, -, h3, h4⟩ := hd
  simp only [Bool.false_eq_true, if_false] at h4
  have hp := ctx_exact hf h2 (finite_pow hf h3 h4) false
  rw [← drawPower_eq hf h2 he h3 (by omega)] at hp
  obtain ⟨z, hr⟩ := random_eq hf h2 o neg m1 (by linarith) m4 hp
  by_cases hc : μ = 2 ∧ e = f.bias
  · exact .inr hc
  left
  have hfin : f.Finite (sgn neg * μ * 2 ^ e) := by
    rcases m3.lt_or_eq with hlt | rfl
    · exact finite_scaled hf m4 m2 hlt h3 h4 neg
    · have := finite_scaled hf (finite_one hf h2) le_rfl (by norm_num) (e := e + 1) (by omega)
        (by have : e ≠ f.bias := fun h => hc ⟨rfl, h⟩; omega) neg
      rw [zpow_add', zpow_one] at this
      convert this using 1; ring
  have h0' : sgn neg * μ * 2 ^ e ≠ 0 := by
    have := two_zpow_pos e
    have h3 : sgn neg ≠ 0 := by unfold sgn; cases neg <;> simp
    exact mul_ne_zero (mul_ne_zero h3 (by linarith)) this.ne'
  rw [hr, C48_exact hf h2 hfin, if_neg h0']

/-- **C111**: rounding toward zero or down, `random(allow_inf=False)` is never infinite. -/
theorem C111_finite_partial {f : Fmt} (hf : f.Ok) (h2 : 2 ≤ f.eb) (he : f.eb ≤ f.mb + 2)
    (hm : f.mode = .RTZ ∨ f.mode = .RTN) (o neg : Bool) {u : ℚ} {e : Int} (hd : f.Draws false u e) :
    ∃ y, (f.random o neg u e).datum = .num y := by
  obtain ⟨h0, h1, h3, h4⟩ := hd
  simp only [Bool.false_eq_true, if_false] at h4
  obtain ⟨μ, m1, m2, m3, m4, m5⟩ := mantissa_facts hf h2 h0 h1
  have hp := ctx_exact hf h2 (finite_pow hf h3 h4) false
  rw [← drawPower_eq hf h2 he h3 (by omega)] at hp
  obtain ⟨z, hr⟩ := random_eq hf h2 o neg m1 (by linarith) m4 hp
  have h0' : sgn neg * μ * 2 ^ e ≠ 0 := by
    have := two_zpow_pos e
    have h3 : sgn neg ≠ 0 := by unfold sgn; cases neg <;> simp
    exact mul_ne_zero (mul_ne_zero h3 (by linarith)) this.ne'
  exact ⟨_, by rw [hr, C48_exact hf h2 (finite_scaled hf m4 m2 (m5 hm) h3 h4 neg), if_neg h0']⟩

theorem Fp.datum_ge {d : Datum} {a : ℚ} (h0 : 0 < a) (h : (Datum.num a).le d) :
    d = .inf false ∨ ∃ y, d = .num y ∧ a ≤ y := by
  obtain ⟨p, q, e1, e2, e3⟩ := h
  cases e1
  rcases d with _ | s | s | y
  · cases e2
  · cases s <;> cases e2
    · exact .inl rfl
    · exact absurd e3 (by simp)
  · cases e2
    exact absurd (show a ≤ 0 by exact_mod_cast e3) (not_le.2 h0)
  · cases e2
    exact .inr ⟨y, rfl, by exact_mod_cast e3⟩

theorem Fp.datum_le {d : Datum} {a : ℚ} (h0 : a < 0) (h : d.le (Datum.num a)) :
    d = .inf true ∨ ∃ y, d = .num y ∧ y ≤ a := by
  obtain ⟨p, q, e2, e1, e3⟩ := h
  cases e1
  rcases d with _ | s | s | y
  · cases e2
  · cases s <;> cases e2
    · exact absurd e3 (by simp)
    · exact .inl rfl
  · cases e2
    exact absurd (show 0 ≤ a by exact_mod_cast e3) (not_le.2 h0)
  · cases e2
    exact .inr ⟨y, rfl, by exact_mod_cast e3⟩

theorem Fp.ofRat_signed {f : Fmt} (hf : f.Ok) (h2 : 2 ≤ f.eb) {a x : ℚ} (ha : f.Finite a) (h0 : 0 < a) (h : a ≤ x)
    (s z : Bool) : (f.ofRat (sgn s * x) z).datum = .inf s ∨
      ∃ y, (f.ofRat (sgn s * x) z).datum = .num (sgn s * y) ∧ a ≤ y := by
  cases s
  · have h := C80_construct hf h2 h z z
    rw [C48_exact hf h2 ha, if_neg h0.ne'] at h
    simpa [sgn] using datum_ge h0 h
  · have h := C80_construct hf h2 (neg_le_neg h) z z
    rw [C48_exact hf h2 (finite_neg hf ha), if_neg (neg_ne_zero.2 h0.ne')] at h
    rcases datum_le (neg_lt_zero.2 h0) h with h | ⟨y, h, h'⟩
    · left; simpa [sgn] using h
    · right; exact ⟨-y, by simpa [sgn] using h, by linarith⟩

/-- The power is infinite, or at least the smallest normal number. -/
theorem Fp.power_facts {f : Fmt} (hf : f.Ok) (h2 : 2 ≤ f.eb) (he : f.eb ≤ f.mb + 2) {e : Int} (h1 : 1 - f.bias ≤ e)
    (h3 : e ≤ f.bias + 1) : (f.drawPower e).datum = .inf false ∨
      ∃ y, (f.drawPower e).datum = .num y ∧ 2 ^ (1 - f.bias) ≤ y := by
  have hb := bias_pos hf h2
  have hmin := finite_pow hf (e := 1 - f.bias) le_rfl (by omega)
  have := ofRat_signed hf h2 hmin (two_zpow_pos _) (zpow_le_zpow_right₀ (by norm_num : (1 : ℚ) ≤ 2) h1) false false
  rw [drawPower_eq hf h2 he h1 h3, ← ofRat_finish hf h2]
  simpa [sgn] using this

theorem Fp.random_inf {f : Fmt} (hf : f.Ok) (h2 : 2 ≤ f.eb) (o neg : Bool) {u μ : ℚ} {e : Int}
    (hμ : (f.drawMantissa u).datum.fin? = some μ) (h0 : 0 < μ) (hF : f.Finite μ)
    (hp : (f.drawPower e).datum = .inf false) : (f.random o neg u e).datum = .inf neg := by
  have hm := signed_mantissa hf h2 hμ h0.ne' hF neg
  have hpow : f.drawPower e = .inf false := by
    cases hd : f.drawPower e <;> rw [hd] at hp <;> cases hp
    rfl
  unfold Fmt.random
  dsimp only
  rw [hpow]
  revert hm
  generalize f.ctx.ofMpfr (if neg then (f.drawMantissa u).neg else f.drawMantissa u) = v
  intro hm
  obtain ⟨s, m, x, rfl, -⟩ := datum_num hm
  have hs : s = neg := by
    have : (0 : ℚ) ≤ m * 2 ^ x := mul_nonneg (Nat.cast_nonneg _) (two_zpow_pos x).le
    have hm : sgn s * m * 2 ^ x = sgn neg * μ := by simpa [Mpfr.datum] using hm
    rw [mul_assoc] at hm
    unfold sgn at hm
    cases s <;> cases neg <;> first | rfl | (simp at hm; linarith)
  subst hs
  cases s <;> rfl

/-- **C111** (the class).  The result has the sign chosen, and is infinite or a normal number: never NaN, never zero,
never subnormal. -/
theorem C111_class {f : Fmt} (hf : f.Ok) (h2 : 2 ≤ f.eb) (he : f.eb ≤ f.mb + 2) (o neg allowInf : Bool) {u : ℚ} {e : Int}
    (hd : f.Draws allowInf u e) : (f.random o neg u e).datum = .inf neg ∨
      ∃ y, (f.random o neg u e).datum = .num (sgn neg * y) ∧ 2 ^ (1 - f.bias) ≤ y := by
  obtain ⟨h0, h1, h3, h4⟩ := hd
  have h4 : e ≤ f.bias + 1 := by split at h4 <;> omega
  have hb := bias_pos hf h2
  have hmin := finite_pow hf (e := 1 - f.bias) le_rfl (by omega)
  obtain ⟨μ, m1, m2, m3, m4, _⟩ := mantissa_facts hf h2 h0 h1
  rcases power_facts hf h2 he h3 h4 with hp | ⟨y, hp, hy⟩
  · exact .inl (random_inf hf h2 o neg m1 (by linarith) m4 hp)
  · obtain ⟨z, hr⟩ := random_eq hf h2 o neg m1 (by linarith) m4 (p := y) (by rw [hp]; rfl)
    rw [hr, mul_assoc]
    refine ofRat_signed hf h2 hmin (two_zpow_pos _) ?_ neg z
    have := two_zpow_pos (1 - f.bias)
    nlinarith

/-- **C111** (`allow_inf`).  The exponent only `allow_inf=True` draws gives infinity, except that rounding toward zero
or down gives a number. -/
theorem C111_infinite {f : Fmt} (hf : f.Ok) (h2 : 2 ≤ f.eb) (he : f.eb ≤ f.mb + 2) (hm : f.mode ≠ .RTZ ∧ f.mode ≠ .RTN)
    (o neg : Bool) {u : ℚ} (h0 : 0 ≤ u) (h1 : u < 1) : f.Draws true u (f.bias + 1) ∧ ¬ f.Draws false u (f.bias + 1) ∧
      (f.random o neg u (f.bias + 1)).datum = .inf neg := by
  refine ⟨⟨h0, h1, by have := bias_pos hf h2; omega, le_rfl⟩, fun h => ?_, ?_⟩
  · have : f.bias + 1 ≤ f.bias := h.2.2.2
    omega
  obtain ⟨μ, m1, m2, m3, m4, _⟩ := mantissa_facts hf h2 h0 h1
  refine random_inf hf h2 o neg m1 (by linarith) m4 ?_
  have hb := bias_pos hf h2
  rw [drawPower_eq hf h2 he (by omega) le_rfl, ← ofRat_finish hf h2]
  have hpos : (0 : ℚ) < 2 ^ (f.bias + 1) := two_zpow_pos _
  have hno : ¬ ((2 : ℚ) ^ (f.bias + 1) < 0) := not_lt.2 hpos.le
  have above : ∀ y, f.Finite y → ¬ ((2 : ℚ) ^ (f.bias + 1) ≤ |y|) := fun y hy => by
    have := finite_lt hf hy
    rw [ctx_emax] at this
    exact not_le.2 this
  cases hmode : f.mode with
  | RTZ => exact absurd hmode hm.1
  | RTN => exact absurd hmode hm.2
  | RNA =>
    rcases C49_RNA_actual hf h2 hmode (2 ^ (f.bias + 1)) false with ⟨y, _, hy, hle, _⟩ | ⟨h, _⟩
    · rw [abs_of_pos hpos] at hle; exact absurd hle (above y hy)
    · rw [h]; simp [hno]
  | RTP =>
    have h := C49_rounds_partial hf h2 (by rw [hmode]; decide) (2 ^ (f.bias + 1)) false
    unfold Fmt.IsRounded at h
    rw [hmode] at h
    rcases h with ⟨y, _, hy, hle, _⟩ | ⟨h, _⟩
    · exact absurd (hle.trans (le_abs_self y)) (above y hy)
    · exact h
  | RNE =>
    have h := C49_rounds_partial hf h2 (by rw [hmode]; decide) (2 ^ (f.bias + 1)) false
    unfold Fmt.IsRounded at h
    rw [hmode] at h
    rcases h with ⟨y, _, hy, hlt, _⟩ | ⟨h, _⟩
    · rw [abs_of_pos hpos] at hlt
      unfold Fmt.overflowThreshold at hlt
      have e : (2 ^ (f.eb - 1) - 1 : Int) = f.bias := by unfold Fmt.bias; rfl
      rw [e, zpow_add', zpow_one] at hlt
      have h3 : (0 : ℚ) < 1 / 2 ^ (f.mb + 1) := by positivity
      have := two_zpow_pos f.bias
      nlinarith
    · rw [h]; simp [hno]

/-- **C111** (coverage).  In an IEEE format every normal number is drawn, also without `allow_inf`; the drawn number is
the fraction of the pattern, one of those `mpfr_urandomb` returns. -/
theorem C111_covers {f : Fmt} (hf : f.Ok) (h2 : 2 ≤ f.eb) (he : f.eb ≤ f.mb + 2) (hi : f.ieee = true) (o s : Bool)
    {E M : Nat} (hF : f.Fields E M) (h0 : E ≠ 0) (h1 : E ≠ 2 ^ f.eb - 1) :
    ∃ e, f.Draws false ((M : ℚ) / 2 ^ f.mb) e ∧
      (f.random o s ((M : ℚ) / 2 ^ f.mb) e).datum = f.value s E M := by
  have hb := bias_pos hf h2
  have hb' : f.bias = 2 ^ (f.eb - 1) - 1 := by unfold Fmt.bias; rfl
  have hpe := pow_eb hf
  have hM : (M : ℚ) < 2 ^ f.mb := by exact_mod_cast hF.2
  have hmpos : (0 : ℚ) < 2 ^ f.mb := by positivity
  have hEhi : (E : Int) - f.bias ≤ f.bias := by
    have : (E : Int) < 2 ^ f.eb := by exact_mod_cast hF.1
    have : (E : Int) ≠ 2 ^ f.eb - 1 := fun h => h1 (by
      have : 1 ≤ 2 ^ f.eb := Nat.one_le_two_pow
      zify [this]; exact h)
    omega
  have hq : f.ctx.emin - 1 ≤ -(f.mb : Int) := by rw [ctx_emin, if_pos hi]; omega
  have hz : (2 : ℚ) ^ (-(f.mb : Int)) = 1 / 2 ^ f.mb := by rw [zpow_neg, zpow_natCast, one_div]
  have hone : (1 : ℚ) ≤ 2 ^ f.ctx.emax := by
    rw [ctx_emax]; simpa using zpow_le_zpow_right₀ (by norm_num : (1 : ℚ) ≤ 2) (show 0 ≤ f.bias + 1 by omega)
  have htwo : (2 : ℚ) ≤ 2 ^ f.ctx.emax := by
    rw [ctx_emax]; simpa using zpow_le_zpow_right₀ (by norm_num : (1 : ℚ) ≤ 2) (show 1 ≤ f.bias + 1 by omega)
  have hu : (M : ℚ) / 2 ^ f.mb < 1 := by rw [div_lt_one hmpos]; exact hM
  have hu0 : (0 : ℚ) ≤ (M : ℚ) / 2 ^ f.mb := by positivity
  have hd : f.Draws false ((M : ℚ) / 2 ^ f.mb) ((E : Int) - f.bias) := by
    refine ⟨hu0, hu, ?_, ?_⟩
    · omega
    · simpa using hEhi
  refine ⟨_, hd, ?_⟩
  have hlt : M < 2 ^ f.ctx.precision := by
    rw [ctx_p, pow_succ]; have := hF.2; omega
  have hfu : f.Finite ((M : ℚ) / 2 ^ f.mb) := by
    have := finite_grid hf (k := M) hlt.le hq (by rw [hz, mul_one_div]; exact hu.trans_le hone) false
    rw [hz, mul_one_div] at this
    simpa [sgn] using this
  have hfm : f.Finite ((M : ℚ) / 2 ^ f.mb + 1) := by
    have e : ((M + 2 ^ f.mb : Nat) : ℚ) * 2 ^ (-(f.mb : Int)) = (M : ℚ) / 2 ^ f.mb + 1 := by
      rw [hz]; push_cast; field_simp
    have := finite_grid hf (k := M + 2 ^ f.mb) (by rw [ctx_p, pow_succ]; have := hF.2; omega) hq
      (by rw [e]; linarith) false
    rw [e] at this
    simpa [sgn] using this
  have hmant : (f.drawMantissa ((M : ℚ) / 2 ^ f.mb)).datum.fin? = some ((M : ℚ) / 2 ^ f.mb + 1) := by
    unfold Fmt.drawMantissa
    rw [← (fin_cases (ctx_exact hf h2 hfu false)).1]
    exact ctx_exact hf h2 hfm false
  have hp := ctx_exact hf h2 (finite_pow hf (e := (E : Int) - f.bias) (by omega) hEhi) false
  rw [← drawPower_eq hf h2 he (by omega) (by omega)] at hp
  obtain ⟨z, hr⟩ := random_eq hf h2 o s hmant (by linarith) hfm hp
  have h0' : sgn s * ((M : ℚ) / 2 ^ f.mb + 1) * 2 ^ ((E : Int) - f.bias) ≠ 0 := by
    have := two_zpow_pos ((E : Int) - f.bias)
    have h3 : sgn s ≠ 0 := by unfold sgn; cases s <;> simp
    exact mul_ne_zero (mul_ne_zero h3 (by linarith)) this.ne'
  rw [hr, C48_exact hf h2 (finite_scaled hf hfm (by linarith) (by linarith) (by omega) hEhi s), if_neg h0']
  unfold Fmt.value
  rw [if_pos hi]
  unfold Fmt.ieeeValue
  rw [if_neg h1, if_neg h0, hb', add_comm ((M : ℚ) / 2 ^ f.mb)]

/-- bfloat16, to nearest. -/
def Fp.bfloat16 : Fmt := ⟨8, 7, .RNE, true⟩

/-- An exponent longer than the significand. -/
def Fp.wide : Fmt := ⟨8, 2, .RNE, true⟩

/-- **C111** (refuted).  `random(allow_inf=False)` can be infinite: in bfloat16 the largest number `mpfr_random` draws
makes the mantissa 2, and 2 times the largest power is too large. -/
theorem C111_finite_refuted : bfloat16.Draws false (1 - 1 / 2 ^ 8) 127 ∧
    (bfloat16.random false false (1 - 1 / 2 ^ 8) 127).datum = .inf false := by
  refine ⟨⟨by norm_num, by norm_num, by decide, by decide⟩, ?_⟩
  have : bfloat16.random false false (1 - 1 / 2 ^ 8) 127 = .inf false := by decide +kernel
  rw [this]; rfl

/-- **C111** (refuted).  If the exponent does not fit the significand it is rounded before the power is taken: with 8
and 2 bits, 125 becomes 128 and the result is infinite, and `-125` becomes `-128` and the result is subnormal. -/
theorem C111_exponent_refuted : wide.Draws false 0 125 ∧ (wide.random false false 0 125).datum = .inf false ∧
    wide.Draws false 0 (-125) ∧ (wide.random false false 0 (-125)).datum = .num (1 / 2 ^ 128) := by
  refine ⟨⟨by norm_num, by norm_num, by decide, by decide⟩, ?_, ⟨by norm_num, by norm_num, by decide, by decide⟩, ?_⟩
  · have : wide.random false false 0 125 = .inf false := by decide +kernel
    rw [this]; rfl
  · have : wide.random false false 0 (-125) = .fin false 4 (-130) := by decide +kernel
    rw [this]; simp only [Mpfr.datum, sgn]; norm_num

/-! The hypotheses are met. -/

example : ∃ y, (Fp.brain.random false true (1 / 3) (-4)).datum = .num y :=
  C111_finite_partial (f := Fp.brain) (by decide) (by decide) (by decide) (.inl rfl) false true
    ⟨by norm_num, by norm_num, by decide, by decide⟩

example : (half.random false true (1 / 3) 16).datum = .inf true :=
  (C111_infinite (f := half) (by decide) (by decide) (by decide) (by decide) false true (by norm_num) (by norm_num)).2.2

example : (half.random false true (1 / 3) (-3)).datum = .inf true ∨
    ∃ y, (half.random false true (1 / 3) (-3)).datum = .num (sgn true * y) ∧ 2 ^ (1 - half.bias) ≤ y :=
  C111_class (f := half) (by decide) (by decide) (by decide) false true false ⟨by norm_num, by norm_num, by decide, by decide⟩

example : ∃ μ, 1 ≤ μ ∧ μ ≤ 2 ∧ ∀ (o neg : Bool) (e : Int), half.Draws false (1 / 3) e →
    ((half.random o neg (1 / 3) e).datum = .num (sgn neg * μ * 2 ^ e) ∨ (μ = 2 ∧ e = half.bias)) :=
  C111_value (by decide) (by decide) (by decide) (by norm_num) (by norm_num)

example : ∃ e, half.Draws false (((513 : Nat) : ℚ) / 2 ^ half.mb) e ∧
    (half.random false true (((513 : Nat) : ℚ) / 2 ^ half.mb) e).datum = half.value true 20 513 :=
  C111_covers (by decide) (by decide) (by decide) rfl false true (by decide) (by decide) (by decide)

end HW
