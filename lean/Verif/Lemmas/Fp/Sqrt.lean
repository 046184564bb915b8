import Verif.Model.Fp.Sqrt
import Verif.Spec.FpSqrt
import Verif.Lemmas.Fp.Arith

/-! # Rounding a root through a rational that lies in the same place -/

namespace HW.Fp

variable {f : Fmt}

/-- A multiple of `2^-k`. -/
def OnGrid (k : Nat) (g : ℚ) : Prop := ∃ z : Int, g = z / 2 ^ k

/-- `x'` and `x` lie on the same side of every multiple of `2^-k`. -/
structure SamePlace (k : Nat) (x' : ℚ) (x : ℝ) : Prop where
  le : ∀ g, OnGrid k g → (g ≤ x' ↔ (g : ℝ) ≤ x)
  ge : ∀ g, OnGrid k g → (x' ≤ g ↔ x ≤ (g : ℝ))

theorem SamePlace.lt {k x' x} (h : SamePlace k x' x) {g : ℚ} (hg : OnGrid k g) : g < x' ↔ (g : ℝ) < x := by
  rw [← not_le, ← not_le, h.ge g hg]

theorem SamePlace.gt {k x' x} (h : SamePlace k x' x) {g : ℚ} (hg : OnGrid k g) : x' < g ↔ x < (g : ℝ) := by
  rw [← not_le, ← not_le, h.le g hg]

theorem OnGrid.abs {k : Nat} {g : ℚ} (h : OnGrid k g) : OnGrid k |g| := by
  obtain ⟨z, rfl⟩ := h
  refine ⟨|z|, ?_⟩
  rw [abs_div, abs_of_pos (by positivity : (0 : ℚ) < 2 ^ k)]
  push_cast
  rfl

theorem OnGrid.mid {k : Nat} {g g' : ℚ} (h : OnGrid k g) (h' : OnGrid k g') : OnGrid (k + 1) ((g + g') / 2) := by
  obtain ⟨z, rfl⟩ := h
  obtain ⟨z', rfl⟩ := h'
  refine ⟨z + z', ?_⟩
  push_cast
  rw [pow_succ]
  field_simp

theorem OnGrid.finer {k : Nat} {g : ℚ} (h : OnGrid k g) (j : Nat) : OnGrid (k + j) g := by
  obtain ⟨z, rfl⟩ := h
  refine ⟨z * 2 ^ j, ?_⟩
  push_cast
  rw [pow_add]
  field_simp

theorem OnGrid.neg {k : Nat} {g : ℚ} (h : OnGrid k g) : OnGrid k (-g) := by
  obtain ⟨z, rfl⟩ := h
  exact ⟨-z, by push_cast; ring⟩

theorem OnGrid.zero (k : Nat) : OnGrid k 0 := ⟨0, by simp⟩

theorem onGrid_zpow {k : Nat} (m : Int) {e : Int} (h : -(k : Int) ≤ e) : OnGrid k (m * 2 ^ e) := by
  refine ⟨m * 2 ^ (e + k).toNat, ?_⟩
  have : (2 : ℚ) ^ e = 2 ^ (e + k).toNat / 2 ^ k := by
    rw [← zpow_natCast, ← zpow_natCast, ← zpow_sub₀ (by norm_num), Int.toNat_of_nonneg (by omega)]
    congr 1
    ring
  push_cast
  rw [this]
  ring

theorem sgn_cast (s : Bool) : ∃ t : Int, sgn s = t := by
  cases s
  · exact ⟨1, by simp [sgn]⟩
  · exact ⟨-1, by simp [sgn]⟩

/-- The numbers of a format are multiples of its least subnormal. -/
theorem finite_onGrid {y : ℚ} (h : f.Finite y) : OnGrid (f.bias.toNat + f.mb) y := by
  have hb := bias_nonneg f
  rcases h with rfl | ⟨s, E, M, hF, hv⟩
  · exact .zero _
  · have hi : f.ieeeValue s E M = .num y := by
      unfold Fmt.value at hv
      split at hv
      · exact hv
      · unfold Fmt.flushValue at hv
        revert hv
        cases hd : f.ieeeValue s E M with
        | nan => intro hv; cases hv
        | inf => intro hv; cases hv
        | zero => intro hv; cases hv
        | num x => dsimp only; split <;> intro hv <;> [cases hv; exact hv]
    unfold Fmt.ieeeValue at hi
    obtain ⟨t, ht⟩ := sgn_cast s
    rw [show (2 ^ (f.eb - 1) - 1 : Int) = f.bias from rfl] at hi
    dsimp only at hi
    split at hi
    · split at hi <;> cases hi
    split at hi
    · split at hi
      · cases hi
      · injection hi with hi
        have := onGrid_zpow (k := f.bias.toNat + f.mb) (t * M) (e := 1 - f.bias - f.mb) (by push_cast; omega)
        have e : y = (((t * M : Int) : ℚ)) * 2 ^ (1 - f.bias - f.mb) := by
          rw [← hi, ht, zpow_sub₀ (by norm_num : (2 : ℚ) ≠ 0) (1 - f.bias), zpow_natCast]
          push_cast
          ring
        rwa [e]
    · rename_i hE
      injection hi with hi
      have := onGrid_zpow (k := f.bias.toNat + f.mb) (t * (2 ^ f.mb + M)) (e := E - f.bias - f.mb) (by push_cast; omega)
      have e : y = (((t * (2 ^ f.mb + M) : Int) : ℚ)) * 2 ^ ((E : Int) - f.bias - f.mb) := by
        rw [← hi, ht, zpow_sub₀ (by norm_num : (2 : ℚ) ≠ 0) (E - f.bias), zpow_natCast]
        push_cast
        field_simp
      rwa [e]

theorem threshold_grid (f : Fmt) : OnGrid (f.bias.toNat + f.mb + 1) f.overflowThreshold := by
  have hb := bias_nonneg f
  have := onGrid_zpow (k := f.bias.toNat + f.mb + 1) (2 ^ (f.mb + 2) - 1) (e := f.bias - (f.mb + 1 : Nat))
    (by push_cast; omega)
  have e : f.overflowThreshold = ((2 ^ (f.mb + 2) - 1 : Int) : ℚ) * 2 ^ (f.bias - (f.mb + 1 : Nat)) := by
    unfold Fmt.overflowThreshold
    rw [show (2 ^ (f.eb - 1) - 1 : Int) = f.bias from rfl, zpow_sub₀ (by norm_num : (2 : ℚ) ≠ 0), zpow_natCast]
    push_cast
    have h : (2 : ℚ) ^ (f.mb + 2) = 2 * 2 ^ (f.mb + 1) := by rw [pow_succ' _ (f.mb + 1)]
    rw [h]
    field_simp
  rwa [e]

/-- Which of two points is nearer. -/
theorem near_iff {K : Type} [Field K] [LinearOrder K] [IsStrictOrderedRing K] (x y y' : K) :
    |x - y| ≤ |x - y'| ↔ y = y' ∨ (y < y' ∧ x ≤ (y + y') / 2) ∨ (y' < y ∧ (y + y') / 2 ≤ x) := by
  rw [← sq_le_sq]
  have e : (x - y') ^ 2 - (x - y) ^ 2 = 2 * (y' - y) * ((y + y') / 2 - x) := by field_simp; ring
  constructor
  · intro h
    have h : 0 ≤ 2 * (y' - y) * ((y + y') / 2 - x) := by rw [← e]; linarith
    rcases lt_trichotomy y y' with hl | rfl | hl
    · exact .inr (.inl ⟨hl, by
        by_contra hc
        have : 2 * (y' - y) * ((y + y') / 2 - x) < 0 := mul_neg_of_pos_of_neg (by linarith) (by linarith)
        linarith⟩)
    · exact .inl rfl
    · exact .inr (.inr ⟨hl, by
        by_contra hc
        have : 2 * (y' - y) * ((y + y') / 2 - x) < 0 := mul_neg_of_neg_of_pos (by linarith) (by linarith)
        linarith⟩)
  · intro h
    have : 0 ≤ 2 * (y' - y) * ((y + y') / 2 - x) := by
      rcases h with rfl | ⟨hl, hx⟩ | ⟨hl, hx⟩
      · simp
      · exact mul_nonneg (by linarith) (by linarith)
      · exact mul_nonneg_of_nonpos_of_nonpos (by linarith) (by linarith)
    linarith

section
variable {x' : ℚ} {x : ℝ} {d : Datum}

theorem SamePlace.near {k : Nat} (h : SamePlace (k + 1) x' x) {y y' : ℚ} (hy : OnGrid k y) (hy' : OnGrid k y') :
    |x' - y| ≤ |x' - y'| ↔ |x - y| ≤ |x - y'| := by
  rw [near_iff, near_iff]
  have hm := hy.mid hy'
  have c : (((y + y') / 2 : ℚ) : ℝ) = ((y : ℝ) + y') / 2 := by push_cast; rfl
  rw [h.le _ hm, h.ge _ hm, c]
  simp only [Rat.cast_inj, Rat.cast_lt]

variable (h : SamePlace (f.bias.toNat + f.mb + 1) x' x)
include h

theorem isRTN_real (hd : f.IsRTN x' d) : f.IsRTNReal x d := by
  have g : ∀ {y}, f.Finite y → OnGrid (f.bias.toNat + f.mb + 1) y := fun hy => (finite_onGrid hy).finer 1
  rcases hd with ⟨y, h1, h2, h3, h4⟩ | ⟨h1, h2⟩
  · exact .inl ⟨y, h1, h2, (h.le y (g h2)).1 h3, fun y' hy' hl => h4 y' hy' ((h.le y' (g hy')).2 hl)⟩
  · exact .inr ⟨h1, fun y' hy' => (h.gt (g hy')).1 (h2 y' hy')⟩

theorem isRTP_real (hd : f.IsRTP x' d) : f.IsRTPReal x d := by
  have g : ∀ {y}, f.Finite y → OnGrid (f.bias.toNat + f.mb + 1) y := fun hy => (finite_onGrid hy).finer 1
  rcases hd with ⟨y, h1, h2, h3, h4⟩ | ⟨h1, h2⟩
  · exact .inl ⟨y, h1, h2, (h.ge y (g h2)).1 h3, fun y' hy' hl => h4 y' hy' ((h.ge y' (g hy')).2 hl)⟩
  · exact .inr ⟨h1, fun y' hy' => (h.lt (g hy')).1 (h2 y' hy')⟩

theorem isRTZ_real (h0 : 0 < x') (hx : 0 < x) (hd : f.IsRTZ x' d) : f.IsRTZReal x d := by
  have g : ∀ {y}, f.Finite y → OnGrid (f.bias.toNat + f.mb + 1) |y| := fun hy => ((finite_onGrid hy).finer 1).abs
  obtain ⟨y, h1, h2, h3, h4, h5⟩ := hd
  rw [abs_of_pos h0] at h3 h5
  have hy : 0 ≤ y := nonneg_of_mul_nonneg_right h4 h0
  refine ⟨y, h1, h2, ?_, mul_nonneg hx.le (by exact_mod_cast hy), fun y' hy' hl => ?_⟩
  · rw [abs_of_pos hx, ← Rat.cast_abs]; exact (h.le _ (g h2)).1 h3
  · rw [abs_of_pos hx, ← Rat.cast_abs] at hl
    exact h5 y' hy' ((h.le _ (g hy')).2 hl)

theorem isAway_real (h0 : 0 < x') (hx : 0 < x) (hd : f.IsAway x' d) : f.IsAwayReal x d := by
  have g : ∀ {y}, f.Finite y → OnGrid (f.bias.toNat + f.mb + 1) |y| := fun hy => ((finite_onGrid hy).finer 1).abs
  rcases hd with ⟨y, h1, h2, h3, h4, h5⟩ | ⟨h1, h2⟩
  · rw [abs_of_pos h0] at h3 h5
    have hy : 0 ≤ y := nonneg_of_mul_nonneg_right h4 h0
    refine .inl ⟨y, h1, h2, ?_, mul_nonneg hx.le (by exact_mod_cast hy), fun y' hy' hl => ?_⟩
    · rw [abs_of_pos hx, ← Rat.cast_abs]; exact (h.ge _ (g h2)).1 h3
    · rw [abs_of_pos hx, ← Rat.cast_abs] at hl
      exact h5 y' hy' ((h.ge _ (g hy')).2 hl)
  · refine .inr ⟨_, h1, ?_, fun y' hy' => ?_⟩
    · simp only [decide_eq_true_eq]
      exact ⟨fun h => absurd h (by linarith), fun h => absurd h (by linarith)⟩
    · have := h2 y' hy'
      rw [abs_of_pos h0] at this
      rw [abs_of_pos hx, ← Rat.cast_abs]
      exact (h.lt (g hy')).1 this

theorem isRNE_real (h0 : 0 < x') (hx : 0 < x) (hd : f.IsRNE x' d) : f.IsRNEReal x d := by
  rcases hd with ⟨y, h1, h2, h3, h4, h5⟩ | ⟨h1, h2⟩
  · refine .inl ⟨y, h1, h2, ?_, fun y' hy' => ?_, ?_⟩
    · rw [abs_of_pos hx]
      rw [abs_of_pos h0] at h3
      exact (h.gt (threshold_grid f)).1 h3
    · exact (h.near (finite_onGrid h2) (finite_onGrid hy')).1 (h4 y' hy')
    · rintro ⟨y', hy', hne, he⟩
      refine h5 ⟨y', hy', hne, le_antisymm ?_ (h4 y' hy')⟩
      exact (h.near (finite_onGrid hy') (finite_onGrid h2)).2 he.le
  · refine .inr ⟨_, h1, ?_, ?_⟩
    · simp only [decide_eq_true_eq]
      exact ⟨fun h => absurd h (by linarith), fun h => absurd h (by linarith)⟩
    · rw [abs_of_pos hx]
      rw [abs_of_pos h0] at h2
      exact (h.le _ (threshold_grid f)).1 h2
end

/-! ### The root -/

theorem sqrtAt_pos {k : Nat} {x : ℚ} (hx : 0 < x) : 0 < sqrtAt k x := by
  have hy : 0 < x * 4 ^ k := by positivity
  unfold sqrtAt
  dsimp only
  split
  · rename_i h
    have : (Nat.sqrt ⌊x * 4 ^ k⌋.toNat : ℚ) ≠ 0 := by
      intro h0; rw [h0] at h; linarith
    have : (0 : ℚ) < (Nat.sqrt ⌊x * 4 ^ k⌋.toNat : ℚ) := lt_of_le_of_ne (Nat.cast_nonneg _) this.symm
    positivity
  · positivity

theorem samePlace_sqrt (k : Nat) {x : ℚ} (hx : 0 < x) : SamePlace k (sqrtAt k x) (Real.sqrt x) := by
  have hk : (0 : ℚ) < 2 ^ k := by positivity
  have hkr : (0 : ℝ) < 2 ^ k := by positivity
  set y : ℚ := x * 4 ^ k with hy
  have hy0 : 0 < y := by positivity
  set q : Nat := Nat.sqrt ⌊y⌋.toNat with hq
  have hfl : 0 ≤ ⌊y⌋ := Int.floor_nonneg.2 hy0.le
  have h1 : (q : ℚ) * q ≤ y := by
    have h : q * q ≤ ⌊y⌋.toNat := Nat.sqrt_le _
    have h : (q * q : Int) ≤ ⌊y⌋ := by
      have : ((q * q : Nat) : Int) ≤ (⌊y⌋.toNat : Int) := by exact_mod_cast h
      rw [Int.toNat_of_nonneg hfl] at this
      exact_mod_cast this
    have h := Int.le_floor.1 h
    exact_mod_cast h
  have h2 : y < (q + 1 : ℚ) * (q + 1) := by
    have h : ⌊y⌋.toNat < (q + 1) * (q + 1) := Nat.lt_succ_sqrt _
    have h : ⌊y⌋ < ((q + 1) * (q + 1) : Int) := by
      have : (⌊y⌋.toNat : Int) < (((q + 1) * (q + 1) : Nat) : Int) := by exact_mod_cast h
      rw [Int.toNat_of_nonneg hfl] at this
      exact_mod_cast this
    have h := Int.floor_lt.1 h
    exact_mod_cast h
  -- the root in units of `2^-k`
  have hs : Real.sqrt x * 2 ^ k = Real.sqrt y := by
    rw [hy]
    push_cast
    rw [Real.sqrt_mul (by exact_mod_cast hx.le), show (4 : ℝ) ^ k = (2 ^ k) ^ 2 by rw [← pow_mul, mul_comm, pow_mul]; norm_num,
      Real.sqrt_sq hkr.le]
  have hyr : (0 : ℝ) < y := by exact_mod_cast hy0
  have l1 : (q : ℝ) ≤ Real.sqrt y := by
    apply Real.le_sqrt_of_sq_le
    rw [sq]; exact_mod_cast h1
  have l2 : Real.sqrt y < q + 1 := by
    rw [Real.sqrt_lt' (by positivity), sq]; exact_mod_cast h2
  have r0 : ∀ z : Int, ((z / 2 ^ k : ℚ) : ℝ) ≤ Real.sqrt x ↔ (z : ℝ) ≤ Real.sqrt y := fun z => by
    push_cast
    rw [← hs, div_le_iff₀ hkr]
  have r1 : ∀ z : Int, Real.sqrt x ≤ ((z / 2 ^ k : ℚ) : ℝ) ↔ Real.sqrt y ≤ (z : ℝ) := fun z => by
    push_cast
    rw [← hs, le_div_iff₀ hkr]
  by_cases he : (q : ℚ) * q = y
  · have hv : sqrtAt k x = q / 2 ^ k := by unfold sqrtAt; exact if_pos he
    have hr : Real.sqrt y = q := by
      rw [← he]; push_cast; rw [Real.sqrt_mul_self (Nat.cast_nonneg _)]
    rw [hv]
    constructor
    · rintro g ⟨z, rfl⟩
      rw [r0, hr, div_le_div_iff_of_pos_right hk]
      exact ⟨fun h => by exact_mod_cast h, fun h => by exact_mod_cast h⟩
    · rintro g ⟨z, rfl⟩
      rw [r1, hr, div_le_div_iff_of_pos_right hk]
      exact ⟨fun h => by exact_mod_cast h, fun h => by exact_mod_cast h⟩
  · have hv : sqrtAt k x = (q + 1 / 2) / 2 ^ k := by unfold sqrtAt; exact if_neg he
    have l1' : (q : ℝ) < Real.sqrt y := by
      apply Real.lt_sqrt_of_sq_lt
      rw [sq]; exact_mod_cast lt_of_le_of_ne h1 he
    rw [hv]
    constructor
    · rintro g ⟨z, rfl⟩
      rw [r0, div_le_div_iff_of_pos_right hk]
      constructor
      · intro h
        have : z ≤ q := by
          by_contra hc
          have : (q : Int) + 1 ≤ z := by omega
          have : (q : ℚ) + 1 ≤ z := by exact_mod_cast this
          linarith
        have : (z : ℝ) ≤ q := by exact_mod_cast this
        linarith
      · intro h
        have : z ≤ q := by
          by_contra hc
          have : (q : Int) + 1 ≤ z := by omega
          have : (q : ℝ) + 1 ≤ z := by exact_mod_cast this
          linarith
        have : (z : ℚ) ≤ q := by exact_mod_cast this
        linarith
    · rintro g ⟨z, rfl⟩
      rw [r1, div_le_div_iff_of_pos_right hk]
      constructor
      · intro h
        have : (q : Int) + 1 ≤ z := by
          by_contra hc
          have : z ≤ q := by omega
          have : (z : ℚ) ≤ q := by exact_mod_cast this
          linarith
        have : (q : ℝ) + 1 ≤ z := by exact_mod_cast this
        linarith
      · intro h
        have : (q : Int) + 1 ≤ z := by
          by_contra hc
          have : z ≤ q := by omega
          have : (z : ℝ) ≤ q := by exact_mod_cast this
          linarith
        have : (q : ℚ) + 1 ≤ z := by exact_mod_cast this
        linarith

theorem SamePlace.coarser {k j : Nat} {x' : ℚ} {x : ℝ} (h : SamePlace (k + j) x' x) : SamePlace k x' x :=
  ⟨fun g hg => h.le g (hg.finer j), fun g hg => h.ge g (hg.finer j)⟩

theorem places_eq (f : Fmt) : f.ctx.places = f.bias.toNat + f.mb + 1 + 1 := by
  have := bias_nonneg f
  have h : f.ctx.emax = f.bias + 1 := by rw [ctx_emax]
  unfold Ctx.places
  rw [h, ctx_p]
  omega

theorem sqrtAt_mono {k : Nat} {a b : ℚ} (ha : 0 < a) (h : a ≤ b) : sqrtAt k a ≤ sqrtAt k b := by
  have hk : (0 : ℚ) < 2 ^ k := by positivity
  have hy : a * 4 ^ k ≤ b * 4 ^ k := mul_le_mul_of_nonneg_right h (by positivity)
  have hq : Nat.sqrt ⌊a * 4 ^ k⌋.toNat ≤ Nat.sqrt ⌊b * 4 ^ k⌋.toNat :=
    Nat.sqrt_le_sqrt (Int.toNat_le_toNat (Int.floor_le_floor hy))
  have hlow : ((Nat.sqrt ⌊a * 4 ^ k⌋.toNat : ℚ)) * Nat.sqrt ⌊a * 4 ^ k⌋.toNat ≤ a * 4 ^ k := by
    have hfl : 0 ≤ ⌊a * 4 ^ k⌋ := Int.floor_nonneg.2 (by positivity)
    have h : Nat.sqrt ⌊a * 4 ^ k⌋.toNat * Nat.sqrt ⌊a * 4 ^ k⌋.toNat ≤ ⌊a * 4 ^ k⌋.toNat := Nat.sqrt_le _
    have h : ((Nat.sqrt ⌊a * 4 ^ k⌋.toNat * Nat.sqrt ⌊a * 4 ^ k⌋.toNat : Nat) : Int) ≤ ⌊a * 4 ^ k⌋ := by omega
    have h := Int.le_floor.1 h
    exact_mod_cast h
  unfold sqrtAt
  dsimp only
  generalize Nat.sqrt ⌊a * 4 ^ k⌋.toNat = p at *
  generalize Nat.sqrt ⌊b * 4 ^ k⌋.toNat = q at *
  rcases hq.eq_or_lt with rfl | hlt
  · by_cases e1 : (p : ℚ) * p = a * 4 ^ k
    · rw [if_pos e1]
      split
      · exact le_rfl
      · rw [div_le_div_iff_of_pos_right hk]; linarith
    · have e2 : ¬ (p : ℚ) * p = b * 4 ^ k := fun e2 => e1 (le_antisymm hlow (by rw [e2]; exact hy))
      rw [if_neg e1, if_neg e2]
  · have h1 : (p : ℚ) + 1 ≤ q := by exact_mod_cast hlt
    split <;> split <;> rw [div_le_div_iff_of_pos_right hk] <;> linarith

theorem samePlace_places (f : Fmt) {x : ℚ} (hx : 0 < x) :
    SamePlace (f.bias.toNat + f.mb + 1) (sqrtAt f.ctx.places x) (Real.sqrt x) := by
  rw [places_eq]
  exact (samePlace_sqrt _ hx).coarser

end HW.Fp
