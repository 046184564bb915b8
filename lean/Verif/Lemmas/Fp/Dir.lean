import Verif.Lemmas.Fp.Round

namespace HW.Fp

section
variable {c : Ctx} {x : ℚ}

theorem ofRat_ne_zero (hx : x ≠ 0) (z : Bool) :
    c.ofRat x z = if roundMag c.round (decide (x < 0)) (|x| / 2 ^ quantum c |x|) = 0 then .zero (decide (x < 0))
      else if (2 : ℚ) ^ c.emax ≤ roundMag c.round (decide (x < 0)) (|x| / 2 ^ quantum c |x|) * 2 ^ quantum c |x|
        then overflow c (decide (x < 0))
      else normalize c.precision (decide (x < 0)) (roundMag c.round (decide (x < 0)) (|x| / 2 ^ quantum c |x|))
        (quantum c |x|) := by
  unfold Ctx.ofRat
  rw [if_neg hx]

theorem overflow_trunc {neg : Bool} (hd : dir c.round neg = .trunc) :
    overflow c neg = .fin neg (2 ^ c.precision - 1) (c.emax - c.precision) := by rw [overflow_eq, if_pos hd]

theorem overflow_inf {neg : Bool} (hd : dir c.round neg ≠ .trunc) : overflow c neg = .inf neg := by
  rw [overflow_eq, if_neg hd]

/-- `a` cut to its quantum, and one more, bracket `a`. -/
theorem bracket {a : ℚ} (ha : 0 < a) :
    (⌊a / 2 ^ quantum c a⌋.toNat : ℚ) * 2 ^ quantum c a ≤ a ∧
    a < ((⌊a / 2 ^ quantum c a⌋.toNat : ℚ) + 1) * 2 ^ quantum c a := by
  have hz := two_zpow_pos (quantum c a)
  obtain ⟨h1, h2⟩ := floor_toNat (div_pos ha hz).le
  exact ⟨by rwa [← le_div_iff₀ hz], by rwa [← div_lt_iff₀ hz]⟩

/-- A magnitude beyond the exponent range stays so when cut. -/
theorem huge {a : ℚ} (hp : 0 < c.precision) (hr : c.emin ≤ c.emax) (h : (2 : ℚ) ^ c.emax ≤ a) :
    (2 : ℚ) ^ c.emax ≤ ⌊a / 2 ^ quantum c a⌋.toNat * 2 ^ quantum c a := by
  have ha : 0 < a := lt_of_lt_of_le (two_zpow_pos _) h
  have hl := lt_of_zpow (lt_of_le_of_lt h (log_hi a))
  have hqE : quantum c a ≤ Int.log 2 a := by rw [quantum_eq]; split <;> omega
  have : 2 ^ (Int.log 2 a - quantum c a).toNat ≤ ⌊a / 2 ^ quantum c a⌋.toNat := by
    apply le_floor_toNat (div_pos ha (two_zpow_pos _)).le
    rw [le_div_iff₀ (two_zpow_pos _), ← zpow_mul_nat hqE]
    exact log_lo ha
  calc (2 : ℚ) ^ c.emax ≤ 2 ^ Int.log 2 a := zpow_le_of (by omega)
    _ = _ := zpow_mul_nat hqE
    _ ≤ _ := mul_le_mul_of_nonneg_right (by exact_mod_cast this) (two_zpow_pos _).le

theorem quantum_le {a : ℚ} (hc : c.Good) (ha : 0 < a) (h : a < 2 ^ c.emax) :
    quantum c a ≤ c.emax - c.precision ∨ (a < 2 ^ (c.emin - 1) ∧ quantum c a = c.emin - 1) := by
  have hl := lt_of_zpow (lt_of_le_of_lt (log_lo ha) h)
  have hr := hc.range
  have hp := hc.p
  rw [quantum_eq]
  by_cases hs : c.subnormalize = true
  · have := hc.sub hs
    rw [if_pos (.inl hs)]; left; omega
  · by_cases h1 : Int.log 2 a + 1 < c.emin
    · rw [if_pos (.inr h1)]
      right
      exact ⟨(log_hi a).trans_le (zpow_le_of (by omega)), by omega⟩
    · rw [if_neg (by tauto)]; left; omega

/-- Rounding toward zero: the largest number of the context that is not larger. -/
theorem ofRat_trunc (hc : c.Good) (hx : x ≠ 0) (hd : dir c.round (decide (x < 0)) = .trunc) (z : Bool) :
    (c.ofRat x z = .zero (decide (x < 0)) ∧ ∀ m e, c.Norm m e → |x| < m * 2 ^ e) ∨
    ∃ m e, c.ofRat x z = .fin (decide (x < 0)) m e ∧ c.Norm m e ∧ (m : ℚ) * 2 ^ e ≤ |x| ∧
      ∀ m' e', c.Norm m' e' → (m' : ℚ) * 2 ^ e' ≤ |x| → (m' : ℚ) * 2 ^ e' ≤ m * 2 ^ e := by
  have ha : 0 < |x| := abs_pos.mpr hx
  rw [ofRat_ne_zero hx, overflow_trunc hd]
  generalize decide (x < 0) = neg at *
  generalize |x| = a at *
  have hz := two_zpow_pos (quantum c a)
  have hr : roundMag c.round neg (a / 2 ^ quantum c a) = ⌊a / 2 ^ quantum c a⌋.toNat := by
    rcases roundMag_cases c.round neg (div_pos ha hz).le with h | ⟨_, h | h | h | h | h⟩
    · exact h.2
    · exact h.2
    all_goals (rw [hd] at h; exact absurd h.1 (by decide))
  rw [hr]
  have hbr := bracket (c := c) ha
  have hpow := (floor_le_pow (c := c) (a := a)).resolve_right (not_le.mpr ha)
  have hnl := fun {m e} (h : c.Norm m e) => norm_le h ha
  split
  · rename_i h0
    left
    refine ⟨rfl, fun m e h => ?_⟩
    by_contra hle
    have := hnl h (not_lt.mp hle)
    rw [h0] at this
    have h2 := mul_pos (show (0 : ℚ) < m by exact_mod_cast h.sig.pos) (two_zpow_pos e)
    simp at this
    linarith
  · rename_i h0
    right
    split
    · rename_i h1
      refine ⟨_, _, rfl, norm_max hc, ?_, fun m' e' h' _ => norm_le_max h'⟩
      exact ((norm_max hc).sig.bounds _).2.le.trans
        ((by rw [sub_add_cancel]) : (2 : ℚ) ^ (c.emax - c.precision + c.precision) ≤ 2 ^ c.emax) |>.trans (h1.trans hbr.1)
    · rename_i h1
      obtain ⟨m, e, h2, h3, h4⟩ := norm_of_grid hc.p ha (by omega) (by omega) le_rfl (not_le.mp h1) neg
      exact ⟨m, e, h2, h3, h4 ▸ hbr.1, fun m' e' h' hle => h4 ▸ hnl h' hle⟩

/-- Rounding away from zero: the least number of the context that is not smaller. -/
theorem ofRat_away (hc : c.Good) (hx : x ≠ 0) (hd : dir c.round (decide (x < 0)) = .away) (z : Bool) :
    (c.ofRat x z = .inf (decide (x < 0)) ∧ ∀ m e, c.Norm m e → (m : ℚ) * 2 ^ e < |x|) ∨
    ∃ m e, c.ofRat x z = .fin (decide (x < 0)) m e ∧ c.Norm m e ∧ |x| ≤ (m : ℚ) * 2 ^ e ∧
      ∀ m' e', c.Norm m' e' → |x| ≤ (m' : ℚ) * 2 ^ e' → (m : ℚ) * 2 ^ e ≤ m' * 2 ^ e' := by
  have ha : 0 < |x| := abs_pos.mpr hx
  rw [ofRat_ne_zero hx, overflow_inf (by rw [hd]; decide)]
  generalize decide (x < 0) = neg at *
  generalize |x| = a at *
  have hz := two_zpow_pos (quantum c a)
  have hbr := bracket (c := c) ha
  have hpow := (floor_le_pow (c := c) (a := a)).resolve_right (not_le.mpr ha)
  have hr : ∃ r : Nat, roundMag c.round neg (a / 2 ^ quantum c a) = r ∧ ⌊a / 2 ^ quantum c a⌋.toNat ≤ r ∧
      r ≤ 2 ^ c.precision ∧ a ≤ r * 2 ^ quantum c a ∧ (r : ℚ) * 2 ^ quantum c a - 2 ^ quantum c a < a := by
    rcases roundMag_cases c.round neg (div_pos ha hz).le with h | ⟨h0, h | h | h | h | h⟩
    · refine ⟨_, h.2, le_rfl, by omega, ?_, by linarith [hbr.1]⟩
      rw [← div_le_iff₀ hz]; exact h.1.le
    · rw [hd] at h; exact absurd h.1 (by decide)
    · refine ⟨_, h.2, by omega, by omega, ?_, ?_⟩
      · push_cast; exact hbr.2.le
      · push_cast
        rw [lt_div_iff₀ hz] at h0
        linarith
    all_goals (rw [hd] at h; exact absurd h.1 (by decide))
  obtain ⟨r, hr, hlo, hhi, h1, h2⟩ := hr
  rw [hr]
  have hr0 : 0 < r := by
    rcases Nat.eq_zero_or_pos r with rfl | h
    · simp at h1; linarith
    · exact h
  rw [if_neg hr0.ne']
  have hng := fun {m e} (h : c.Norm m e) (h' : a ≤ m * 2 ^ e) => norm_ge h ha h' h2
  split
  · rename_i h3
    left
    refine ⟨rfl, fun m e h => ?_⟩
    by_contra hle
    have h4 := hng h (not_lt.mp hle)
    have := (h.sig.bounds e).2.trans_le (zpow_le_of h.hi)
    linarith
  · rename_i h3
    right
    obtain ⟨m, e, h5, h6, h7⟩ := norm_of_grid hc.p ha hr0 hhi hlo (not_le.mp h3) neg
    exact ⟨m, e, h5, h6, h7 ▸ h1, fun m' e' h' hle => h7 ▸ hng h' hle⟩

/-- The last place of a number of the context is even. -/
def Ctx.EvenLast (c : Ctx) (m : Nat) (e : Int) : Prop :=
  if c.subnormalize = true ∧ e < c.emin - 1 then ∃ k : Nat, (m : ℚ) * 2 ^ e = (2 * k : Nat) * 2 ^ (c.emin - 1)
  else 2 ∣ m

theorem evenLast {a : ℚ} (hp : 2 ≤ c.precision) (ha : 0 < a) {r m : Nat} {e : Int} (hr : 0 < r) (h2r : 2 ∣ r)
    (hlo : ⌊a / 2 ^ quantum c a⌋.toNat ≤ r) (hlo' : r ≤ ⌊a / 2 ^ quantum c a⌋.toNat + 1) (hr' : r ≤ 2 ^ c.precision)
    (hn : c.Norm m e) (h : (m : ℚ) * 2 ^ e = r * 2 ^ quantum c a) : c.EvenLast m e := by
  have hqs : c.subnormalize = true → c.emin - 1 ≤ quantum c a := fun hs => by
    rw [quantum_eq, if_pos (.inl hs)]; omega
  have hpp : 2 ^ (c.precision - 1) * 2 = 2 ^ c.precision := by
    rw [← pow_succ]; congr 1; omega
  have hpe : 2 ∣ 2 ^ (c.precision - 1) := dvd_pow_self 2 (by omega)
  unfold Ctx.EvenLast
  rcases lt_trichotomy r (2 ^ c.precision) with hlt | heq | hgt
  · rcases Nat.lt_or_ge r (2 ^ (c.precision - 1)) with h1 | h1
    · -- below the normal range
      have hq : quantum c a = c.emin - 1 ∧ (c.subnormalize = true ∨ Int.log 2 a + 1 < c.emin) := by
        by_cases hcond : c.subnormalize = true ∨ Int.log 2 a + 1 < c.emin
        · refine ⟨?_, hcond⟩
          by_contra hne
          have hqe : quantum c a = Int.log 2 a + 1 - c.precision := by
            rw [quantum_eq, if_pos hcond] at hne ⊢; omega
          have hqE : quantum c a ≤ Int.log 2 a := by omega
          have : 2 ^ (Int.log 2 a - quantum c a).toNat ≤ ⌊a / 2 ^ quantum c a⌋.toNat := by
            apply le_floor_toNat (div_pos ha (two_zpow_pos _)).le
            rw [le_div_iff₀ (two_zpow_pos _), ← zpow_mul_nat hqE]
            exact log_lo ha
          rw [show (Int.log 2 a - quantum c a).toNat = c.precision - 1 by omega] at this
          omega
        · exfalso
          have hqe : quantum c a = Int.log 2 a + 1 - c.precision := by rw [quantum_eq, if_neg hcond]
          have hqE : quantum c a ≤ Int.log 2 a := by omega
          have : 2 ^ (Int.log 2 a - quantum c a).toNat ≤ ⌊a / 2 ^ quantum c a⌋.toNat := by
            apply le_floor_toNat (div_pos ha (two_zpow_pos _)).le
            rw [le_div_iff₀ (two_zpow_pos _), ← zpow_mul_nat hqE]
            exact log_lo ha
          rw [show (Int.log 2 a - quantum c a).toNat = c.precision - 1 by omega] at this
          omega
      obtain ⟨hq, hcond⟩ := hq
      by_cases hs : c.subnormalize = true
      · rw [if_pos]
        · obtain ⟨k, rfl⟩ := h2r
          exact ⟨k, by rw [h, hq]⟩
        · refine ⟨hs, ?_⟩
          rw [← hq]
          by_contra hge
          rw [not_lt] at hge
          have hm : r < m := lt_of_lt_of_le h1 hn.sig.1
          have h3 : (r : ℚ) * 2 ^ quantum c a < m * 2 ^ e :=
            calc (r : ℚ) * 2 ^ quantum c a < m * 2 ^ quantum c a :=
                  mul_lt_mul_of_pos_right (by exact_mod_cast hm) (two_zpow_pos _)
              _ ≤ _ := mul_le_mul_of_nonneg_left (zpow_le_of hge) (by positivity)
          linarith
      · exfalso
        have hE := hcond.resolve_left hs
        have h3 : a < 2 ^ quantum c a := by
          rw [hq]; exact (log_hi a).trans_le (zpow_le_of (by omega))
        have h4 := (floor_toNat (div_pos ha (two_zpow_pos (quantum c a))).le).1
        have h5 : a / 2 ^ quantum c a < 1 := by rwa [div_lt_one (two_zpow_pos _)]
        have h6 : ⌊a / 2 ^ quantum c a⌋.toNat < 1 := by exact_mod_cast lt_of_le_of_lt h4 h5
        omega
    · obtain ⟨e1, e2⟩ := hn.sig.unique ⟨h1, hlt⟩ h
      rw [if_neg]
      · rw [e1]; exact h2r
      · rintro ⟨hs, hlt'⟩
        have := hqs hs
        omega
  · have hsig : Sig c.precision (2 ^ (c.precision - 1)) := ⟨le_rfl, by omega⟩
    have h' : (m : ℚ) * 2 ^ e = (2 ^ (c.precision - 1) : Nat) * 2 ^ (quantum c a + 1) := by
      rw [h, heq, zpow_add', ← hpp]; push_cast; ring
    obtain ⟨e1, e2⟩ := hn.sig.unique hsig h'
    rw [if_neg]
    · rw [e1]; exact hpe
    · rintro ⟨hs, hlt'⟩
      have := hqs hs
      omega
  · omega

/-- From the overflow threshold on, a magnitude in range is in the last half unit below `2^emax`. -/
theorem near_max {a : ℚ} (hc : c.Good) (h : (2 : ℚ) ^ c.emax - 2 ^ (c.emax - c.precision - 1) ≤ a) (h' : a < 2 ^ c.emax) :
    quantum c a = c.emax - c.precision ∧ ⌊a / 2 ^ quantum c a⌋.toNat = 2 ^ c.precision - 1 ∧
      (⌊a / 2 ^ quantum c a⌋.toNat : ℚ) + 1 / 2 ≤ a / 2 ^ quantum c a := by
  have hp := hc.p
  have hr := hc.range
  have hge : (2 : ℚ) ^ (c.emax - 1) ≤ a := by
    have h1 : (2 : ℚ) ^ (c.emax - c.precision - 1) ≤ 2 ^ (c.emax - 1) := zpow_le_of (by omega)
    have h2 : (2 : ℚ) ^ c.emax = 2 * 2 ^ (c.emax - 1) := by
      rw [show c.emax = 1 + (c.emax - 1) by ring, zpow_add', zpow_one]; ring_nf
    linarith
  have ha : 0 < a := lt_of_lt_of_le (two_zpow_pos _) hge
  have hlog : Int.log 2 a = c.emax - 1 := log_unique hge (by rwa [sub_add_cancel])
  have hq : quantum c a = c.emax - c.precision := by
    rw [quantum_eq, hlog]
    by_cases hs : c.subnormalize = true
    · have := hc.sub hs
      rw [if_pos (.inl hs)]; omega
    · rw [if_neg (by rintro (h | h); exact hs h; omega)]; omega
  have hz := two_zpow_pos (c.emax - c.precision)
  have e1 : (2 : ℚ) ^ c.emax = (2 ^ c.precision : Nat) * 2 ^ (c.emax - c.precision) := by
    rw [← zpow_nat, ← zpow_add']; congr 1; ring
  have e2 : (2 : ℚ) ^ (c.emax - c.precision) = 2 * 2 ^ (c.emax - c.precision - 1) := by
    rw [show c.emax - c.precision = 1 + (c.emax - c.precision - 1) by ring, zpow_add', zpow_one]; ring_nf
  have ht : ((2 ^ c.precision : Nat) : ℚ) - 1 / 2 ≤ a / 2 ^ (c.emax - c.precision) := by
    rw [le_div_iff₀ hz, sub_mul, ← e1]; linarith
  have hpos : 0 < 2 ^ c.precision := by positivity
  have hcast : (((2 ^ c.precision - 1 : Nat) : ℚ)) = ((2 ^ c.precision : Nat) : ℚ) - 1 := by
    rw [Nat.cast_sub hpos]; simp
  have hfl : ⌊a / 2 ^ quantum c a⌋.toNat = 2 ^ c.precision - 1 := by
    have h1 := (floor_le_pow (c := c) (a := a)).resolve_right (not_le.mpr ha)
    have h2 : 2 ^ c.precision - 1 ≤ ⌊a / 2 ^ quantum c a⌋.toNat := by
      apply le_floor_toNat (div_pos ha (two_zpow_pos _)).le
      rw [hq, hcast]; linarith
    omega
  refine ⟨hq, hfl, ?_⟩
  rw [hfl, hq, hcast]; linarith

/-- Rounding to nearest: infinity from the threshold on, else a nearest number of the context, on ties one
with an even last place. -/
theorem ofRat_nearest (hc : c.Good) (hp2 : 2 ≤ c.precision) (hx : x ≠ 0) (hd : dir c.round (decide (x < 0)) = .nearest)
    (z : Bool) :
    (c.ofRat x z = .inf (decide (x < 0)) ∧ (2 : ℚ) ^ c.emax - 2 ^ (c.emax - c.precision - 1) ≤ |x|) ∨
    (|x| < (2 : ℚ) ^ c.emax - 2 ^ (c.emax - c.precision - 1) ∧
      ((c.ofRat x z = .zero (decide (x < 0)) ∧ ∀ m e, c.Norm m e → |x| ≤ |(|x| - m * 2 ^ e)|) ∨
      ∃ m e, c.ofRat x z = .fin (decide (x < 0)) m e ∧ c.Norm m e ∧ |(|x| - m * 2 ^ e)| ≤ |x| ∧
        (∀ m' e', c.Norm m' e' → |(|x| - m * 2 ^ e)| ≤ |(|x| - m' * 2 ^ e')|) ∧
        ((|(|x| - m * 2 ^ e)| = |x| ∨ ∃ m' e', c.Norm m' e' ∧ (m' : ℚ) * 2 ^ e' ≠ m * 2 ^ e ∧
          |(|x| - m' * 2 ^ e')| = |(|x| - m * 2 ^ e)|) → c.EvenLast m e))) := by
  have ha : 0 < |x| := abs_pos.mpr hx
  rw [ofRat_ne_zero hx, overflow_inf (by rw [hd]; decide)]
  generalize decide (x < 0) = neg at *
  generalize |x| = a at *
  have hz := two_zpow_pos (quantum c a)
  have hbr := bracket (c := c) ha
  have hpow := (floor_le_pow (c := c) (a := a)).resolve_right (not_le.mpr ha)
  have hnl := fun {m e} (h : c.Norm m e) => norm_le h ha
  have hng := fun {m e} (h : c.Norm m e) (h' : a ≤ m * 2 ^ e) => norm_ge (k := ⌊a / 2 ^ quantum c a⌋.toNat + 1) h ha h'
  have hq := quantum_le hc ha
  have hnm := near_max (a := a) hc
  have hhuge := huge (a := a) hc.p hc.range
  have hev := fun {r m e} => evenLast (c := c) (r := r) (m := m) (e := e) hp2 ha
  have hng2 := fun {r} (h : 0 < r) (h' : r ≤ 2 ^ c.precision) => norm_of_grid (r := r) hc.p ha h h'
  have hcs := roundMag_cases c.round neg (div_pos ha hz).le
  have hT : (a / 2 ^ quantum c a) * 2 ^ quantum c a = a := by field_simp
  generalize a / 2 ^ quantum c a = t at *
  generalize hQ : quantum c a = q at *
  generalize ⌊t⌋.toNat = lo at *
  have hpp : (2 : ℚ) ^ q = 2 * 2 ^ (q - 1) := by
    rw [show q = 1 + (q - 1) by ring, zpow_add', zpow_one]; ring_nf
  have hmono : ∀ {i j : Int}, i ≤ j → (2 : ℚ) ^ i ≤ 2 ^ j := fun h => zpow_le_of h
  -- what `r` is
  obtain ⟨r, hr, hlo, hlo', hd1, hd2, htie⟩ : ∃ r : Nat, roundMag c.round neg t = r ∧ lo ≤ r ∧ r ≤ lo + 1 ∧
      (t ≠ lo → |t - r| ≤ 1 / 2) ∧ (t = lo → r = lo) ∧ ((t = lo + 1 / 2) → 2 ∣ r) := by
    rcases hcs with h | ⟨h0, h | h | h | h | h⟩
    · exact ⟨_, h.2, le_rfl, by omega, fun hne => absurd h.1 hne, fun _ => rfl, fun h' => by
        exfalso; have := h.1; rw [h'] at this; linarith⟩
    · rw [hd] at h; exact absurd h.1 (by decide)
    · rw [hd] at h; exact absurd h.1 (by decide)
    · refine ⟨_, h.2.2, le_rfl, by omega, fun _ => ?_, fun _ => rfl, fun h' => by exfalso; have := h.2.1; linarith⟩
      rw [abs_le]; constructor <;> linarith [h.2.1]
    · refine ⟨_, h.2.2, by omega, by omega, fun _ => ?_, fun h' => ?_, fun h' => by exfalso; have := h.2.1; linarith⟩
      · push_cast
        have : t < lo + 1 := by
          have := hbr.2; rw [← hT] at this; exact lt_of_mul_lt_mul_right this hz.le
        rw [abs_le]; constructor <;> linarith [h.2.1]
      · exfalso; linarith
    · refine ⟨_, rfl, by omega, by omega, fun _ => ?_, fun h' => ?_, fun _ => h.2.2.1⟩
      · rcases h.2.2.2 with e | e
        · rw [e, h.2.1, abs_le]; constructor <;> linarith
        · rw [e, h.2.1, abs_le]; push_cast; constructor <;> linarith
      · exfalso; linarith
  rw [hr]
  have hthr := two_zpow_pos (c.emax - c.precision - 1)
  have npos : ∀ {m e}, c.Norm m e → (0 : ℚ) < m * 2 ^ e := fun h =>
    mul_pos (by exact_mod_cast h.sig.pos) (two_zpow_pos _)
  by_cases hex : t = lo
  · -- exact
    have hrl := hd2 hex
    subst hrl
    have hR : (r : ℚ) * 2 ^ q = a := by rw [← hex]; exact hT
    have hr0 : 0 < r := by
      rcases Nat.eq_zero_or_pos r with rfl | h
      · simp at hR; linarith
      · exact h
    rw [if_neg hr0.ne']
    split
    · left; exact ⟨rfl, by linarith⟩
    · rename_i h1
      right
      refine ⟨?_, .inr ?_⟩
      · by_contra h2
        have := (hnm (not_lt.mp h2) (by linarith)).2.2
        rw [hex] at this; linarith
      · obtain ⟨m, e, h5, h6, h7⟩ := hng2 hr0 (by omega) le_rfl (not_le.mp h1) neg
        refine ⟨m, e, h5, h6, ?_, ?_, ?_⟩
        · rw [h7, hR]; simp [ha.le]
        · intro m' e' h'
          rw [h7, hR]; simp
        · rw [h7, hR, sub_self, abs_zero]
          rintro (h | ⟨m', e', h', hne, h⟩)
          · exact absurd h ha.ne
          · exact absurd (by linarith [abs_eq_zero.mp h]) hne
  · have hLa : (lo : ℚ) * 2 ^ q < a := by
      refine lt_of_le_of_ne hbr.1 fun h => hex ?_
      rw [← hT] at h
      exact (mul_right_cancel₀ hz.ne' h).symm
    have hD := hd1 hex
    have hside : ∀ {m e}, c.Norm m e → (m : ℚ) * 2 ^ e ≤ lo * 2 ^ q ∨ (lo : ℚ) * 2 ^ q + 2 ^ q ≤ m * 2 ^ e := by
      intro m e h
      rcases le_total ((m : ℚ) * 2 ^ e) a with h1 | h1
      · exact .inl (hnl h h1)
      · have := hng h h1 (by push_cast; linarith)
        push_cast at this
        exact .inr (by linarith)
    have hR : (r = lo ∧ a - lo * 2 ^ q ≤ 2 ^ (q - 1)) ∨ (r = lo + 1 ∧ lo * 2 ^ q + 2 ^ q - a ≤ 2 ^ (q - 1)) := by
      rw [abs_le] at hD
      rcases (show r = lo ∨ r = lo + 1 by omega) with h | h
      · left; refine ⟨h, ?_⟩
        rw [h] at hD
        have := mul_le_mul_of_nonneg_right hD.2 hz.le
        rw [sub_mul, hT] at this
        linarith
      · right; refine ⟨h, ?_⟩
        rw [h] at hD
        have := mul_le_mul_of_nonneg_right hD.1 hz.le
        rw [sub_mul, hT] at this
        push_cast at this
        linarith
    have hRv : (r = lo ∧ (r : ℚ) * 2 ^ q = lo * 2 ^ q ∧ a - lo * 2 ^ q ≤ 2 ^ (q - 1)) ∨
        (r = lo + 1 ∧ (r : ℚ) * 2 ^ q = lo * 2 ^ q + 2 ^ q ∧ lo * 2 ^ q + 2 ^ q - a ≤ 2 ^ (q - 1)) := by
      rcases hR with h | h
      · exact .inl ⟨h.1, by rw [h.1], h.2⟩
      · exact .inr ⟨h.1, by rw [h.1]; push_cast; ring, h.2⟩
    have hhi : a < lo * 2 ^ q + 2 ^ q := by linarith [hbr.2]
    have htie' : a - lo * 2 ^ q = lo * 2 ^ q + 2 ^ q - a → 2 ∣ r := fun h => by
      apply htie
      have : (t - lo - 1 / 2) * 2 ^ q = 0 := by rw [sub_mul, sub_mul, hT]; linarith
      rcases mul_eq_zero.mp this with h | h
      · linarith
      · exact absurd h hz.ne'
    split
    · -- zero
      rename_i h0
      right
      have hr0 : r = lo := by omega
      have hlo0 : lo = 0 := by omega
      have haq : a ≤ 2 ^ (q - 1) := by
        rcases hRv with h | h
        · have := h.2.2; rw [hlo0] at this; simpa using this
        · omega
      refine ⟨?_, .inl ⟨rfl, ?_⟩⟩
      · by_contra h2
        rw [not_lt] at h2
        rcases le_or_gt ((2 : ℚ) ^ c.emax) a with h3 | h3
        · have := hhuge h3
          rw [hlo0] at this; simp at this
          linarith [two_zpow_pos c.emax]
        · obtain ⟨_, h5, _⟩ := hnm h2 h3
          have : 2 ^ 1 ≤ 2 ^ c.precision := Nat.pow_le_pow_right (by omega) hc.p
          omega
      · intro m e h
        have h1 := npos h
        rcases hside h with h2 | h2
        · rw [hlo0] at h2; simp at h2; linarith
        · rw [hlo0] at h2; simp at h2
          rw [abs_of_nonpos (by linarith)]; linarith
    · rename_i h0
      split
      · -- overflow
        rename_i h1
        left
        refine ⟨rfl, ?_⟩
        rcases le_or_gt ((2 : ℚ) ^ c.emax) a with h3 | h3
        · linarith
        · rcases hRv with h | h
          · linarith
          · rcases hq h3 with h4 | ⟨h4, h5⟩
            · have := hmono (show q - 1 ≤ c.emax - c.precision - 1 by omega)
              linarith
            · exfalso
              have hr' := hc.range
              rw [← h5] at h4
              have hlo0 : lo = 0 := by
                have : (lo : ℚ) * 2 ^ q < 1 * 2 ^ q := by linarith
                have : (lo : ℚ) < (1 : Nat) := by exact_mod_cast lt_of_mul_lt_mul_right this hz.le
                have : lo < 1 := by exact_mod_cast this
                omega
              rw [h.2.1, hlo0] at h1
              simp at h1
              have := zpow_lt_of (show q < c.emax by omega)
              linarith
      · rename_i h1
        right
        rw [not_le] at h1
        refine ⟨?_, .inr ?_⟩
        · by_contra h2
          rw [not_lt] at h2
          rcases le_or_gt ((2 : ℚ) ^ c.emax) a with h3 | h3
          · have := hhuge h3
            rcases hRv with h | h <;> linarith
          · obtain ⟨h4, h5, h6⟩ := hnm h2 h3
            have hpos : 0 < 2 ^ c.precision := by positivity
            have e1 : (2 : ℚ) ^ c.emax = (2 ^ c.precision : Nat) * 2 ^ q := by
              rw [← zpow_nat, ← zpow_add', h4]; congr 1; ring
            rcases hRv with h | h
            · have h7 := mul_le_mul_of_nonneg_right h6 hz.le
              rw [hT] at h7
              have : 2 ∣ r := htie' (by linarith)
              have h8 : 2 ∣ 2 ^ c.precision := dvd_pow_self 2 (by omega)
              omega
            · have hrp : r = 2 ^ c.precision := by omega
              rw [hrp, e1] at h1
              exact lt_irrefl _ h1
        · obtain ⟨m, e, h5, h6, h7⟩ := hng2 (Nat.pos_of_ne_zero h0) (by omega) hlo h1 neg
          have hL0 : (0 : ℚ) ≤ lo * 2 ^ q := by positivity
          refine ⟨m, e, h5, h6, ?_, ?_, ?_⟩
          · rw [h7]
            rcases hRv with ⟨_, h, h'⟩ | ⟨_, h, h'⟩
            · rw [h, abs_of_nonneg (by linarith)]; linarith
            · rw [h, abs_of_nonpos (by linarith)]; linarith
          · intro m' e' h'
            rw [h7]
            rcases hRv with ⟨_, h, h''⟩ | ⟨_, h, h''⟩ <;> rcases hside h' with h3 | h3
            · rw [h, abs_of_nonneg (by linarith), abs_of_nonneg (by linarith)]; linarith
            · rw [h, abs_of_nonneg (by linarith), abs_of_nonpos (by linarith)]; linarith
            · rw [h, abs_of_nonpos (by linarith), abs_of_nonneg (by linarith)]; linarith
            · rw [h, abs_of_nonpos (by linarith), abs_of_nonpos (by linarith)]; linarith
          · intro htie2
            refine hev (Nat.pos_of_ne_zero h0) (htie' ?_) hlo hlo' (by omega) h6 h7
            rw [h7] at htie2
            rcases htie2 with h2 | ⟨m', e', h', hne, h2⟩
            · rcases hRv with ⟨e0, h, h''⟩ | ⟨e0, h, h''⟩
              · rw [h, abs_of_nonneg (by linarith)] at h2
                exfalso
                have h9 : (lo : ℚ) * 2 ^ q = 0 := by linarith
                rw [← h] at h9
                have : (0 : ℚ) < r := by exact_mod_cast Nat.pos_of_ne_zero h0
                have := mul_pos this hz
                linarith
              · rw [h, abs_of_nonpos (by linarith)] at h2
                linarith
            · rcases hRv with ⟨_, h, h''⟩ | ⟨_, h, h''⟩ <;> rcases hside h' with h3 | h3
              · rw [h, abs_of_nonneg (by linarith), abs_of_nonneg (by linarith)] at h2
                exact absurd (by linarith) hne
              · rw [h, abs_of_nonpos (by linarith), abs_of_nonneg (by linarith)] at h2; linarith
              · rw [h, abs_of_nonneg (by linarith), abs_of_nonpos (by linarith)] at h2; linarith
              · rw [h, abs_of_nonpos (by linarith), abs_of_nonpos (by linarith)] at h2
                exact absurd (by linarith) hne
end

end HW.Fp
