import Verif.Model.Fp.Mpfr
import Mathlib.Tactic.Linarith
import Mathlib.Tactic.Positivity
import Mathlib.Tactic.FieldSimp

namespace HW.Fp

theorem two_zpow_pos (q : Int) : (0 : ℚ) < 2 ^ q := zpow_pos (by norm_num) q

theorem zpow_add' (a b : Int) : (2 : ℚ) ^ (a + b) = 2 ^ a * 2 ^ b := zpow_add₀ (by norm_num) a b

theorem zpow_nat (n : Nat) : (2 : ℚ) ^ (n : Int) = ((2 ^ n : Nat) : ℚ) := by simp

theorem zpow_le_of {a b : Int} (h : a ≤ b) : (2 : ℚ) ^ a ≤ 2 ^ b :=
  zpow_le_zpow_right₀ (by norm_num) h

theorem zpow_lt_of {a b : Int} (h : a < b) : (2 : ℚ) ^ a < 2 ^ b :=
  zpow_lt_zpow_right₀ (by norm_num) h

theorem lt_of_zpow {a b : Int} (h : (2 : ℚ) ^ a < 2 ^ b) : a < b := by
  by_contra hc
  exact absurd (zpow_le_of (by omega : b ≤ a)) (not_le.mpr h)

/-- `2^b` is a multiple of `2^a` for `a ≤ b`. -/
theorem zpow_mul_nat {a b : Int} (h : a ≤ b) : (2 : ℚ) ^ b = ((2 ^ (b - a).toNat : Nat) : ℚ) * 2 ^ a := by
  rw [← zpow_nat, ← zpow_add']
  congr 1; omega

theorem log_lo {a : ℚ} (ha : 0 < a) : (2 : ℚ) ^ Int.log 2 a ≤ a := Int.zpow_log_le_self (by norm_num) ha
theorem log_hi (a : ℚ) : a < (2 : ℚ) ^ (Int.log 2 a + 1) := Int.lt_zpow_succ_log_self (by norm_num) a

theorem log_unique {a : ℚ} {k : Int} (h1 : (2 : ℚ) ^ k ≤ a) (h2 : a < 2 ^ (k + 1)) : Int.log 2 a = k := by
  have ha : 0 < a := lt_of_lt_of_le (two_zpow_pos k) h1
  have := lt_of_zpow (lt_of_le_of_lt h1 (log_hi a))
  have := lt_of_zpow (lt_of_le_of_lt (log_lo ha) h2)
  omega

/-- `m * 2^e` as an MPFR number of precision `p`. -/
def Sig (p m : Nat) : Prop := 2 ^ (p - 1) ≤ m ∧ m < 2 ^ p

theorem Sig.pos {p m : Nat} (h : Sig p m) : 0 < m := lt_of_lt_of_le (by positivity) h.1

theorem Sig.p_pos {p m : Nat} (h : Sig p m) : 0 < p := by
  rcases Nat.eq_zero_or_pos p with rfl | hp
  · have := h.1; have := h.2; simp at *; omega
  · exact hp

theorem Sig.bounds {p m : Nat} (h : Sig p m) (e : Int) :
    (2 : ℚ) ^ (e + p - 1) ≤ m * 2 ^ e ∧ (m : ℚ) * 2 ^ e < 2 ^ (e + p) := by
  have hp := h.p_pos
  have e1 : (2 : ℚ) ^ (e + p - 1) = ((2 ^ (p - 1) : Nat) : ℚ) * 2 ^ e := by
    rw [← zpow_nat, ← zpow_add']; congr 1; omega
  have e2 : (2 : ℚ) ^ (e + p) = ((2 ^ p : Nat) : ℚ) * 2 ^ e := by
    rw [← zpow_nat, ← zpow_add']; congr 1; omega
  rw [e1, e2]
  have hz := two_zpow_pos e
  exact ⟨mul_le_mul_of_nonneg_right (by exact_mod_cast h.1) hz.le,
    mul_lt_mul_of_pos_right (by exact_mod_cast h.2) hz⟩

theorem Sig.log {p m : Nat} (h : Sig p m) (e : Int) : Int.log 2 ((m : ℚ) * 2 ^ e) = e + p - 1 :=
  log_unique (h.bounds e).1 (by rw [show e + (p : Int) - 1 + 1 = e + p by ring]; exact (h.bounds e).2)

theorem Sig.unique {p m m' : Nat} {e e' : Int} (h : Sig p m) (h' : Sig p m')
    (heq : (m : ℚ) * 2 ^ e = m' * 2 ^ e') : m = m' ∧ e = e' := by
  have h1 := h.log e
  rw [heq, h'.log e'] at h1
  have : e = e' := by omega
  subst this
  refine ⟨?_, rfl⟩
  have := mul_right_cancel₀ (two_zpow_pos e).ne' heq
  exact_mod_cast this

theorem normalize_spec {p r : Nat} (hp : 0 < p) (hr : 0 < r) (hr' : r ≤ 2 ^ p) (neg : Bool) (q : Int) :
    ∃ m e, normalize p neg r q = .fin neg m e ∧ Sig p m ∧ (m : ℚ) * 2 ^ e = r * 2 ^ q := by
  have hlo : 2 ^ Nat.log2 r ≤ r := Nat.log2_self_le hr.ne'
  have hhi : r < 2 ^ (Nat.log2 r + 1) := Nat.lt_log2_self
  unfold normalize
  dsimp only
  split
  · rename_i hb
    refine ⟨_, _, rfl, ⟨?_, ?_⟩, ?_⟩
    · calc 2 ^ (p - 1) = 2 ^ Nat.log2 r * 2 ^ (p - (Nat.log2 r + 1)) := by
            rw [← pow_add]; congr 1; omega
        _ ≤ _ := Nat.mul_le_mul_right _ hlo
    · calc r * 2 ^ (p - (Nat.log2 r + 1)) < 2 ^ (Nat.log2 r + 1) * 2 ^ (p - (Nat.log2 r + 1)) :=
            Nat.mul_lt_mul_of_pos_right hhi (by positivity)
        _ = 2 ^ p := by rw [← pow_add]; congr 1; omega
    · push_cast
      rw [mul_assoc, show ((2 : ℚ) ^ (p - (Nat.log2 r + 1))) = (2 : ℚ) ^ ((p - (Nat.log2 r + 1) : Nat) : Int) by
        rw [zpow_natCast], ← zpow_add']
      congr 2; omega
  · rename_i hb
    have hrp : r = 2 ^ p := by
      have : 2 ^ p ≤ 2 ^ Nat.log2 r := Nat.pow_le_pow_right (by omega) (by omega)
      omega
    subst hrp
    rw [Nat.log2_two_pow]
    refine ⟨_, _, rfl, ?_⟩
    have e1 : p + 1 - p = 1 := by omega
    rw [e1, pow_one]
    have e2 : 2 ^ p / 2 = 2 ^ (p - 1) := by
      conv_lhs => rw [show p = (p - 1) + 1 by omega, pow_succ]
      omega
    rw [e2]
    refine ⟨⟨le_rfl, Nat.pow_lt_pow_right (by omega) (by omega)⟩, ?_⟩
    rw [← zpow_nat, ← zpow_nat, ← zpow_add', ← zpow_add']
    congr 1; omega

/-- The finite non-zero numbers of a context: magnitude `m * 2^e`. -/
structure Ctx.Norm (c : Ctx) (m : Nat) (e : Int) : Prop where
  sig : Sig c.precision m
  lo : c.emin ≤ e + c.precision
  hi : e + c.precision ≤ c.emax
  sub : c.subnormalize = true → ∃ k : Nat, (m : ℚ) * 2 ^ e = k * 2 ^ (c.emin - 1)

/-- Contexts whose largest number is not subnormal. -/
structure Ctx.Good (c : Ctx) : Prop where
  p : 0 < c.precision
  range : c.emin ≤ c.emax
  sub : c.subnormalize = true → c.emin - 1 ≤ c.emax - c.precision

theorem quantum_eq (c : Ctx) (a : ℚ) :
    quantum c a = if c.subnormalize = true ∨ Int.log 2 a + 1 < c.emin
      then max (Int.log 2 a + 1 - c.precision) (c.emin - 1) else Int.log 2 a + 1 - c.precision := rfl

theorem quantum_ge (c : Ctx) (a : ℚ) : Int.log 2 a + 1 - c.precision ≤ quantum c a := by
  rw [quantum_eq]; split <;> omega

/-- Every number of the context is a multiple of its quantum. -/
theorem Ctx.Norm.grid {c : Ctx} {m : Nat} {e : Int} (h : c.Norm m e) :
    ∃ k : Nat, (m : ℚ) * 2 ^ e = k * 2 ^ quantum c (m * 2 ^ e) := by
  have hl := h.sig.log e
  have hlo := h.lo
  by_cases hs : c.subnormalize = true
  · rw [quantum_eq, if_pos (.inl hs), hl, show e + (c.precision : Int) - 1 + 1 - c.precision = e by ring]
    rcases le_total (c.emin - 1) e with h1 | h1
    · rw [max_eq_left h1]; exact ⟨m, rfl⟩
    · rw [max_eq_right h1]; exact h.sub hs
  · rw [quantum_eq, if_neg (by rw [hl]; simp only [hs]; simp; omega), hl,
      show e + (c.precision : Int) - 1 + 1 - c.precision = e by ring]
    exact ⟨m, rfl⟩

theorem roundMag_nat (r : GMode) (neg : Bool) (k : Nat) : roundMag r neg (k : ℚ) = k := by
  simp [roundMag]

theorem div_quantum_lt {c : Ctx} {a : ℚ} : a / 2 ^ quantum c a < ((2 ^ c.precision : Nat) : ℚ) := by
  rw [div_lt_iff₀ (two_zpow_pos _), ← zpow_nat, ← zpow_add']
  refine lt_of_lt_of_le (log_hi a) (zpow_le_of ?_)
  have := quantum_ge c a
  omega

/-- Numbers of the context are not changed by rounding. -/
theorem ofRat_exact {c : Ctx} {m : Nat} {e : Int} (h : c.Norm m e) (neg z : Bool) :
    c.ofRat ((Mpfr.fin neg m e).toRat) z = .fin neg m e := by
  have hm : (0 : ℚ) < m * 2 ^ e := mul_pos (by exact_mod_cast h.sig.pos) (two_zpow_pos e)
  have hx : (Mpfr.fin neg m e).toRat = (if neg then -1 else 1) * ((m : ℚ) * 2 ^ e) := by
    simp [Mpfr.toRat]
  obtain ⟨k, hk⟩ := h.grid
  have habs : |(Mpfr.fin neg m e).toRat| = (m : ℚ) * 2 ^ e := by
    rw [hx]; cases neg <;> simp [abs_of_pos hm]
  have hneg : decide ((Mpfr.fin neg m e).toRat < 0) = neg := by
    rw [hx]; cases neg
    · simp; linarith
    · simp; linarith
  have hne : (Mpfr.fin neg m e).toRat ≠ 0 := by
    intro h0; rw [h0] at habs; simp at habs; rcases habs with h1 | h1
    · exact absurd h1 h.sig.pos.ne'
    · exact absurd h1 (two_zpow_pos e).ne'
  unfold Ctx.ofRat
  rw [if_neg hne]
  dsimp only
  rw [habs, hneg]
  generalize hq : quantum c (↑m * 2 ^ e) = q at *
  have hdiv : (m : ℚ) * 2 ^ e / 2 ^ q = k := by
    rw [hk]; field_simp
  have hkp : k < 2 ^ c.precision := by
    have := div_quantum_lt (c := c) (a := (m : ℚ) * 2 ^ e)
    rw [hq, hdiv] at this
    exact_mod_cast this
  have hk0 : 0 < k := by
    rcases Nat.eq_zero_or_pos k with rfl | h0
    · rw [hk] at hm; simp at hm
    · exact h0
  rw [hdiv, roundMag_nat, if_neg (by omega), ← hk, if_neg]
  · obtain ⟨m', e', h1, h2, h3⟩ := normalize_spec h.sig.p_pos hk0 hkp.le neg q
    rw [h1]
    obtain ⟨e1, e2⟩ := h.sig.unique h2 (by rw [h3, hk])
    rw [e1, e2]
  · rw [not_le]
    exact lt_of_lt_of_le (h.sig.bounds e).2 (zpow_le_of h.hi)

/-! ### Rounding a magnitude -/

theorem floor_toNat {t : ℚ} (ht : 0 ≤ t) : ((⌊t⌋.toNat : Nat) : ℚ) ≤ t ∧ t < (⌊t⌋.toNat : Nat) + 1 := by
  have h0 : 0 ≤ ⌊t⌋ := Int.floor_nonneg.mpr ht
  have e : ((⌊t⌋.toNat : Nat) : ℚ) = ((⌊t⌋ : Int) : ℚ) := by
    rw [show ((⌊t⌋.toNat : Nat) : ℚ) = (((⌊t⌋.toNat : Nat) : Int) : ℚ) by push_cast; rfl, Int.toNat_of_nonneg h0]
  rw [e]
  exact ⟨Int.floor_le t, Int.lt_floor_add_one t⟩

theorem le_floor_toNat {t : ℚ} (ht : 0 ≤ t) {k : Nat} (h : (k : ℚ) ≤ t) : k ≤ ⌊t⌋.toNat := by
  have := (floor_toNat ht).2
  have h2 : (k : ℚ) < (⌊t⌋.toNat + 1 : Nat) := by push_cast; linarith
  have : k < ⌊t⌋.toNat + 1 := by exact_mod_cast h2
  omega

/-- Direction of rounding on the magnitude. -/
inductive Dir | trunc | away | nearest
  deriving DecidableEq

def dir : GMode → Bool → Dir
  | .toNearest, _ => .nearest
  | .awayZero, _ => .away
  | .toZero, _ => .trunc
  | .up, neg => if neg then .trunc else .away
  | .down, neg => if neg then .away else .trunc

theorem roundMag_cases (r : GMode) (neg : Bool) {t : ℚ} (ht : 0 ≤ t) :
    (t = (⌊t⌋.toNat : Nat) ∧ roundMag r neg t = ⌊t⌋.toNat) ∨
    ((⌊t⌋.toNat : Nat) < t ∧
      ((dir r neg = .trunc ∧ roundMag r neg t = ⌊t⌋.toNat) ∨
       (dir r neg = .away ∧ roundMag r neg t = ⌊t⌋.toNat + 1) ∨
       (dir r neg = .nearest ∧ t < (⌊t⌋.toNat : Nat) + 1 / 2 ∧ roundMag r neg t = ⌊t⌋.toNat) ∨
       (dir r neg = .nearest ∧ (⌊t⌋.toNat : Nat) + 1 / 2 < t ∧ roundMag r neg t = ⌊t⌋.toNat + 1) ∨
       (dir r neg = .nearest ∧ t = (⌊t⌋.toNat : Nat) + 1 / 2 ∧ 2 ∣ roundMag r neg t ∧
          (roundMag r neg t = ⌊t⌋.toNat ∨ roundMag r neg t = ⌊t⌋.toNat + 1)))) := by
  obtain ⟨h1, h2⟩ := floor_toNat ht
  unfold roundMag
  dsimp only
  generalize ⌊t⌋.toNat = lo at *
  by_cases h0 : t - lo = 0
  · left; rw [if_pos h0]; exact ⟨by linarith, rfl⟩
  · right
    rw [if_neg h0]
    refine ⟨lt_of_le_of_ne h1 (fun h => h0 (by linarith)), ?_⟩
    cases r
    · right; right
      rw [show dir .toNearest neg = .nearest from rfl]
      dsimp only
      split
      · left; exact ⟨rfl, by linarith, rfl⟩
      · split
        · right; left; exact ⟨rfl, by linarith, rfl⟩
        · right; right
          refine ⟨rfl, by linarith, ?_⟩
          split
          · exact ⟨by omega, .inl rfl⟩
          · exact ⟨by omega, .inr rfl⟩
    · right; left; exact ⟨rfl, rfl⟩
    · cases neg
      · right; left; exact ⟨rfl, rfl⟩
      · left; exact ⟨rfl, rfl⟩
    · cases neg
      · left; exact ⟨rfl, rfl⟩
      · right; left; exact ⟨rfl, rfl⟩
    · left; exact ⟨rfl, rfl⟩

theorem overflow_eq (c : Ctx) (neg : Bool) :
    overflow c neg = if dir c.round neg = .trunc then .fin neg (2 ^ c.precision - 1) (c.emax - c.precision)
      else .inf neg := by
  unfold overflow
  cases c.round <;> cases neg <;> rfl

section
variable {c : Ctx} {a : ℚ}

/-- A number of the context not above `a` is not above `a` cut to its quantum. -/
theorem norm_le {m : Nat} {e : Int} (h : c.Norm m e) (ha : 0 < a) (hle : (m : ℚ) * 2 ^ e ≤ a) :
    (m : ℚ) * 2 ^ e ≤ ⌊a / 2 ^ quantum c a⌋.toNat * 2 ^ quantum c a := by
  have hz := two_zpow_pos (quantum c a)
  have ht : 0 ≤ a / 2 ^ quantum c a := (div_pos ha hz).le
  -- it suffices to find a multiple of the quantum in between
  suffices H : ∃ k : Nat, (m : ℚ) * 2 ^ e ≤ k * 2 ^ quantum c a ∧ (k : ℚ) * 2 ^ quantum c a ≤ a by
    obtain ⟨k, h1, h2⟩ := H
    refine h1.trans (mul_le_mul_of_nonneg_right ?_ hz.le)
    have : k ≤ ⌊a / 2 ^ quantum c a⌋.toNat := le_floor_toNat ht (by rwa [le_div_iff₀ hz])
    exact_mod_cast this
  have hlog := h.sig.log e
  have hp := h.sig.p_pos
  have hlo := h.lo
  have hEa := lt_of_zpow (lt_of_le_of_lt ((h.sig.bounds e).1.trans hle) (log_hi a))
  rcases eq_or_lt_of_le (show e + (c.precision : Int) - 1 ≤ Int.log 2 a by omega) with hE | hE
  · obtain ⟨k, hk⟩ := h.grid
    have hqq : quantum c (m * 2 ^ e) = quantum c a := by rw [quantum_eq, quantum_eq, hlog, hE]
    rw [hqq] at hk
    exact ⟨k, hk.le, hk ▸ hle⟩
  · have hqE : quantum c a ≤ Int.log 2 a := by
      rw [quantum_eq]; split <;> omega
    refine ⟨2 ^ (Int.log 2 a - quantum c a).toNat, ?_, ?_⟩
    · rw [← zpow_mul_nat hqE]
      exact ((h.sig.bounds e).2.trans_le (zpow_le_of (by omega))).le
    · rw [← zpow_mul_nat hqE]
      exact log_lo ha

/-- A number of the context not below `a` is not below the least multiple of the quantum above `a`. -/
theorem norm_ge {m : Nat} {e : Int} (h : c.Norm m e) (ha : 0 < a) (hge : a ≤ (m : ℚ) * 2 ^ e)
    {k : Nat} (hk : (k : ℚ) * 2 ^ quantum c a - 2 ^ quantum c a < a) :
    (k : ℚ) * 2 ^ quantum c a ≤ m * 2 ^ e := by
  have hlog := h.sig.log e
  have hlo := h.lo
  have hEa := lt_of_zpow (lt_of_le_of_lt ((log_lo ha).trans hge) (h.sig.bounds e).2)
  have hz := two_zpow_pos (quantum c a)
  by_cases hc : c.subnormalize = true ∨ c.emin ≤ Int.log 2 a + 1
  · have hq : quantum c a ≤ quantum c (m * 2 ^ e) := by
      rw [quantum_eq, quantum_eq, hlog]
      by_cases hs : c.subnormalize = true
      · rw [if_pos (.inl hs), if_pos (.inl hs)]; omega
      · rw [if_neg (by rintro (h | h); exact hs h; have := hc.resolve_left hs; omega),
          if_neg (by rintro (h | h); exact hs h; have := hc.resolve_left hs; omega)]
        omega
    obtain ⟨j, hj⟩ := h.grid
    generalize quantum c (m * 2 ^ e) = q' at hq hj
    obtain ⟨n, hj'⟩ : ∃ n : Nat, (m : ℚ) * 2 ^ e = n * 2 ^ quantum c a :=
      ⟨j * 2 ^ (q' - quantum c a).toNat, by rw [hj, zpow_mul_nat hq]; push_cast; ring⟩
    rw [hj'] at hge ⊢
    have h1 : ((k : ℚ) - 1) * 2 ^ quantum c a < n * 2 ^ quantum c a := by
      rw [sub_mul, one_mul]; exact lt_of_lt_of_le hk hge
    have h2 : (k : ℚ) < (n + 1 : Nat) := by
      push_cast; linarith [lt_of_mul_lt_mul_right h1 hz.le]
    have h3 : k ≤ n := by
      have : k < n + 1 := by exact_mod_cast h2
      omega
    exact mul_le_mul_of_nonneg_right (by exact_mod_cast h3) hz.le
  · rw [not_or, not_le] at hc
    have hq : quantum c a = c.emin - 1 ∨ quantum c a = Int.log 2 a + 1 - c.precision := by
      rw [quantum_eq, if_pos (.inr hc.2)]; omega
    have hp := h.sig.p_pos
    have hq : quantum c a = c.emin - 1 := by
      rw [quantum_eq, if_pos (.inr hc.2)]; omega
    rw [hq] at hk ⊢
    have hau : a < 2 ^ (c.emin - 1) := (log_hi a).trans_le (zpow_le_of (by omega))
    have hvl : (2 : ℚ) ^ (c.emin - 1) ≤ m * 2 ^ e := (zpow_le_of (by omega)).trans (h.sig.bounds e).1
    have hz' := two_zpow_pos (c.emin - 1)
    have : (k : ℚ) < (2 : Nat) := by
      have : (k : ℚ) * 2 ^ (c.emin - 1) < 2 * 2 ^ (c.emin - 1) := by linarith
      exact_mod_cast lt_of_mul_lt_mul_right this hz'.le
    have hk1 : k ≤ 1 := by
      have : k < 2 := by exact_mod_cast this
      omega
    have hk1' : (k : ℚ) ≤ 1 := by exact_mod_cast hk1
    nlinarith

/-- A multiple of the quantum of `a`, next to `a`, is a number of the context unless it is zero or too large. -/
theorem norm_of_grid (hp : 0 < c.precision) (ha : 0 < a) {r : Nat} (hr : 0 < r) (hr1 : r ≤ 2 ^ c.precision)
    (hlo : ⌊a / 2 ^ quantum c a⌋.toNat ≤ r) (hmax : (r : ℚ) * 2 ^ quantum c a < 2 ^ c.emax) (neg : Bool) :
    ∃ m e, normalize c.precision neg r (quantum c a) = .fin neg m e ∧ c.Norm m e ∧
      (m : ℚ) * 2 ^ e = r * 2 ^ quantum c a := by
  obtain ⟨m, e, h1, h2, h3⟩ := normalize_spec hp hr hr1 neg (quantum c a)
  refine ⟨m, e, h1, ⟨h2, ?_, ?_, ?_⟩, h3⟩
  · have hb := (h2.bounds e).2
    rw [h3] at hb
    suffices (2 : ℚ) ^ (c.emin - 1) ≤ r * 2 ^ quantum c a by
      have := lt_of_zpow (lt_of_le_of_lt this hb); omega
    have hr' : (1 : ℚ) ≤ r := by exact_mod_cast hr
    by_cases hq : c.emin - 1 ≤ quantum c a
    · calc (2 : ℚ) ^ (c.emin - 1) ≤ 2 ^ quantum c a := zpow_le_of hq
        _ ≤ _ := by nlinarith [two_zpow_pos (quantum c a)]
    · have hE : c.emin ≤ Int.log 2 a + 1 ∧ quantum c a = Int.log 2 a + 1 - c.precision := by
        rw [quantum_eq] at hq
        rw [quantum_eq]
        by_cases hc : c.subnormalize = true ∨ Int.log 2 a + 1 < c.emin
        · rw [if_pos hc] at hq; omega
        · rw [if_neg hc]; rw [not_or, not_lt] at hc; exact ⟨hc.2, rfl⟩
      have hqE : quantum c a ≤ Int.log 2 a := by omega
      have : 2 ^ (Int.log 2 a - quantum c a).toNat ≤ ⌊a / 2 ^ quantum c a⌋.toNat := by
        apply le_floor_toNat (div_pos ha (two_zpow_pos _)).le
        rw [le_div_iff₀ (two_zpow_pos _), ← zpow_mul_nat hqE]
        exact log_lo ha
      have h4 : ((2 ^ (Int.log 2 a - quantum c a).toNat : Nat) : ℚ) ≤ r := by exact_mod_cast this.trans hlo
      calc (2 : ℚ) ^ (c.emin - 1) ≤ 2 ^ Int.log 2 a := zpow_le_of (by omega)
        _ = _ := zpow_mul_nat hqE
        _ ≤ _ := mul_le_mul_of_nonneg_right h4 (two_zpow_pos _).le
  · have hb := (h2.bounds e).1
    rw [h3] at hb
    have := lt_of_zpow (lt_of_le_of_lt hb hmax); omega
  · intro hs
    have hq : c.emin - 1 ≤ quantum c a := by rw [quantum_eq, if_pos (.inl hs)]; omega
    refine ⟨r * 2 ^ (quantum c a - (c.emin - 1)).toNat, ?_⟩
    rw [h3, zpow_mul_nat hq]; push_cast; ring

theorem floor_le_pow : ⌊a / 2 ^ quantum c a⌋.toNat + 1 ≤ 2 ^ c.precision ∨ a ≤ 0 := by
  rcases lt_or_ge 0 a with ha | ha
  · left
    have h1 := (floor_toNat (div_pos ha (two_zpow_pos (quantum c a))).le).1
    have h2 := lt_of_le_of_lt h1 (div_quantum_lt (c := c))
    have : ⌊a / 2 ^ quantum c a⌋.toNat < 2 ^ c.precision := by exact_mod_cast h2
    omega
  · exact .inr ha

/-- The largest number of a context. -/
theorem norm_max (hc : c.Good) : c.Norm (2 ^ c.precision - 1) (c.emax - c.precision) := by
  have h2 : 2 ^ (c.precision - 1) + 2 ^ (c.precision - 1) = 2 ^ c.precision := by
    conv_rhs => rw [show c.precision = c.precision - 1 + 1 from (Nat.succ_pred_eq_of_pos hc.p).symm, pow_succ]
    omega
  have h1 : 0 < 2 ^ (c.precision - 1) := by positivity
  have hr := hc.range
  refine ⟨⟨by omega, by omega⟩, by omega, by omega, fun hs => ?_⟩
  have := hc.sub hs
  exact ⟨(2 ^ c.precision - 1) * 2 ^ (c.emax - c.precision - (c.emin - 1)).toNat, by
    rw [zpow_mul_nat this]; push_cast; ring⟩

theorem norm_le_max {m : Nat} {e : Int} (h : c.Norm m e) :
    (m : ℚ) * 2 ^ e ≤ (2 ^ c.precision - 1 : Nat) * 2 ^ (c.emax - c.precision) := by
  have hm : m ≤ 2 ^ c.precision - 1 := by have := h.sig.2; omega
  have hm' : (m : ℚ) ≤ (2 ^ c.precision - 1 : Nat) := by exact_mod_cast hm
  have := h.hi
  exact mul_le_mul hm' (zpow_le_of (by omega)) (two_zpow_pos _).le (by positivity)
end

end HW.Fp
