import Verif.Model.BitVector
import Mathlib.Tactic.Linarith
import Verif.Spec.Bits

/-! Lemmas about Python integer operations. -/

namespace HW
open Spec

theorem two_pow_pos (n : Nat) : (0 : Int) < 2 ^ n := Int.pow_pos (by omega)

theorem ibit_ofNat (m i : Nat) : ibit (Int.ofNat m) i = m.testBit i := by
  unfold ibit
  rw [Nat.testBit_eq_decide_div_mod_eq]
  have : (Int.ofNat m / 2 ^ i) % 2 = (((m / 2 ^ i) % 2 : Nat) : Int) := by
    simp
  rw [this]
  simp only [decide_eq_decide]; omega

theorem negSucc_div_pow (m i : Nat) : (Int.negSucc m) / 2 ^ i = Int.negSucc (m / 2 ^ i) := by
  have : (2 : Int) ^ i = ((2 ^ i : Nat) : Int) := by simp
  rw [this, Int.negSucc_ediv _ (by exact_mod_cast Nat.two_pow_pos i)]
  simp [Int.negSucc_eq]
  rfl

theorem ibit_negSucc (m i : Nat) : ibit (Int.negSucc m) i = !m.testBit i := by
  unfold ibit
  rw [Nat.testBit_eq_decide_div_mod_eq, negSucc_div_pow]
  have : (Int.negSucc (m / 2 ^ i)) % 2 = 1 ↔ ¬ (m / 2 ^ i % 2 = 1) := by omega
  rw [decide_eq_decide.mpr this, decide_not]

theorem ibit_ext {a b : Int} (h : ∀ i, ibit a i = ibit b i) : a = b := by
  cases a with
  | ofNat m =>
    cases b with
    | ofNat n =>
      simp only [ibit_ofNat] at h
      rw [Nat.eq_of_testBit_eq h]
    | negSucc n =>
      simp only [ibit_ofNat, ibit_negSucc] at h
      have h1 := h (m + n)
      rw [Nat.testBit_lt_two_pow, Nat.testBit_lt_two_pow] at h1
      · simp at h1
      · exact Nat.lt_of_lt_of_le Nat.lt_two_pow_self (Nat.pow_le_pow_right (by omega) (by omega))
      · exact Nat.lt_of_lt_of_le Nat.lt_two_pow_self (Nat.pow_le_pow_right (by omega) (by omega))
  | negSucc m =>
    cases b with
    | ofNat n =>
      simp only [ibit_ofNat, ibit_negSucc] at h
      have h1 := h (m + n)
      rw [Nat.testBit_lt_two_pow, Nat.testBit_lt_two_pow] at h1
      · simp at h1
      · exact Nat.lt_of_lt_of_le Nat.lt_two_pow_self (Nat.pow_le_pow_right (by omega) (by omega))
      · exact Nat.lt_of_lt_of_le Nat.lt_two_pow_self (Nat.pow_le_pow_right (by omega) (by omega))
    | negSucc n =>
      simp only [ibit_negSucc] at h
      have : m = n := Nat.eq_of_testBit_eq fun i => by simpa using h i
      rw [this]

theorem ibit_pyNot (v : Int) (i : Nat) : ibit (pyNot v) i = !ibit v i := by
  cases v with
  | ofNat m =>
    have : pyNot (Int.ofNat m) = Int.negSucc m := by simp [pyNot, Int.negSucc_eq]; omega
    rw [this, ibit_negSucc, ibit_ofNat]
  | negSucc m =>
    have : pyNot (Int.negSucc m) = Int.ofNat m := by simp [pyNot, Int.negSucc_eq]
    rw [this, ibit_negSucc, ibit_ofNat]; simp

theorem ibit_pyAnd (a b : Int) (i : Nat) : ibit (pyAnd a b) i = (ibit a i && ibit b i) := by
  cases a <;> cases b <;> simp only [pyAnd, ibit_ofNat, ibit_negSucc, Nat.testBit_and,
    Nat.testBit_or, Nat.testBit_xor] <;> grind

theorem ibit_pyOr (a b : Int) (i : Nat) : ibit (pyOr a b) i = (ibit a i || ibit b i) := by
  simp [pyOr, ibit_pyNot, ibit_pyAnd]

theorem ibit_pyXor (a b : Int) (i : Nat) : ibit (pyXor a b) i = (ibit a i ^^ ibit b i) := by
  cases a <;> cases b <;> simp only [pyXor, ibit_ofNat, ibit_negSucc, Nat.testBit_xor] <;> grind

theorem ibit_zero (i : Nat) : ibit 0 i = false := by simp [ibit]

theorem ibit_emod (v : Int) (n i : Nat) : ibit (v % 2 ^ n) i = (decide (i < n) && ibit v i) := by
  unfold ibit
  by_cases h : i < n
  · simp only [h, decide_true, Bool.true_and, decide_eq_decide]
    obtain ⟨k, rfl⟩ : ∃ k, n = i + 1 + k := ⟨n - i - 1, by omega⟩
    have e : v = v % 2 ^ (i + 1 + k) + 2 ^ i * (2 * (2 ^ k * (v / 2 ^ (i + 1 + k)))) := by
      conv_lhs => rw [← Int.emod_add_mul_ediv v (2 ^ (i + 1 + k))]
      ring
    conv_rhs => rw [e]
    rw [Int.add_mul_ediv_left _ _ (by have := two_pow_pos i; omega)]
    omega
  · simp only [h, decide_false, Bool.false_and, decide_eq_false_iff_not]
    have h1 : v % 2 ^ n < 2 ^ n := Int.emod_lt_of_pos _ (two_pow_pos n)
    have h0 : 0 ≤ v % 2 ^ n := Int.emod_nonneg _ (by have := two_pow_pos n; omega)
    have h2 : (2 : Int) ^ n ≤ 2 ^ i := by
      exact_mod_cast Nat.pow_le_pow_right (by omega) (by omega)
    rw [Int.ediv_eq_zero_of_lt h0 (by omega)]
    simp

theorem ibit_mask (n i : Nat) : ibit (2 ^ n - 1) i = decide (i < n) := by
  have : ((2 : Int) ^ n - 1) = Int.ofNat (2 ^ n - 1) := by
    have := Nat.two_pow_pos n
    rw [Int.ofNat_eq_natCast, Int.natCast_sub this]; simp
  rw [this, ibit_ofNat, Nat.testBit_two_pow_sub_one]

theorem pyAnd_mask (v : Int) (n : Nat) : pyAnd v (2 ^ n - 1) = v % 2 ^ n := by
  apply ibit_ext; intro i
  rw [ibit_pyAnd, ibit_mask, ibit_emod, Bool.and_comm]

theorem pyAnd_one (v : Int) : pyAnd v 1 = v % 2 := by
  have := pyAnd_mask v 1
  simpa using this

theorem fdiv_two_pow (v : Int) (k : Nat) : Int.fdiv v (2 ^ k) = v / 2 ^ k :=
  Int.fdiv_eq_ediv_of_nonneg _ (by have := two_pow_pos k; omega)

theorem ibit_div (v : Int) (k i : Nat) : ibit (v / 2 ^ k) i = ibit v (k + i) := by
  unfold ibit
  rw [Int.ediv_ediv_of_nonneg (by have := two_pow_pos k; omega), ← Int.pow_add]

theorem ibit_mul (v : Int) (k i : Nat) :
    ibit (v * 2 ^ k) i = (decide (k ≤ i) && ibit v (i - k)) := by
  by_cases h : k ≤ i
  · obtain ⟨j, rfl⟩ : ∃ j, i = k + j := ⟨i - k, by omega⟩
    rw [← ibit_div, Int.mul_ediv_cancel _ (by have := two_pow_pos k; omega)]
    simp
  · simp only [h, decide_false, Bool.false_and]
    have e : v * 2 ^ k % 2 ^ k = 0 := Int.mul_emod_left _ _
    have := ibit_emod (v * 2 ^ k) k i
    rw [e, ibit_zero] at this
    simpa [show i < k by omega] using this.symm

theorem ibit_lt {v : Int} {n : Nat} (h0 : 0 ≤ v) (h1 : v < 2 ^ n) {i : Nat} (h : n ≤ i) :
    ibit v i = false := by
  have := ibit_emod v n i
  rw [Int.emod_eq_of_lt h0 h1] at this
  simpa [show ¬ i < n by omega] using this

theorem ibit_add_mul {x y : Int} {n : Nat} (h0 : 0 ≤ x) (h1 : x < 2 ^ n) (i : Nat) :
    ibit (x + y * 2 ^ n) i = if i < n then ibit x i else ibit y (i - n) := by
  split
  · rename_i h
    have := ibit_emod (x + y * 2 ^ n) n i
    rw [Int.add_mul_emod_self_right, Int.emod_eq_of_lt h0 h1] at this
    simpa [h] using this.symm
  · rename_i h
    obtain ⟨j, rfl⟩ : ∃ j, i = n + j := ⟨i - n, by omega⟩
    rw [← ibit_div, Int.add_mul_ediv_right _ _ (by have := two_pow_pos n; omega),
      Int.ediv_eq_zero_of_lt h0 h1]
    simp

theorem pyOr_add {x y : Int} {n : Nat} (h0 : 0 ≤ x) (h1 : x < 2 ^ n) :
    pyOr x (y * 2 ^ n) = x + y * 2 ^ n := by
  apply ibit_ext; intro i
  rw [ibit_pyOr, ibit_add_mul h0 h1, ibit_mul]
  split
  · rename_i h; simp [show ¬ n ≤ i by omega]
  · rename_i h; simp [show n ≤ i by omega, ibit_lt h0 h1 (show n ≤ i by omega)]

/-! ### bit lists -/

theorem ofBits_bounds (l : List Bool) : 0 ≤ ofBits l ∧ ofBits l < 2 ^ l.length := by
  induction l with
  | nil => simp [ofBits]
  | cons b l ih =>
    simp only [ofBits, List.length_cons, Int.pow_succ]
    split <;> omega

theorem ofBits_append (a b : List Bool) : ofBits (a ++ b) = ofBits a + ofBits b * 2 ^ a.length := by
  induction a with
  | nil => simp [ofBits]
  | cons x a ih =>
    simp only [List.cons_append, ofBits, ih, List.length_cons, Int.pow_succ]; ring

theorem ibit_ofBits (l : List Bool) (i : Nat) : ibit (ofBits l) i = l[i]?.getD false := by
  induction l generalizing i with
  | nil => simp [ofBits, ibit_zero]
  | cons b l ih =>
    have e : ofBits (b :: l) = (if b then 1 else 0) + ofBits l * 2 ^ 1 := by
      simp [ofBits]; ring
    rw [e, ibit_add_mul (by split <;> simp) (by split <;> simp)]
    cases i with
    | zero => cases b <;> simp [ibit]
    | succ i => simp [ih]

theorem seq2intGo_eq (l : List Bool) (idx : Nat) (acc : Int) (h0 : 0 ≤ acc) (h1 : acc < 2 ^ idx) :
    seq2intGo idx acc l = acc + ofBits l * 2 ^ idx := by
  induction l generalizing idx acc with
  | nil => simp [seq2intGo, ofBits]
  | cons b l ih =>
    have hp := two_pow_pos idx
    have hb : 0 ≤ b2i b ∧ b2i b ≤ 1 := by cases b <;> simp [b2i]
    rw [seq2intGo, pyOr_add h0 h1, ih]
    · simp only [ofBits, b2i, Int.pow_succ]; ring
    · nlinarith
    · rw [Int.pow_succ]; nlinarith

end HW
