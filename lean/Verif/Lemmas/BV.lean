import Verif.Lemmas.PyInt
import Verif.Spec.Vector

/-! Lemmas about the vector model: canonical form of every method. -/

namespace HW
open Spec

theorem seq2int_eq (l : List Bool) : seq2int l = ofBits l := by
  rw [seq2int, seq2intGo_eq l 0 0 (by omega) (by simp)]; simp

theorem mkBV_eq (k : Kind) (n : Nat) (o : Obj) :
    mkBV k n o = match o.denotes with
      | some v => .ok ⟨k, n, v % 2 ^ n⟩
      | none => .error .typeError := by
  cases o with
  | other i b => cases i <;> simp [mkBV, Obj.denotes, pyAnd_mask, bind, Except.bind, pure, Except.pure]
  | _ => simp [mkBV, Obj.denotes, pyAnd_mask, seq2int_eq, b2i, bind, Except.bind, pure, Except.pure]

@[simp] theorem mkBV_int (k : Kind) (n : Nat) (v : Int) :
    mkBV k n (.int v) = .ok ⟨k, n, v % 2 ^ n⟩ := by simp [mkBV_eq, Obj.denotes]

@[simp] theorem mk'_eq (x : BVal) (v : Int) : x.mk' v = .ok ⟨x.kind, x.size, v % 2 ^ x.size⟩ := by
  simp [BVal.mk']

theorem mod_WF (k : Kind) (n : Nat) (v : Int) : BVal.WF ⟨k, n, v % 2 ^ n⟩ :=
  ⟨Int.emod_nonneg _ (by have := two_pow_pos n; omega), Int.emod_lt_of_pos _ (two_pow_pos n)⟩

theorem BVal.WF.mod_eq {x : BVal} (h : x.WF) : x.value % 2 ^ x.size = x.value :=
  Int.emod_eq_of_lt h.1 h.2

theorem mkBV_WF {k : Kind} {n : Nat} {o : Obj} {x : BVal} (h : mkBV k n o = .ok x) :
    x.WF ∧ x.kind = k ∧ x.size = n := by
  rw [mkBV_eq] at h
  split at h <;> simp at h
  subst h
  exact ⟨mod_WF _ _ _, rfl, rfl⟩

theorem coerce_WF {k : Kind} {n : Nat} {o : Obj} {y : BVal} (ho : o.WF)
    (h : coerce k n o = .ok y) : y.WF ∧ y.size = n := by
  cases o with
  | bv b =>
    simp only [coerce] at h
    split at h <;> simp at h
    subst h
    rename_i hb
    exact ⟨ho, by simpa using hb⟩
  | _ => simp only [coerce] at h; exact ⟨(mkBV_WF h).1, (mkBV_WF h).2.2⟩

/-! ### bits -/

theorem length_toBits (n : Nat) (v : Int) : (toBits n v).length = n := by simp [toBits]

theorem getElem?_toBits (n : Nat) (v : Int) (i : Nat) :
    (toBits n v)[i]? = if i < n then some (ibit v i) else none := by
  simp [toBits, List.getElem?_map]
  split <;> simp_all

theorem ofBits_toBits (n : Nat) (v : Int) : ofBits (toBits n v) = v % 2 ^ n := by
  apply ibit_ext; intro i
  rw [ibit_ofBits, getElem?_toBits, ibit_emod]
  split <;> simp_all

theorem toBits_ofBits (l : List Bool) : toBits l.length (ofBits l) = l := by
  apply List.ext_getElem?; intro i
  rw [getElem?_toBits, ibit_ofBits]
  split
  · rename_i h; simp [h]
  · rename_i h; simp [Nat.le_of_not_lt h]

theorem and_one_bit (v : Int) (i : Nat) : pyAnd (v / 2 ^ i) 1 = b2i (ibit v i) := by
  rw [pyAnd_one, ibit, b2i]
  rcases Int.emod_two_eq_zero_or_one (v / 2 ^ i) with h | h <;> simp [h]

theorem int2seq_eq (v : Int) (n : Nat) : int2seq v n = (toBits n v).map b2i := by
  simp [int2seq, toBits, fdiv_two_pow, and_one_bit]

theorem truthy_b2i (b : Bool) : truthy (b2i b) = b := by cases b <;> rfl

theorem bits_eq (x : BVal) : x.bits = (toBits x.size x.value).map b2i := int2seq_eq _ _

theorem mkBit_b2i (b : Bool) : mkBit (.int (b2i b)) = .ok b := by cases b <;> rfl

theorem getIdx_eq (x : BVal) (i : Int) :
    x.getIdx i = match pyIndex? x.size i with
      | some j => .ok (ibit x.value j)
      | none => .error .indexError := by
  unfold BVal.getIdx pyIndex?
  by_cases h : i < 0
  · have e : ¬ (0 ≤ i ∧ i < x.size) := by omega
    simp only [h, if_true, if_neg e, and_true]
    by_cases h2 : -(x.size : Int) ≤ i
    · have e2 : (0 ≤ (x.size : Int) + i ∧ (x.size : Int) + i < x.size) := by omega
      simp only [e2, not_true, if_false, and_self, h2, if_true, pyShr]
      rw [if_neg (by omega)]
      simp only [bind, Except.bind, fdiv_two_pow, and_one_bit, mkBit_b2i]
    · have e2 : ¬ (0 ≤ (x.size : Int) + i ∧ (x.size : Int) + i < x.size) := by omega
      simp only [e2, not_false_iff, if_true, h2, if_false]
  · simp only [h, if_false, and_false]
    by_cases h2 : 0 ≤ i ∧ i < x.size
    · simp only [h2, not_true, if_false, and_self, if_true, pyShr]
      rw [if_neg h]
      simp only [bind, Except.bind, fdiv_two_pow, and_one_bit, mkBit_b2i]
    · simp only [h2, not_false_iff, if_true, if_false]

theorem ibit_top {n : Nat} {v : Int} (hn : 0 < n) (h0 : 0 ≤ v) (h1 : v < 2 ^ n) :
    ibit v (n - 1) = decide (2 ^ n ≤ 2 * v) := by
  obtain ⟨k, rfl⟩ : ∃ k, n = k + 1 := ⟨n - 1, by omega⟩
  have hp := two_pow_pos k
  rw [Int.pow_succ] at *
  simp only [ibit, Nat.add_sub_cancel, decide_eq_decide]
  by_cases h : v < 2 ^ k
  · rw [Int.ediv_eq_zero_of_lt h0 h]; omega
  · have : v / 2 ^ k = 1 := by
      rw [Int.ediv_eq_iff_of_pos hp]; omega
    rw [this]; omega

theorem asSint_eq {x : BVal} (h : x.WF) :
    x.asSint = if x.size = 0 then .error .indexError else .ok (signed x.size x.value) := by
  unfold BVal.asSint
  rw [getIdx_eq]
  by_cases hn : x.size = 0
  · simp [pyIndex?, hn, bind, Except.bind]
  · have e : pyIndex? x.size (-1) = some (x.size - 1) := by
      unfold pyIndex?
      rw [if_neg (by omega), if_pos (by omega)]
      congr 1; omega
    simp only [e, hn, if_false, bind, Except.bind, pure, Except.pure]
    rw [ibit_top (by omega) h.1 h.2, signed]
    by_cases h2 : 2 * x.value < 2 ^ x.size
    · simp [h2, Int.not_le.mpr h2]
    · simp [h2, Int.not_lt.mp h2]

theorem signed_bounds {n : Nat} {u : Int} (hn : 0 < n) (h0 : 0 ≤ u) (h1 : u < 2 ^ n) :
    -(2 ^ (n - 1)) ≤ signed n u ∧ signed n u < 2 ^ (n - 1) := by
  obtain ⟨k, rfl⟩ : ∃ k, n = k + 1 := ⟨n - 1, by omega⟩
  simp only [signed, Int.pow_succ, Nat.add_sub_cancel] at *
  split <;> omega

theorem signed_mod (n : Nat) (u : Int) : signed n u % 2 ^ n = u % 2 ^ n := by
  unfold signed; split
  · rfl
  · simp

end HW
