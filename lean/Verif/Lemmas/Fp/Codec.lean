import Verif.Lemmas.Fp.Text
import Verif.Lemmas.Fp.Dir
import Verif.Lemmas.Methods
import Verif.Spec.Fp

namespace HW.Fp
open Spec

theorem slice_pos (x : BVal) {sa sb : Option Int} {a b : Nat} (ha : (sa.map (slicePos x.size)).getD 0 = a)
    (hb : (sb.map (slicePos x.size)).getD x.size = b) (hab : a ≤ b) (hbn : b ≤ x.size) :
    x.getSlice ⟨sa, sb, none⟩ = .ok ⟨x.kind, b - a, (x.value / 2 ^ a) % 2 ^ (b - a)⟩ := by
  rw [getSlice_eq, pySliceList_step1, length_toBits, ha, hb]
  simp only [Except.map]
  have : ((toBits x.size x.value).take b).drop a = toBits (b - a) (x.value / 2 ^ a) := by
    apply List.ext_getElem?
    intro i
    rw [List.getElem?_drop, List.getElem?_take, getElem?_toBits, getElem?_toBits, ibit_div]
    repeat' split
    all_goals first | rfl | omega
  rw [this, length_toBits, ofBits_toBits]

variable {f : Fmt} {s : Bool} {E M : Nat}

theorem cast_pow (n : Nat) : ((2 ^ n : Nat) : Int) = 2 ^ n := by push_cast; rfl

theorem pattern_bounds (h : f.Fields E M) : 0 ≤ f.pattern s E M ∧ f.pattern s E M < 2 ^ f.size := by
  obtain ⟨h1, h2⟩ := h
  have h1' : (E : Int) < 2 ^ f.eb := by rw [← cast_pow]; exact_mod_cast h1
  have h2' : (M : Int) < 2 ^ f.mb := by rw [← cast_pow]; exact_mod_cast h2
  have p1 := two_pow_pos f.eb
  have p2 := two_pow_pos f.mb
  have e1 : (2 : Int) ^ f.size = 2 * (2 ^ f.eb * 2 ^ f.mb) := by
    unfold Fmt.size; rw [pow_add, pow_add]; ring
  unfold Fmt.pattern
  rw [e1, pow_add]
  have h3 : (E : Int) * 2 ^ f.mb ≤ (2 ^ f.eb - 1) * 2 ^ f.mb := mul_le_mul_of_nonneg_right (by omega) p2.le
  have h4 : (0 : Int) ≤ E * 2 ^ f.mb := by positivity
  have h5 : (0 : Int) < 2 ^ f.eb * 2 ^ f.mb := by positivity
  rw [sub_mul] at h3
  cases s
  · simp; constructor <;> linarith
  · simp; constructor <;> linarith

/-- Fields of a pattern. -/
theorem pattern_fields (h : f.Fields E M) :
    f.pattern s E M % 2 ^ f.mb = M ∧ (f.pattern s E M / 2 ^ f.mb) % 2 ^ f.eb = E ∧
    (f.pattern s E M / 2 ^ (f.eb + f.mb)) % 2 ^ 1 = if s then 1 else 0 := by
  obtain ⟨h1, h2⟩ := h
  have h1' : (E : Int) < 2 ^ f.eb := by rw [← cast_pow]; exact_mod_cast h1
  have h2' : (M : Int) < 2 ^ f.mb := by rw [← cast_pow]; exact_mod_cast h2
  have p1 := two_pow_pos f.eb
  have p2 := two_pow_pos f.mb
  have e1 : f.pattern s E M = M + ((if s then 1 else 0) * 2 ^ f.eb + E) * 2 ^ f.mb := by
    unfold Fmt.pattern; rw [pow_add]; ring
  have d1 : f.pattern s E M / 2 ^ f.mb = (if s then 1 else 0) * 2 ^ f.eb + E := by
    rw [e1, Int.add_mul_ediv_right _ _ p2.ne', Int.ediv_eq_zero_of_lt (by omega) h2', zero_add]
  refine ⟨?_, ?_, ?_⟩
  · rw [e1, Int.add_mul_emod_self_right, Int.emod_eq_of_lt (by omega) h2']
  · rw [d1, add_comm, Int.add_mul_emod_self_right, Int.emod_eq_of_lt (by omega) h1']
  · rw [add_comm f.eb, pow_add, ← Int.ediv_ediv_of_nonneg p2.le, d1, add_comm,
      Int.add_mul_ediv_right _ _ p1.ne', Int.ediv_eq_zero_of_lt (by omega) h1', zero_add]
    cases s <;> rfl

theorem slices (k : Kind) (hf : f.Ok) (h : f.Fields E M) :
    (BVal.mk k f.size (f.pattern s E M)).getSlice ⟨none, some f.mb, none⟩ = .ok ⟨k, f.mb, M⟩ ∧
    (BVal.mk k f.size (f.pattern s E M)).getSlice ⟨some f.mb, some (-1), none⟩ = .ok ⟨k, f.eb, E⟩ ∧
    (BVal.mk k f.size (f.pattern s E M)).getSlice ⟨some (-1), none, none⟩ = .ok ⟨k, 1, if s then 1 else 0⟩ := by
  obtain ⟨h1, h2, h3⟩ := pattern_fields (s := s) h
  obtain ⟨hf1, hf2⟩ := hf
  refine ⟨?_, ?_, ?_⟩
  · rw [slice_pos (a := 0) (b := f.mb) _ rfl (by simp [slicePos]) (by omega) (by unfold Fmt.size; dsimp only; omega)]
    simp [h1]
  · rw [slice_pos (a := f.mb) (b := f.mb + f.eb) _ (by simp [slicePos])
      (by simp [slicePos, Fmt.size]; omega) (by omega) (by unfold Fmt.size; dsimp only; omega)]
    simp [h2]
  · rw [slice_pos (a := f.eb + f.mb) (b := f.size) _ (by simp [slicePos, Fmt.size]; omega) (by simp)
      (by unfold Fmt.size; omega) (by dsimp only; omega)]
    have : f.size - (f.eb + f.mb) = 1 := by unfold Fmt.size; omega
    simp only [this, h3]

theorem eqInt_eq (k : Kind) (n : Nat) (v c : Int) : eqInt ⟨k, n, v⟩ c = .ok (decide (v = c % 2 ^ n)) := by
  simp [eqInt, BVal.bveq, BVal.cast, coerce, mkBV_eq, Obj.denotes, bind, Except.bind, mkBit, BVal.asUint]
  rfl

theorem bveq_eq (k : Kind) (n : Nat) (v c : Int) : (BVal.mk k n v).bveq (.int c) = .ok (decide (v = c % 2 ^ n)) :=
  eqInt_eq k n v c

theorem bvne_eq (k : Kind) (n : Nat) (v c : Int) : (BVal.mk k n v).bvne (.int c) = .ok (decide (v ≠ c % 2 ^ n)) := by
  simp [BVal.bvne, BVal.cast, coerce, mkBV_eq, Obj.denotes, bind, Except.bind, mkBit, BVal.asUint]
  rfl

theorem sign_idx (k : Kind) (s : Bool) : (BVal.mk k 1 (if s then 1 else 0)).getIdx 0 = .ok s := by
  rw [getIdx_eq]; cases s <;> rfl

theorem sign_bool (k : Kind) (s : Bool) : (BVal.mk k 1 (if s then 1 else 0)).toBool = .ok s := by
  unfold BVal.toBool BVal.toInt
  dsimp only
  split
  · rw [asSint_eq (by cases s <;> simp [BVal.WF])]
    cases s <;> rfl
  · cases s <;> rfl

theorem fieldsM (h : f.Fields E M) : (M : Int) < 2 ^ f.mb := by
  rw [← cast_pow]; exact_mod_cast h.2

theorem fieldsE (h : f.Fields E M) : (E : Int) < 2 ^ f.eb := by
  rw [← cast_pow]; exact_mod_cast h.1

/-! ### The context of a format -/

theorem pow_eb (hf : f.Ok) : (2 : Int) ^ f.eb = 2 * f.bias + 2 := by
  have : (2 : Int) ^ f.eb = 2 ^ (f.eb - 1) * 2 := by
    rw [← pow_succ]; congr 1; have := hf.1; omega
  unfold Fmt.bias; omega

theorem bias_nonneg (f : Fmt) : 0 ≤ f.bias := by
  have := two_pow_pos (f.eb - 1)
  unfold Fmt.bias; omega

theorem ctx_p (f : Fmt) : f.ctx.precision = f.mb + 1 := rfl
theorem ctx_emax (f : Fmt) : f.ctx.emax = f.bias + 1 := by
  simp only [Fmt.ctx, Fmt.bias]; omega
theorem ctx_emin (f : Fmt) : f.ctx.emin = if f.ieee then 2 - f.bias - f.mb else 2 - f.bias := by
  simp only [Fmt.ctx, Fmt.bias]; push_cast; split <;> omega
theorem ctx_sub (f : Fmt) : f.ctx.subnormalize = f.ieee := rfl

theorem ctx_emin_le (f : Fmt) : f.ctx.emin ≤ 2 - f.bias := by
  rw [ctx_emin]; split <;> omega

theorem normal_norm (hf : f.Ok) (h : f.Fields E M) (h0 : E ≠ 0) (h1 : E ≠ 2 ^ f.eb - 1) :
    f.ctx.Norm (2 ^ f.mb + M) (E - f.bias - f.mb) := by
  have hM := h.2
  have hE := fieldsE h
  have hE' : (E : Int) ≤ 2 ^ f.eb - 2 := by
    have h2 : E ≤ 2 ^ f.eb - 2 := by have := h.1; omega
    have h3 : 2 ≤ 2 ^ f.eb := by
      calc 2 = 2 ^ 1 := rfl
        _ ≤ _ := Nat.pow_le_pow_right (by omega) hf.1
    have h4 : ((2 ^ f.eb - 2 : Nat) : Int) = 2 ^ f.eb - 2 := by
      rw [Nat.cast_sub h3, cast_pow]; rfl
    rw [← h4]; exact_mod_cast h2
  have hp := pow_eb hf
  refine ⟨⟨?_, ?_⟩, ?_, ?_, ?_⟩
  · rw [ctx_p]; simp
  · rw [ctx_p, pow_succ]; omega
  · have := ctx_emin_le f
    rw [ctx_p]; push_cast; omega
  · rw [ctx_p, ctx_emax]; push_cast; omega
  · intro hs
    rw [ctx_sub] at hs
    have he : f.ctx.emin - 1 ≤ E - f.bias - f.mb := by rw [ctx_emin, hs]; simp; omega
    exact ⟨(2 ^ f.mb + M) * 2 ^ (E - f.bias - f.mb - (f.ctx.emin - 1)).toNat, by
      rw [zpow_mul_nat he]; push_cast; ring⟩

theorem sub_norm (hi : f.ieee = true) (h : f.Fields E M) (h0 : M ≠ 0) :
    ∃ m e, f.ctx.Norm m e ∧ (m : ℚ) * 2 ^ e = M * 2 ^ (1 - f.bias - f.mb) := by
  have hM := h.2
  have hb := bias_nonneg f
  obtain ⟨m, e, _, h2, h3⟩ := normalize_spec (p := f.ctx.precision) (r := M) (by rw [ctx_p]; omega) (by omega)
    (by rw [ctx_p, pow_succ]; omega) false (1 - f.bias - f.mb)
  have hmin : f.ctx.emin - 1 = 1 - f.bias - f.mb := by rw [ctx_emin, hi]; simp; ring
  have hM1 : (1 : ℚ) ≤ M := by exact_mod_cast Nat.pos_of_ne_zero h0
  have hM2 : (M : ℚ) < (2 ^ f.mb : Nat) := by exact_mod_cast hM
  have hz := two_zpow_pos (1 - f.bias - f.mb)
  refine ⟨m, e, ⟨h2, ?_, ?_, ?_⟩, h3⟩
  · have := (h2.bounds e).2
    rw [h3] at this
    have h4 : (2 : ℚ) ^ (f.ctx.emin - 1) < 2 ^ (e + f.ctx.precision) := by
      rw [hmin]; nlinarith
    have := lt_of_zpow h4; omega
  · have := (h2.bounds e).1
    rw [h3] at this
    have h4 : (2 : ℚ) ^ (e + f.ctx.precision - 1) < 2 ^ (1 - f.bias) := by
      rw [show 1 - f.bias = f.mb + (1 - f.bias - f.mb) by ring, zpow_add', zpow_nat]
      exact lt_of_le_of_lt this (mul_lt_mul_of_pos_right hM2 hz)
    have := lt_of_zpow h4
    rw [ctx_emax]; omega
  · intro _
    exact ⟨M, by rw [h3, hmin]⟩

theorem toRat_fin (s : Bool) (m : Nat) (e : Int) : (Mpfr.fin s m e).toRat = if s then -((m : ℚ) * 2 ^ e) else m * 2 ^ e := by
  cases s <;> simp [Mpfr.toRat]

theorem ofText_exact {m : Nat} {e : Int} (hn : f.ctx.Norm m e) {l : List Char} {a : ℚ}
    (h : parseBin l = some (s, a)) (ha : (m : ℚ) * 2 ^ e = a) : f.ctx.ofText l = .ok (.fin s m e) := by
  unfold Ctx.ofText
  rw [h]
  dsimp only
  rw [← ha, ← toRat_fin, ofRat_exact hn]

theorem ofMpfr_exact {m : Nat} {e : Int} (hn : f.ctx.Norm m e) : f.ofMpfr (.fin s m e) = .fin s m e := by
  unfold Fmt.ofMpfr Ctx.ofMpfr
  dsimp only
  rw [ofRat_exact hn]; rfl

theorem unbias (hf : f.Ok) (k : Kind) (h : f.Fields E M) (h1 : E ≠ 2 ^ f.eb - 1) :
    ∃ y, (BVal.mk k f.eb E).bvsub (.int f.bias) = .ok y ∧ y.asSint = .ok ((E : Int) - f.bias) := by
  have hE := fieldsE h
  have hp := pow_eb hf
  have hb := bias_nonneg f
  have hp0 := two_pow_pos f.eb
  have hE' : (E : Int) ≠ 2 ^ f.eb - 1 := by
    intro h'
    apply h1
    have : ((2 ^ f.eb - 1 : Nat) : Int) = 2 ^ f.eb - 1 := by
      rw [Nat.cast_sub (Nat.one_le_two_pow), cast_pow]; rfl
    rw [← this] at h'; exact_mod_cast h'
  refine ⟨⟨k, f.eb, (E - f.bias) % 2 ^ f.eb⟩, ?_, ?_⟩
  · simp [BVal.bvsub, BVal.cast, coerce, mkBV_eq, Obj.denotes, bind, Except.bind, BVal.asUint, BVal.mk']
  · rw [asSint_eq (mod_WF _ _ _), if_neg (by have := hf.1; dsimp only; omega)]
    dsimp only
    congr 1
    unfold signed
    rcases le_or_gt f.bias E with h2 | h2
    · rw [Int.emod_eq_of_lt (by omega) (by omega), if_pos (by omega)]
    · have : ((E : Int) - f.bias) % 2 ^ f.eb = E - f.bias + 2 ^ f.eb := by
        rw [← Int.add_emod_right, Int.emod_eq_of_lt (by omega) (by omega)]
      rw [this, if_neg (by omega)]; omega

/-- Decoding a pattern. -/
inductive Decoded (f : Fmt) (s : Bool) (E M : Nat) : Mpfr → Prop
  | inf : E = 2 ^ f.eb - 1 → M = 0 → Decoded f s E M (.inf s)
  | nan : E = 2 ^ f.eb - 1 → M ≠ 0 → f.ieee = true → Decoded f s E M (.nan false)
  | nanFlush : E = 2 ^ f.eb - 1 → M ≠ 0 → f.ieee = false → Decoded f s E M (.inf false)
  | zero : E = 0 → M = 0 → Decoded f s E M (.zero s)
  | sub (m : Nat) (e : Int) : E = 0 → M ≠ 0 → f.ieee = true → f.ctx.Norm m e →
      (m : ℚ) * 2 ^ e = M * 2 ^ (1 - f.bias - f.mb) → Decoded f s E M (.fin s m e)
  | subFlush : E = 0 → M ≠ 0 → f.ieee = false → Decoded f s E M (.zero s)
  | normal : E ≠ 0 → E ≠ 2 ^ f.eb - 1 → Decoded f s E M (.fin s (2 ^ f.mb + M) (E - f.bias - f.mb))

theorem fromBV_decoded (hf : f.Ok) (k : Kind) (h : f.Fields E M) (s : Bool) :
    ∃ v, f.fromBV ⟨k, f.size, f.pattern s E M⟩ = .ok v ∧ Decoded f s E M v := by
  obtain ⟨s1, s2, s3⟩ := slices (s := s) k hf h
  have hE := fieldsE h
  have hM := fieldsM h
  have hpe := two_pow_pos f.eb
  have hpe2 : (2 : Int) ≤ 2 ^ f.eb := by have := pow_eb hf; have := bias_nonneg f; omega
  have hcast : ((2 ^ f.eb - 1 : Nat) : Int) = 2 ^ f.eb - 1 := by
    rw [Nat.cast_sub (Nat.one_le_two_pow), cast_pow]; rfl
  have hm1 : (-1 : Int) % 2 ^ f.eb = 2 ^ f.eb - 1 := by
    rw [← Int.add_emod_right, Int.emod_eq_of_lt (by omega) (by omega)]; omega
  have wM : BVal.WF ⟨k, f.mb, M⟩ := ⟨by simp, hM⟩
  unfold Fmt.fromBV
  rw [if_neg (by simp)]
  simp only [s1, s2, s3, bind, Except.bind, ne_eq, not_true, if_false, eqInt_eq, bveq_eq, bvne_eq, sign_idx, sign_bool,
    Int.zero_emod, hm1]
  by_cases hE0 : E = 0
  · by_cases hM0 : M = 0
    · refine ⟨.zero s, ?_, .zero hE0 hM0⟩
      simp only [hE0, hM0]
      cases s <;> rfl
    · by_cases hi : f.ieee = true
      · obtain ⟨m, e, h1, h2⟩ := sub_norm hi h hM0
        refine ⟨.fin s m e, ?_, .sub m e hE0 hM0 hi h1 h2⟩
        have ht := ofText_exact h1 (parseBin_text wM s false (1 - f.bias)) (by simpa using h2)
        simp only [hE0, hi]
        simp at ht ⊢
        rw [ht]
        simp [ofMpfr_exact h1, pure, Except.pure, hM0]
      · refine ⟨.zero s, ?_, .subFlush hE0 hM0 (by simpa using hi)⟩
        simp only [hE0, hi]
        cases s <;> simp [hM0, pure, Except.pure, Fmt.finish]
  · have hE0' : ¬ (E : Int) = 0 := by omega
    by_cases hE1 : E = 2 ^ f.eb - 1
    · have hE1' : (E : Int) = 2 ^ f.eb - 1 := by rw [hE1, hcast]
      by_cases hM0 : M = 0
      · refine ⟨.inf s, ?_, .inf hE1 hM0⟩
        rw [hE1'] at hE0'
        cases s <;> simp [hE0', hE1', hM0, pure, Except.pure, Fmt.finish]
      · by_cases hi : f.ieee = true
        · refine ⟨.nan false, ?_, .nan hE1 hM0 hi⟩
          rw [hE1'] at hE0'
          simp [hE0', hE1', hM0, pure, Except.pure, Fmt.finish, hi]
        · refine ⟨.inf false, ?_, .nanFlush hE1 hM0 (by simpa using hi)⟩
          rw [hE1'] at hE0'
          simp [hE0', hE1', hM0, pure, Except.pure, Fmt.finish, hi]
    · have hE1' : ¬ (E : Int) = 2 ^ f.eb - 1 := by
        rw [← hcast]; exact_mod_cast hE1
      obtain ⟨y, hy1, hy2⟩ := unbias hf k h hE1
      have hn := normal_norm hf h hE0 hE1
      refine ⟨_, ?_, .normal hE0 hE1⟩
      have ht := ofText_exact hn (parseBin_text wM s true (E - f.bias)) (by simp)
      simp only [hE0', hE1', hy1, hy2]
      simp at ht ⊢
      rw [ht]
      simp [ofMpfr_exact hn, pure, Except.pure]

/-! ### Encoding -/

theorem shiftLoop_mul (n : Nat) (v : Int) : shiftLoop n (v * 2 ^ n) = v := by
  induction n generalizing v with
  | zero => simp [shiftLoop]
  | succ n ih =>
    have e : v * 2 ^ (n + 1) = v * 2 ^ n * 2 := by rw [pow_succ]; ring
    have e2 : Int.fdiv (v * 2 ^ n * 2) 2 = v * 2 ^ n := by
      have := fdiv_two_pow (v * 2 ^ n * 2) 1
      rw [pow_one] at this
      rw [this]; omega
    rw [shiftLoop, e, e2, ih]

theorem mkBV_other (k : Kind) (n : Nat) (v : Int) : mkBV k n (.other (some v) none) = .ok ⟨k, n, v % 2 ^ n⟩ := by
  simp [mkBV_eq, Obj.denotes]

theorem signVec (k : Kind) (s : Bool) : mkBV k 1 (.bool s) = .ok ⟨k, 1, if s then 1 else 0⟩ := by
  rw [mkBV_eq]; cases s <;> rfl

theorem WF_sign (k : Kind) (s : Bool) : BVal.WF ⟨k, 1, if s then 1 else 0⟩ := by
  cases s <;> simp [BVal.WF]

theorem assemble (k : Kind) (h : f.Fields E M) :
    (do (← (BVal.mk k f.mb M).concat ⟨k, f.eb, E⟩).concat ⟨k, 1, if s then 1 else 0⟩ : PyM BVal) =
      .ok ⟨k, f.size, f.pattern s E M⟩ := by
  have hE := fieldsE h
  have hM := fieldsM h
  have wM : BVal.WF ⟨k, f.mb, M⟩ := ⟨by simp, hM⟩
  have wE : BVal.WF ⟨k, f.eb, E⟩ := ⟨by simp, hE⟩
  have p2 := two_pow_pos f.mb
  have hw : BVal.WF ⟨k, f.mb + f.eb, M + E * 2 ^ f.mb⟩ := by
    refine ⟨by positivity, ?_⟩
    dsimp only
    rw [pow_add]
    have h3 : (E : Int) * 2 ^ f.mb ≤ (2 ^ f.eb - 1) * 2 ^ f.mb := mul_le_mul_of_nonneg_right (by omega) p2.le
    rw [sub_mul] at h3
    linarith
  rw [concat_eq wM wE]
  simp only [Kind.isSub_refl, if_true, bind, Except.bind]
  rw [concat_eq hw (WF_sign k s)]
  simp only [Kind.isSub_refl, if_true]
  congr 2
  · unfold Fmt.size; omega
  · unfold Fmt.pattern; rw [add_comm f.mb f.eb]; ring

theorem bitLength_le {n : Nat} {v : Int} (h0 : 0 ≤ v) (h : v < 2 ^ n) : pyBitLength v ≤ n := by
  unfold pyBitLength
  split
  · omega
  · rename_i h1
    have : v.natAbs < 2 ^ n := by
      have : (v.natAbs : Int) < ((2 ^ n : Nat) : Int) := by rw [cast_pow]; omega
      exact_mod_cast this
    exact (Nat.log2_lt h1).mpr this

/-- The mantissa bits: `±m` modulo `2^(mb+1)`, negated back, cut to `mb` bits. -/
theorem mantissa_bits (k : Kind) (s : Bool) {m : Nat} (hm : (m : Int) < 2 ^ (f.mb + 1)) :
    ∃ y : BVal, (if s then (BVal.mk k (f.mb + 1) ((if s then -(m : Int) else m) % 2 ^ (f.mb + 1))).bvneg
        else .ok ⟨k, f.mb + 1, (if s then -(m : Int) else m) % 2 ^ (f.mb + 1)⟩) = .ok y ∧
      y.getSlice ⟨none, some f.mb, none⟩ = .ok ⟨k, f.mb, (m : Int) % 2 ^ f.mb⟩ := by
  have key : (BVal.mk k (f.mb + 1) m).getSlice ⟨none, some f.mb, none⟩ = .ok ⟨k, f.mb, (m : Int) % 2 ^ f.mb⟩ := by
    rw [slice_pos (a := 0) (b := f.mb) _ rfl (by simp [slicePos]) (by omega) (by dsimp only; omega)]
    simp
  refine ⟨⟨k, f.mb + 1, m⟩, ?_, key⟩
  cases s
  · simp [Int.emod_eq_of_lt (by omega : (0 : Int) ≤ m) hm]
  · simp only [if_true, BVal.bvneg, BVal.mk', mkBV_int, BVal.asUint, pyNot]
    congr 2
    rw [Int.emod_def (-(m : Int)), show -(-(m : Int) - 2 ^ (f.mb + 1) * (-(m : Int) / 2 ^ (f.mb + 1))) - 1 + 1 =
      m + 2 ^ (f.mb + 1) * (-(m : Int) / 2 ^ (f.mb + 1)) by ring, Int.add_mul_emod_self_left,
      Int.emod_eq_of_lt (by omega) hm]

theorem asBV_decoded (h : f.Fields E M) {v : Mpfr} (hd : Decoded f s E M v)
    (hfin : ∃ m e, v = .fin s m e) : f.asBV v = .ok ⟨.root .bv, f.size, f.pattern s E M⟩ := by
  have hE := fieldsE h
  have hM := fieldsM h
  have hM' := h.2
  have key : ∀ (m : Nat), m < 2 ^ (f.mb + 1) → m % 2 ^ f.mb = M →
      (do
        let signBit : BVal := ⟨.root .bv, 1, if s then 1 else 0⟩
        let m' ← mkBV (.root .bv) (f.mb + 1) (.other (some (if s then -(m : Int) else m)) none)
        let mantissa ← if ← signBit.toBool then m'.bvneg else pure m'
        let e ← mkBV (.root .bv) f.eb (.other (some (E : Int)) none)
        let mb ← mantissa.getSlice ⟨none, some f.mb, none⟩
        (← mb.concat e).concat signBit : PyM BVal) = .ok ⟨.root .bv, f.size, f.pattern s E M⟩ := by
    intro m hm hmM
    have hm' : (m : Int) < 2 ^ (f.mb + 1) := by rw [← cast_pow]; exact_mod_cast hm
    have hmM' : (m : Int) % 2 ^ f.mb = M := by rw [← cast_pow]; exact_mod_cast hmM
    obtain ⟨y, h1, h2⟩ := mantissa_bits (f := f) (.root .bv) s hm'
    simp only [mkBV_other, bind, Except.bind, sign_bool]
    have hfin2 := assemble (s := s) (.root .bv) h
    simp only [bind, Except.bind] at hfin2
    have hE' := Int.emod_eq_of_lt (by omega : (0 : Int) ≤ E) hE
    rw [hmM'] at h2
    cases s
    · simp only [Bool.false_eq_true, if_false, pure, Except.pure] at h1 hfin2 ⊢
      injection h1 with h1
      rw [h1, h2, hE']
      exact hfin2
    · simp only [if_true] at h1 hfin2 ⊢
      rw [h1]
      dsimp only
      rw [h2, hE']
      exact hfin2
  obtain ⟨m, e, rfl⟩ := hfin
  have hbl := bitLength_le (by omega : (0 : Int) ≤ E) hE
  cases hd with
  | normal h0 h1 =>
    have e1 : ¬ ((E : Int) - f.bias - f.mb + f.mb < 1 - f.bias) := by omega
    have e2 : (E : Int) - f.bias - f.mb + f.mb + f.bias = E := by ring
    have := key (2 ^ f.mb + M) (by rw [pow_succ]; omega) (by rw [Nat.add_mod_left, Nat.mod_eq_of_lt hM'])
    unfold Fmt.asBV
    simp only [Mpfr.isSigned, signVec, bind, Except.bind, if_neg e1, e2, hbl, not_true, if_false] at this ⊢
    exact this
  | sub _ _ h0 h1 hi hn heq =>
    subst h0
    have hsig := hn.sig
    have hm1 : 2 ^ f.mb ≤ m := by have := hsig.1; rw [ctx_p] at this; simpa using this
    have hlt : e < 1 - f.bias - f.mb := by
      by_contra hge
      have h3 : (M : ℚ) < m := by exact_mod_cast lt_of_lt_of_le hM' hm1
      have := mul_lt_mul_of_pos_right h3 (two_zpow_pos (1 - f.bias - f.mb))
      have h4 := mul_le_mul_of_nonneg_left (zpow_le_of (not_lt.mp hge)) (show (0 : ℚ) ≤ m by positivity)
      linarith
    have hmn : m = M * 2 ^ (1 - f.bias - f.mb - e).toNat := by
      rw [zpow_mul_nat hlt.le, ← mul_assoc] at heq
      have := mul_right_cancel₀ (two_zpow_pos e).ne' heq
      exact_mod_cast this
    have e1 : e + f.mb < 1 - f.bias := by omega
    have e3 : (1 - f.bias - (e + f.mb)).toNat = (1 - f.bias - f.mb - e).toNat := by congr 1; ring
    have e2 : shiftLoop (1 - f.bias - (e + f.mb)).toNat (if s then -(m : Int) else m) = if s then -(M : Int) else M := by
      rw [e3, ← shiftLoop_mul (1 - f.bias - f.mb - e).toNat (if s then -(M : Int) else M)]
      congr 1
      rw [hmn]; cases s <;> simp
    have := key M (by rw [pow_succ]; omega) (Nat.mod_eq_of_lt hM')
    unfold Fmt.asBV
    simp only [Mpfr.isSigned, signVec, bind, Except.bind, if_pos e1, hi, not_true, if_false] at this ⊢
    rw [e2]
    simp only [show pyBitLength 0 ≤ f.eb by simp [pyBitLength], not_true, if_false]
    exact this

theorem asBV_zero (s : Bool) : f.asBV (.zero s) = .ok ⟨.root .bv, f.size, f.pattern s 0 0⟩ := by
  have w : BVal.WF ⟨.root .bv, f.size - 1, 0 % 2 ^ (f.size - 1)⟩ := mod_WF _ _ _
  unfold Fmt.asBV
  simp only [Mpfr.isSigned, signVec, bind, Except.bind, mkBV_int]
  rw [concat_eq w (WF_sign _ s)]
  simp only [Kind.isSub_refl, if_true]
  congr 2
  · unfold Fmt.size; omega
  · have : f.size - 1 = f.eb + f.mb := by unfold Fmt.size; omega
    simp [Fmt.pattern, this]

theorem ones_fields {M : Nat} (hM : M < 2 ^ f.mb) : f.Fields (2 ^ f.eb - 1) M :=
  ⟨by have : 0 < 2 ^ f.eb := by positivity
      omega, hM⟩

theorem minus_one (hf : f.Ok) : (-1 : Int) % 2 ^ f.eb = ((2 ^ f.eb - 1 : Nat) : Int) := by
  have hpe2 : (2 : Int) ≤ 2 ^ f.eb := by have := pow_eb hf; have := bias_nonneg f; omega
  rw [Nat.cast_sub (Nat.one_le_two_pow), cast_pow, ← Int.add_emod_right, Int.emod_eq_of_lt (by omega) (by omega)]
  push_cast; omega

theorem asBV_inf (hf : f.Ok) (s : Bool) : f.asBV (.inf s) = .ok ⟨.root .bv, f.size, f.pattern s (2 ^ f.eb - 1) 0⟩ := by
  have := assemble (f := f) (s := s) (.root .bv) (ones_fields (M := 0) (by positivity))
  unfold Fmt.asBV
  simp only [Mpfr.isSigned, signVec, bind, Except.bind, mkBV_int, Int.zero_emod, minus_one hf] at this ⊢
  exact this

theorem asBV_nan (hf : f.Ok) (s : Bool) : f.asBV (.nan s) = .ok ⟨.root .bv, f.size, f.pattern s (2 ^ f.eb - 1) 1⟩ := by
  have h1 : 1 < 2 ^ f.mb := Nat.one_lt_two_pow (by have := hf.2; omega)
  have h1' : (1 : Int) % 2 ^ f.mb = 1 := by
    apply Int.emod_eq_of_lt (by omega); rw [← cast_pow]; exact_mod_cast h1
  have := assemble (f := f) (s := s) (.root .bv) (ones_fields (M := 1) h1)
  unfold Fmt.asBV
  simp only [Mpfr.isSigned, signVec, bind, Except.bind, mkBV_int, h1', minus_one hf] at this ⊢
  exact this

/-- Every finite number of the format's context has a pattern. -/
theorem fields_of_norm (hf : f.Ok) {m : Nat} {e : Int} (hn : f.ctx.Norm m e) (s : Bool) :
    ∃ E M, f.Fields E M ∧ Decoded f s E M (.fin s m e) := by
  have hsig := hn.sig
  rw [ctx_p] at hsig
  obtain ⟨h1, h2⟩ := hsig
  simp only [Nat.add_sub_cancel] at h1
  rw [pow_succ] at h2
  have hhi := hn.hi
  have hlo := hn.lo
  rw [ctx_p, ctx_emax] at hhi
  rw [ctx_p, ctx_emin] at hlo
  push_cast at hhi hlo
  have hp := pow_eb hf
  rcases le_or_gt (1 - f.bias - f.mb) e with he | he
  · have hE : ((e + f.mb + f.bias).toNat : Int) = e + f.mb + f.bias := Int.toNat_of_nonneg (by omega)
    have hd := Decoded.normal (f := f) (s := s) (E := (e + f.mb + f.bias).toNat) (M := m - 2 ^ f.mb) (by omega) (by
      intro h
      have h3 : ((2 ^ f.eb - 1 : Nat) : Int) = 2 ^ f.eb - 1 := by
        rw [Nat.cast_sub (Nat.one_le_two_pow), cast_pow]; rfl
      rw [← h] at h3
      omega)
    rw [hE, show 2 ^ f.mb + (m - 2 ^ f.mb) = m by omega,
      show e + (f.mb : Int) + f.bias - f.bias - f.mb = e by ring] at hd
    refine ⟨_, _, ⟨?_, ?_⟩, hd⟩
    · have : ((e + f.mb + f.bias).toNat : Int) < ((2 ^ f.eb : Nat) : Int) := by rw [cast_pow]; omega
      exact_mod_cast this
    · omega
  · by_cases hi : f.ieee = true
    · obtain ⟨k, hk⟩ := hn.sub hi
      rw [show f.ctx.emin - 1 = 1 - f.bias - f.mb by rw [ctx_emin, hi]; simp; ring] at hk
      have hm0 : (0 : ℚ) < m := by exact_mod_cast hn.sig.pos
      have hz := two_zpow_pos (1 - f.bias - f.mb)
      refine ⟨0, k, ⟨by positivity, ?_⟩, .sub m e rfl ?_ hi hn hk⟩
      · have h3 : (m : ℚ) * 2 ^ e < (2 ^ f.mb : Nat) * 2 ^ (1 - f.bias - f.mb) := by
          have h4 : (m : ℚ) < (2 ^ f.mb * 2 : Nat) := by exact_mod_cast h2
          have h5 : (2 : ℚ) * 2 ^ e ≤ 2 ^ (1 - f.bias - f.mb) := by
            rw [show (2 : ℚ) * 2 ^ e = 2 ^ (1 + e) by rw [zpow_add', zpow_one]]
            exact zpow_le_of (by omega)
          have h6 := mul_lt_mul_of_pos_right h4 (two_zpow_pos e)
          have h7 := mul_le_mul_of_nonneg_left h5 (show (0 : ℚ) ≤ (2 ^ f.mb : Nat) by positivity)
          push_cast at h6 h7 ⊢
          linarith
        rw [hk] at h3
        exact_mod_cast lt_of_mul_lt_mul_right h3 hz.le
      · rintro rfl
        simp at hk
        rcases hk with hk | hk
        · exact hm0.ne' (by exact_mod_cast hk)
        · exact (two_zpow_pos e).ne' hk
    · rw [if_neg hi] at hlo
      omega

end HW.Fp
