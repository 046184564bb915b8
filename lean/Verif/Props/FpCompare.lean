import Verif.Props.FpArith
import Verif.Props.BitVector

/-! # Floating point: comparison (C81), signs (C82), conversion to vectors (C83), coercion (C84), min/max (C85) -/

namespace HW
open Spec Fp

/-! ## C81 -/

/-- The comparisons are those of the extended number line: a NaN compares with nothing, the zeros are equal. -/
theorem C81_order (f : Fmt) (v w : Mpfr) :
    ∃ lt le gt ge eq ne,
      f.fpLt v (.fp f w) = .ok lt ∧ f.fpLeq v (.fp f w) = .ok le ∧ f.fpGt v (.fp f w) = .ok gt ∧
      f.fpGeq v (.fp f w) = .ok ge ∧ f.fpEq v (.fp f w) = .ok eq ∧ f.fpNe v (.fp f w) = .ok ne ∧
      (lt = true ↔ v.datum.lt w.datum) ∧ (le = true ↔ v.datum.le w.datum) ∧ (gt = true ↔ w.datum.lt v.datum) ∧
      (ge = true ↔ w.datum.le v.datum) ∧ (eq = true ↔ v.datum.same w.datum) ∧ (ne = true ↔ ¬ v.datum.same w.datum) := by
  have hle : ∀ v w : Mpfr, (v.lt w || v.eq w) = true ↔ v.datum.le w.datum := by
    intro v w
    rw [Bool.or_eq_true, mpfr_lt_iff, mpfr_eq_iff]
    constructor
    · rintro (⟨a, b, h1, h2, h3⟩ | ⟨a, h1, h2⟩)
      · exact ⟨a, b, h1, h2, h3.le⟩
      · exact ⟨a, a, h1, h2, le_rfl⟩
    · rintro ⟨a, b, h1, h2, h3⟩
      rcases h3.eq_or_lt with rfl | h3
      · exact .inr ⟨a, h1, h2⟩
      · exact .inl ⟨a, b, h1, h2, h3⟩
  have hcomm : v.eq w = w.eq v := by
    rw [Bool.eq_iff_iff, mpfr_eq_iff, mpfr_eq_iff]
    exact ⟨fun ⟨a, h1, h2⟩ => ⟨a, h2, h1⟩, fun ⟨a, h1, h2⟩ => ⟨a, h2, h1⟩⟩
  simp only [Fmt.fpLt, Fmt.fpLeq, Fmt.fpGt, Fmt.fpGeq, Fmt.fpEq, Fmt.fpNe, coerce_self, bind, Except.bind, pure, Except.pure]
  refine ⟨_, _, _, _, _, _, rfl, rfl, rfl, rfl, rfl, rfl, mpfr_lt_iff v w, hle v w, mpfr_lt_iff w v, ?_,
    mpfr_eq_iff v w, ?_⟩
  · rw [hcomm]; exact hle w v
  · rw [Bool.not_eq_true', ← Bool.not_eq_true, mpfr_eq_iff]; rfl

/-- With a NaN on either side every comparison but `!=` is false. -/
theorem C81_nan (f : Fmt) (v w : Mpfr) (h : v.datum = .nan ∨ w.datum = .nan) :
    f.fpLt v (.fp f w) = .ok false ∧ f.fpLeq v (.fp f w) = .ok false ∧ f.fpGt v (.fp f w) = .ok false ∧
    f.fpGeq v (.fp f w) = .ok false ∧ f.fpEq v (.fp f w) = .ok false ∧ f.fpNe v (.fp f w) = .ok true := by
  simp only [Fmt.fpLt, Fmt.fpLeq, Fmt.fpGt, Fmt.fpGeq, Fmt.fpEq, Fmt.fpNe, coerce_self, bind, Except.bind, pure, Except.pure]
  cases v <;> cases w <;> simp [Mpfr.datum] at h <;> simp [Mpfr.lt, Mpfr.eq]

/-- Otherwise exactly one of `<`, `==`, `>` holds, and `<=`, `>=` are the negations of `>`, `<`. -/
theorem C81_trichotomy (f : Fmt) (v w : Mpfr) (hv : v.datum ≠ .nan) (hw : w.datum ≠ .nan) :
    ∃ lt eq gt, f.fpLt v (.fp f w) = .ok lt ∧ f.fpEq v (.fp f w) = .ok eq ∧ f.fpGt v (.fp f w) = .ok gt ∧
      [lt, eq, gt].count true = 1 ∧ f.fpLeq v (.fp f w) = .ok !gt ∧ f.fpGeq v (.fp f w) = .ok !lt := by
  obtain ⟨lt, le, gt, ge, eq, ne, h1, h2, h3, h4, h5, _, k1, k2, k3, k4, k5, _⟩ := C81_order f v w
  have ex : ∀ {d : Datum}, d ≠ .nan → ∃ a, d.ext = some a := by
    intro d hd
    cases d with
    | nan => exact absurd rfl hd
    | inf s => cases s <;> exact ⟨_, rfl⟩
    | zero => exact ⟨_, rfl⟩
    | num => exact ⟨_, rfl⟩
  obtain ⟨a, ha⟩ := ex hv
  obtain ⟨b, hb⟩ := ex hw
  have q1 : lt = decide (a < b) := by
    rw [Bool.eq_iff_iff, k1]; simp [Datum.lt, ha, hb]
  have q2 : eq = decide (a = b) := by
    rw [Bool.eq_iff_iff, k5]; simp [Datum.same, ha, hb, eq_comm]
  have q3 : gt = decide (b < a) := by
    rw [Bool.eq_iff_iff, k3]; simp [Datum.lt, ha, hb]
  have q4 : le = decide (a ≤ b) := by
    rw [Bool.eq_iff_iff, k2]; simp [Datum.le, ha, hb]
  have q5 : ge = decide (b ≤ a) := by
    rw [Bool.eq_iff_iff, k4]; simp [Datum.le, ha, hb]
  refine ⟨lt, eq, gt, h1, h5, h3, ?_, ?_, ?_⟩
  · rw [q1, q2, q3]
    rcases lt_trichotomy a b with h | h | h
    · simp [h, h.ne, not_lt.mpr h.le]
    · simp [h]
    · simp [h, h.ne', not_lt.mpr h.le]
  · rw [h2, q4, q3]; congr 1; simp [← not_le]
  · rw [h4, q5, q1]; congr 1; simp [← not_le]

example : half.fpEq (.zero true) (.fp half (.zero false)) = .ok true := by
  simp [Fmt.fpEq, coerce_self, bind, Except.bind, pure, Except.pure, Mpfr.eq, Mpfr.toRat]
example : half.fpEq (.nan false) (.fp half (.nan false)) = .ok false := (C81_nan half _ _ (.inl rfl)).2.2.2.2.1

/-! ## C82 -/

/-- `fp_neg` flips the sign bit of the encoding and nothing else. -/
theorem C82_neg {f : Fmt} (hf : f.Ok) (h2 : 2 ≤ f.eb) {v : Mpfr} (h : f.Object v) {s : Bool} {E M : Nat}
    (hF : f.Fields E M) (hv : f.asBV v = .ok ⟨.root .bv, f.size, f.pattern s E M⟩) :
    f.asBV (f.fpNeg v) = .ok ⟨.root .bv, f.size, f.pattern (!s) E M⟩ := by
  have hr := object_rep hf h2 h
  rw [show f.fpNeg v = v.neg from rep_ofMpfr (rep_neg hr)]
  have inj : ∀ {s' E' M'}, f.Fields E' M' → f.asBV v = .ok ⟨.root .bv, f.size, f.pattern s' E' M'⟩ →
      s' = s ∧ E' = E ∧ M' = M := by
    intro s' E' M' hF' hv'
    rw [hv] at hv'
    injection hv' with hv'
    injection hv' with _ _ hv'
    obtain ⟨h1, h2, h3⟩ := pattern_fields (s := s) hF
    obtain ⟨h1', h2', h3'⟩ := pattern_fields (s := s') hF'
    rw [hv'] at h1 h2 h3
    refine ⟨?_, ?_, ?_⟩
    · have := h3'.symm.trans h3; revert this; cases s <;> cases s' <;> simp
    · have := h2'.symm.trans h2; exact_mod_cast this
    · have := h1'.symm.trans h1; exact_mod_cast this
  cases hr with
  | nan t hi =>
    have hF1 := ones_fields (f := f) (M := 1) (Nat.one_lt_two_pow (by have := hf.2; omega))
    obtain ⟨rfl, rfl, rfl⟩ := inj hF1 (asBV_nan hf t)
    exact asBV_nan hf _
  | inf t =>
    obtain ⟨rfl, rfl, rfl⟩ := inj (ones_fields (by positivity)) (asBV_inf hf t)
    exact asBV_inf hf _
  | zero t =>
    obtain ⟨rfl, rfl, rfl⟩ := inj ⟨by positivity, by positivity⟩ (asBV_zero t)
    exact asBV_zero _
  | fin t m e hn =>
    obtain ⟨E', M', hF', hd⟩ := fields_of_norm hf hn t
    obtain ⟨rfl, rfl, rfl⟩ := inj hF' (asBV_decoded hF' hd ⟨m, e, rfl⟩)
    refine asBV_decoded hF' (s := !t) ?_ ⟨m, e, rfl⟩
    cases hd with
    | sub _ _ a1 a2 a3 a4 a5 => exact .sub m e a1 a2 a3 a4 a5
    | normal a1 a2 => exact .normal a1 a2

/-- `fp_abs` gives the magnitude of every number, and its encoding has sign bit 0 — of every object but
`-0` and the NaNs (`C82_abs_refuted`). -/
theorem C82_abs_partial {f : Fmt} (hf : f.Ok) (h2 : 2 ≤ f.eb) {v : Mpfr} (h : f.Object v) (hz : v.datum ≠ .zero true)
    (hn : v.datum ≠ .nan) : f.fpAbs v = (if v.isSigned then f.fpNeg v else v) ∧ (f.fpAbs v).isSigned = false := by
  have hr := object_rep hf h2 h
  have e1 : f.fpNeg v = v.neg := rep_ofMpfr (rep_neg hr)
  rw [e1]
  unfold Fmt.fpAbs
  cases hr with
  | nan => exact absurd rfl hn
  | inf s => cases s <;> exact ⟨rfl, rfl⟩
  | zero s => cases s <;> first | exact ⟨rfl, rfl⟩ | exact absurd rfl hz
  | fin s m e hN => cases s <;> simp [Mpfr.geZero, Mpfr.neg, ofMpfr_exact hN, Mpfr.isSigned]

/-- `fp_abs(-0)` is `-0`, and `fp_abs` of a NaN inverts its sign bit. -/
theorem C82_abs_refuted (f : Fmt) :
    f.fpAbs (.zero true) = .zero true ∧ (f.ieee = true → ∀ s, f.fpAbs (.nan s) = .nan (!s)) := by
  refine ⟨rfl, fun hi s => ?_⟩
  simp [Fmt.fpAbs, Mpfr.geZero, Mpfr.neg, Fmt.ofMpfr, Ctx.ofMpfr, Fmt.finish, hi]

/-- `fp_is_negative` and `fp_is_positive` answer the sign bit of every value that is neither zero nor NaN,
and false there. -/
theorem C82_predicates_partial (v : Mpfr) :
    isNegative v = (v.isSigned && !isZero v && !isNaN v) ∧ isPositive v = (!v.isSigned && !isZero v && !isNaN v) := by
  cases v with
  | nan s => simp [isNegative, isPositive, Mpfr.isSigned, isZero, isNaN]
  | inf s => cases s <;> exact ⟨rfl, rfl⟩
  | zero s => cases s <;> exact ⟨rfl, rfl⟩
  | fin s m e => cases s <;> exact ⟨rfl, rfl⟩

/-- IEEE 754's isSignMinus (and SMT-LIB's fp.isNegative) is true of `-0`. -/
theorem C82_negative_zero_refuted : isNegative (.zero true) = false ∧ (Mpfr.zero true).isSigned = true := ⟨rfl, rfl⟩

example : half.Object (half.ofRat (-7 / 3) false) ∧ half.Object (.zero true) :=
  ⟨.number _ _, .mpfr (.zero true)⟩
example : half.fpNeg (.zero true) = .zero false := rfl

/-! ## C83 -/

/-- The integer part of `x`, toward zero. -/
def Fp.trunc (x : ℚ) : Int := if x < 0 then -⌊-x⌋ else ⌊x⌋

theorem Fp.toInt_fin {v : Mpfr} {a : ℚ} (h : v.datum.fin? = some a) : v.toInt = .ok (trunc a) := by
  have key : ∀ (m : Nat) (e : Int), (if 0 ≤ e then (m : Int) * 2 ^ e.toNat else m / 2 ^ (-e).toNat) = ⌊(m : ℚ) * 2 ^ e⌋ := by
    intro m e
    by_cases he : 0 ≤ e
    · rw [if_pos he, eq_comm, Int.floor_eq_iff]
      have : (2 : ℚ) ^ e = 2 ^ e.toNat := by
        conv_lhs => rw [← Int.toNat_of_nonneg he]
        exact zpow_natCast _ _
      rw [this]
      push_cast
      constructor <;> linarith
    · rw [if_neg he]
      have : (m : ℚ) * 2 ^ e = ((m : Int) : ℚ) / ((2 ^ (-e).toNat : Nat) : ℚ) := by
        have : (2 : ℚ) ^ e = (2 ^ (-e).toNat)⁻¹ := by
          conv_lhs => rw [show e = -((-e).toNat : Int) by omega, zpow_neg, zpow_natCast]
        rw [this]; push_cast; rw [div_eq_mul_inv]
      rw [this, Rat.floor_intCast_div_natCast]
      push_cast
      rfl
  cases v with
  | nan => cases h
  | inf => cases h
  | zero s => injection h with h; subst h; simp [Mpfr.toInt, trunc]
  | fin s m e =>
    injection h with h
    have hpos : (0 : ℚ) ≤ m * 2 ^ e := by have := two_zpow_pos e; positivity
    unfold Mpfr.toInt
    dsimp only
    rw [key, ← h]
    unfold trunc sgn
    cases s
    · simp only [Bool.false_eq_true, if_false, one_mul, not_lt.mpr hpos]
    · simp only [if_true, neg_mul, one_mul, neg_neg, Left.neg_neg_iff]
      split
      · rfl
      · rename_i h0
        have : (m : ℚ) * 2 ^ e = 0 := le_antisymm (not_lt.mp h0) hpos
        rw [this]; simp

/-- `to_ubv(n)`, `to_sbv(n)` of a finite value: its integer part modulo `2^n`, in every rounding mode; the
former as a `BitVector`, the latter as an `SIntVector`. -/
theorem C83_truncates {v : Mpfr} {a : ℚ} (h : v.datum.fin? = some a) (n : Nat) :
    toUBV v n = .ok ⟨.root .bv, n, trunc a % 2 ^ n⟩ ∧ toSBV v n = .ok ⟨.root .sint, n, trunc a % 2 ^ n⟩ := by
  simp only [toUBV, toSBV, toInt_fin h, bind, Except.bind, mkBV_int, and_self]

/-- Infinities raise `OverflowError`, NaNs `ValueError`. -/
theorem C83_raises {v : Mpfr} (h : v.datum.fin? = none) (n : Nat) :
    toUBV v n = .error (if v.datum = .nan then .valueError else .overflowError) ∧
    toSBV v n = .error (if v.datum = .nan then .valueError else .overflowError) := by
  cases v with
  | nan => exact ⟨rfl, rfl⟩
  | inf => exact ⟨rfl, rfl⟩
  | zero => cases h
  | fin => cases h

/-- An integer that the format and the width can hold comes back, from `FPVector(k).to_sbv(n)` as a signed
and from `to_ubv(n)` as an unsigned number. -/
theorem C83_integers {f : Fmt} (hf : f.Ok) (h2 : 2 ≤ f.eb) {k : Int} (hk : f.Finite k) (z : Bool) (n : Nat) :
    (0 < n → -2 ^ (n - 1) ≤ k → k < 2 ^ (n - 1) → (do (← toSBV (f.ofRat k z) n).toInt) = .ok k) ∧
    (0 ≤ k → k < 2 ^ n → (do (← toUBV (f.ofRat k z) n).toInt) = .ok k) := by
  have hd : (f.ofRat k z).datum.fin? = some (k : ℚ) := by
    rw [C48_exact hf h2 hk]
    split
    · rename_i h; rw [h]; rfl
    · rfl
  have ht : trunc (k : ℚ) = k := by
    unfold trunc
    split
    · rw [← Int.cast_neg, Int.floor_intCast]; omega
    · exact Int.floor_intCast k
  obtain ⟨e1, e2⟩ := C83_truncates hd n
  rw [ht] at e1 e2
  simp only [e1, e2, bind, Except.bind]
  constructor
  · intro hn hlo hhi
    rw [C03_int]
    exact (C03_unique (mod_WF (.root .sint) n k) hn k).2 ⟨hlo, hhi, rfl⟩
  · intro h0 h1
    rw [C03_int, Int.emod_eq_of_lt h0 h1]

example : trunc (-7 / 2) = -3 := by
  unfold trunc
  rw [if_pos (by norm_num)]
  norm_num
example : half.Finite ((-3 : Int) : ℚ) :=
  .inr ⟨true, 16, 512, by decide, by norm_num [Fmt.value, half, Fmt.ieeeValue, sgn]⟩

/-! ## C84 -/

/-- An operand of another format, mode or compliance is refused by every operation. -/
theorem C84_mismatch {f g : Fmt} (hg : g ≠ f) (o : Bool) (v w : Mpfr) (b : FArg) :
    (∀ op, f.run op o v (.fp g w) = .error .typeError) ∧ f.fpRem o v (.fp g w) = .error .typeError ∧
    f.fpMin o v (.fp g w) = .error .typeError ∧ f.fpMax o v (.fp g w) = .error .typeError ∧
    f.fpFma o v (.fp g w) b = .error .typeError ∧
    (f.fpFma o v b (.fp g w) = .error .typeError ∨ ∃ e, f.coerce b = .error e) ∧
    f.fpLt v (.fp g w) = .error .typeError ∧ f.fpLeq v (.fp g w) = .error .typeError ∧
    f.fpGt v (.fp g w) = .error .typeError ∧ f.fpGeq v (.fp g w) = .error .typeError ∧
    f.fpEq v (.fp g w) = .error .typeError ∧ f.fpNe v (.fp g w) = .error .typeError := by
  have h : f.coerce (.fp g w) = .error .typeError := by simp [Fmt.coerce, hg]
  refine ⟨fun op => ?_, ?_, ?_, ?_, ?_, ?_, ?_, ?_, ?_, ?_, ?_, ?_⟩
  · cases op <;> simp [Fmt.run, Fmt.fpAdd, Fmt.fpSub, Fmt.fpMul, Fmt.fpDiv, h, bind, Except.bind]
  · simp [Fmt.fpRem, h, bind, Except.bind]
  · simp [Fmt.fpMin, h, bind, Except.bind]
  · simp [Fmt.fpMax, h, bind, Except.bind]
  · simp [Fmt.fpFma, h, bind, Except.bind]
  · cases hb : f.coerce b with
    | ok u => left; simp [Fmt.fpFma, h, hb, bind, Except.bind]
    | error e => exact .inr ⟨e, rfl⟩
  all_goals simp [Fmt.fpLt, Fmt.fpLeq, Fmt.fpGt, Fmt.fpGeq, Fmt.fpEq, Fmt.fpNe, h, bind, Except.bind]

/-- Any other operand is converted by the format's constructor first; what that raises is raised. -/
theorem C84_converts (f : Fmt) (o : Bool) (v : Mpfr) {b : FArg} (hb : ∀ g w, b ≠ .fp g w) :
    (∀ op, f.run op o v b = do f.run op o v (.fp f (← f.mk' b))) ∧
    f.fpLt v b = (do f.fpLt v (.fp f (← f.mk' b))) ∧ f.fpLeq v b = (do f.fpLeq v (.fp f (← f.mk' b))) ∧
    f.fpGt v b = (do f.fpGt v (.fp f (← f.mk' b))) ∧ f.fpGeq v b = (do f.fpGeq v (.fp f (← f.mk' b))) ∧
    f.fpEq v b = (do f.fpEq v (.fp f (← f.mk' b))) ∧ f.fpNe v b = (do f.fpNe v (.fp f (← f.mk' b))) ∧
    f.fpMin o v b = (do f.fpMin o v (.fp f (← f.mk' b))) ∧ f.fpMax o v b = (do f.fpMax o v (.fp f (← f.mk' b))) ∧
    f.fpRem o v b = (do f.fpRem o v (.fp f (← f.mk' b))) := by
  have h : f.coerce b = f.mk' b := by
    cases b with
    | fp g w => exact absurd rfl (hb g w)
    | _ => rfl
  refine ⟨fun op => ?_, ?_, ?_, ?_, ?_, ?_, ?_, ?_, ?_, ?_⟩
  · cases op <;> simp only [Fmt.run, Fmt.fpAdd, Fmt.fpSub, Fmt.fpMul, Fmt.fpDiv, h, coerce_self, bind, Except.bind]
  all_goals
    simp only [Fmt.fpLt, Fmt.fpLeq, Fmt.fpGt, Fmt.fpGeq, Fmt.fpEq, Fmt.fpNe, Fmt.fpMin, Fmt.fpMax, Fmt.fpRem, h, coerce_self,
      bind, Except.bind]
    try (cases f.mk' b <;> rfl)

/-- An object converted to its own format is unchanged. -/
theorem C84_identity {f : Fmt} (hf : f.Ok) (h2 : 2 ≤ f.eb) {v : Mpfr} (h : f.Object v) : f.mk' (.fp f v) = .ok v := by
  simp only [Fmt.mk', rep_ofMpfr (object_rep hf h2 h)]

/-- The constructor converts an object of another format, rounding its exact value. -/
theorem C84_between (f g : Fmt) {v : Mpfr} {a : ℚ} (h : v.datum.fin? = some a) :
    f.mk' (.fp g v) = .ok (f.ofRat a v.isSigned) := by
  obtain ⟨rfl, ⟨s, rfl⟩ | ⟨s, m, e, rfl⟩⟩ := fin_cases h
  · simp [Fmt.mk', Fmt.ofMpfr, Ctx.ofMpfr, Mpfr.toRat, ofRat_zero, Mpfr.isSigned, Fmt.finish]
  · simp only [Fmt.mk', Fmt.ofMpfr, Ctx.ofMpfr, Mpfr.isSigned, Fmt.ofRat]

/-- A vector operand counts as its number: signed for `SIntVector`, unsigned for the other three classes. -/
theorem C84_vector (f : Fmt) (r : Root) {n : Nat} {x : Int} (h : (BVal.mk (.root r) n x).WF) (hn : 0 < n) :
    f.mk' (.vec (BVal.mk (.root r) n x)) =
      .ok (f.ofRat (((if r = .sint then signed n x else x : Int)) : ℚ) false) := by
  have hs := C03_as_sint h
  rw [if_neg (by dsimp only; omega)] at hs
  have hi := C03_int r n x
  cases r <;> simp only [] at hi <;> simp only [Fmt.mk', hi, hs, bind, Except.bind, reduceCtorEq, if_false, if_true]

/-- Formats that differ in the rounding mode only. -/
example : half.run .add false (.zero false) (.fp ⟨5, 10, .RTZ, true⟩ (.zero false)) = .error .typeError :=
  (C84_mismatch (by decide) false _ _ .bad).1 .add
example : half.fpEq (.zero false) .bad = .error .typeError := (C84_converts half false _ (by simp)).2.2.2.2.2.1
example : half.fpLt (.zero true) (.vec ⟨.root .sint, 4, 15⟩) =
    half.fpLt (.zero true) (.fp half (half.ofRat (-1 : Int) false)) := (C84_converts half false _ (by simp)).2.1
example : half.mk' (.vec ⟨.root .uint, 4, 15⟩) = .ok (half.ofRat ((15 : Int) : ℚ) false) :=
  C84_vector half .uint ⟨by decide, by decide⟩ (by decide)

/-! ## C85 -/

/-- `fp_min` and `fp_max` give one of their operands, the smaller and the larger in the order of C81; a NaN
gives way to a number; of two zeros `fp_min` gives `-0` if there is one, `fp_max` `+0`. -/
theorem C85_minmax {f : Fmt} (hf : f.Ok) (h2 : 2 ≤ f.eb) (o : Bool) {v w : Mpfr} (hv : f.Object v) (hw : f.Object w)
    (hnv : v.datum ≠ .nan) (hnw : w.datum ≠ .nan) :
    ∃ mn mx, f.fpMin o v (.fp f w) = .ok mn ∧ f.fpMax o v (.fp f w) = .ok mx ∧
      ((mn = v ∧ mx = w) ∨ (mn = w ∧ mx = v)) ∧ mn.datum.le mx.datum ∧
      (∀ s t, v = .zero s → w = .zero t → mn.isSigned = (s || t) ∧ mx.isSigned = (s && t)) := by
  have hv := object_rep hf h2 hv
  have hw := object_rep hf h2 hw
  have ex : ∀ {d : Datum}, d ≠ .nan → ∃ a, d.ext = some a := by
    intro d hd
    cases d with
    | nan => exact absurd rfl hd
    | inf s => cases s <;> exact ⟨_, rfl⟩
    | zero => exact ⟨_, rfl⟩
    | num => exact ⟨_, rfl⟩
  simp only [Fmt.fpMin, Fmt.fpMax, coerce_self, bind, Except.bind, pure, Except.pure]
  by_cases hz : (∃ s, v = .zero s) ∧ ∃ t, w = .zero t
  · obtain ⟨⟨s, rfl⟩, t, rfl⟩ := hz
    refine ⟨_, _, rfl, rfl, ?_⟩
    simp only [Mpfr.minnum, Mpfr.maxnum]
    rw [rep_ofMpfr (.zero _), rep_ofMpfr (.zero _)]
    refine ⟨by cases s <;> cases t <;> simp, le_fin rfl rfl le_rfl, fun s' t' h1 h2 => ?_⟩
    injection h1 with h1; injection h2 with h2
    subst h1; subst h2
    exact ⟨rfl, rfl⟩
  · obtain ⟨a, ha⟩ := ex hnv
    obtain ⟨b, hb⟩ := ex hnw
    have e1 : Mpfr.minnum o v w = if v.lt w then v else w := by
      cases v <;> cases w <;> first | rfl | exact absurd rfl hnv | exact absurd rfl hnw | exact absurd ⟨⟨_, rfl⟩, _, rfl⟩ hz
    have e2 : Mpfr.maxnum o v w = if w.lt v then v else w := by
      cases v <;> cases w <;> first | rfl | exact absurd rfl hnv | exact absurd rfl hnw | exact absurd ⟨⟨_, rfl⟩, _, rfl⟩ hz
    have l1 : v.lt w = decide (a < b) := by rw [Bool.eq_iff_iff, mpfr_lt_iff]; simp [ha, hb]
    have l2 : w.lt v = decide (b < a) := by rw [Bool.eq_iff_iff, mpfr_lt_iff]; simp [ha, hb]
    refine ⟨_, _, rfl, rfl, ?_⟩
    rw [e1, e2, l1, l2]
    rcases lt_trichotomy a b with h | h | h
    · simp only [h, decide_true, if_true, not_lt.mpr h.le, decide_false, Bool.false_eq_true, if_false]
      rw [rep_ofMpfr hv, rep_ofMpfr hw]
      exact ⟨.inl ⟨rfl, rfl⟩, ⟨a, b, ha, hb, h.le⟩, fun s t h1 h2 => absurd ⟨⟨s, h1⟩, t, h2⟩ hz⟩
    · have he := rep_ext_inj hf h2 hv hw hz (h ▸ ha) hb
      subst he
      simp only [h, lt_irrefl, decide_false, Bool.false_eq_true, if_false]
      rw [rep_ofMpfr hv]
      exact ⟨.inl ⟨rfl, rfl⟩, ⟨a, a, ha, ha, le_rfl⟩, fun s t h1 h2 => absurd ⟨⟨s, h1⟩, t, h2⟩ hz⟩
    · simp only [h, decide_true, if_true, not_lt.mpr h.le, decide_false, Bool.false_eq_true, if_false]
      rw [rep_ofMpfr hv, rep_ofMpfr hw]
      exact ⟨.inr ⟨rfl, rfl⟩, ⟨b, a, hb, ha, h.le⟩, fun s t h1 h2 => absurd ⟨⟨s, h1⟩, t, h2⟩ hz⟩

/-- A NaN gives way to a number; two give a NaN. -/
theorem C85_nan {f : Fmt} (hf : f.Ok) (h2 : 2 ≤ f.eb) (o : Bool) {v w : Mpfr} (hv : f.Object v) (hw : f.Object w)
    (hn : w.datum = .nan) :
    (v.datum ≠ .nan → f.fpMin o v (.fp f w) = .ok v ∧ f.fpMax o v (.fp f w) = .ok v ∧
      f.fpMin o w (.fp f v) = .ok v ∧ f.fpMax o w (.fp f v) = .ok v) ∧
    (v.datum = .nan → ∃ s t, f.fpMin o v (.fp f w) = .ok (.nan s) ∧ f.fpMax o v (.fp f w) = .ok (.nan t)) := by
  have hv := object_rep hf h2 hv
  have hw := object_rep hf h2 hw
  have hi : f.ieee = true := by
    cases hw with
    | nan _ h => exact h
    | _ => cases hn
  obtain ⟨t, rfl⟩ : ∃ t, w = .nan t := by
    cases w with
    | nan t => exact ⟨t, rfl⟩
    | _ => cases hn
  simp only [Fmt.fpMin, Fmt.fpMax, coerce_self, bind, Except.bind, pure, Except.pure]
  constructor
  · intro h
    have e := rep_ofMpfr hv
    cases v with
    | nan => exact absurd rfl h
    | _ => simp only [Mpfr.minnum, Mpfr.maxnum, e, and_self]
  · intro h
    cases v with
    | nan s => exact ⟨o, o, by simp only [Mpfr.minnum, rep_ofMpfr (Rep.nan o hi)], by simp only [Mpfr.maxnum, rep_ofMpfr (Rep.nan o hi)]⟩
    | _ => cases h

example : half.Object (.zero true) := .mpfr (.zero true)
example : half.Object (.inf false) := .mpfr (.inf false)
example : half.Object (.nan true) := .mpfr (.nan true)
example : half.fpMin false (.zero false) (.fp half (.zero true)) = .ok (.zero true) := by decide
example : half.fpMax false (.nan true) (.fp half (.inf true)) = .ok (.inf true) := by decide

end HW
