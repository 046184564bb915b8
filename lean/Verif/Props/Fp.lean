import Verif.Lemmas.Fp.Rounded

/-! # Floating point: bit patterns (C44-C46) and classification (C47) -/

namespace HW
open Spec Fp

/-- `FPVector[5, 10, RNE, True]`, `FPVector[8, 7, RTZ, False]`. -/
def Fp.half : Fmt := ⟨5, 10, .RNE, true⟩
def Fp.brain : Fmt := ⟨8, 7, .RTZ, false⟩

/-! ## C45 -/

/-- Every canonical vector of the format's size is a sign, an exponent and a fraction field, and only one. -/
theorem C45_fields (f : Fmt) {x : BVal} (hx : x.WF) (hs : x.size = f.size) :
    ∃! t : Bool × Nat × Nat, f.Fields t.2.1 t.2.2 ∧ x.value = f.pattern t.1 t.2.1 t.2.2 := by
  obtain ⟨s, E, M, hF, hv⟩ := exists_fields hx hs
  refine ⟨(s, E, M), ⟨hF, hv⟩, fun t ⟨hF', hv'⟩ => ?_⟩
  obtain ⟨s', E', M'⟩ := t
  dsimp only at hF' hv'
  obtain ⟨h1, h2, h3⟩ := pattern_fields (s := s) hF
  obtain ⟨h1', h2', h3'⟩ := pattern_fields (s := s') hF'
  rw [← hv] at h1 h2 h3
  rw [← hv'] at h1' h2' h3'
  have e1 : M' = M := by have := h1'.symm.trans h1; exact_mod_cast this
  have e2 : E' = E := by have := h2'.symm.trans h2; exact_mod_cast this
  have e3 : s' = s := by have := h3'.symm.trans h3; revert this; cases s <;> cases s' <;> simp
  rw [e1, e2, e3]

/-- `reinterpret_from_bv` gives a pattern the value IEEE 754 assigns to it (in a non-IEEE format: with
subnormals and NaNs replaced), whatever vector class the pattern comes in. -/
theorem C45_value {f : Fmt} (hf : f.Ok) (k : Kind) (s : Bool) {E M : Nat} (h : f.Fields E M) :
    (f.fromBV ⟨k, f.size, f.pattern s E M⟩).map Mpfr.datum = .ok (f.value s E M) := by
  obtain ⟨v, h1, h2⟩ := fromBV_decoded hf k h s
  rw [h1, ← datum_decoded hf h2]
  rfl

/-- A vector of another size is refused. -/
theorem C45_size (f : Fmt) {x : BVal} (hs : x.size ≠ f.size) : f.fromBV x = .error .typeError := by
  unfold Fmt.fromBV
  rw [if_pos (fun h => hs h.symm)]

/-- `-1.5 * 2^-3`: sign 1, exponent `15 - 3`, fraction `.1`. -/
example : (half.fromBV ⟨.root .uint, 16, half.pattern true 12 512⟩).map Mpfr.datum = .ok (.num (-3 / 16)) := by
  have := C45_value (f := half) (by decide) (.root .uint) true (E := 12) (M := 512) (by decide)
  refine this.trans ?_
  norm_num [Fmt.value, half, Fmt.ieeeValue, sgn]

/-- The least positive number of the format. -/
example : (half.fromBV ⟨.root .bv, 16, 1⟩).map Mpfr.datum = .ok (.num (2 ^ (-24 : Int))) := by
  have := C45_value (f := half) (by decide) (.root .bv) false (E := 0) (M := 1) (by decide)
  refine this.trans ?_
  norm_num [Fmt.value, half, Fmt.ieeeValue, sgn]

example : half.fromBV ⟨.root .bv, 17, 1⟩ = .error .typeError := C45_size half (by decide)

/-! ## C44 -/

/-- Decoding and encoding gives back every pattern that is not a NaN. -/
theorem C44_roundtrip {f : Fmt} (hf : f.Ok) (hi : f.ieee = true) (k : Kind) (s : Bool) {E M : Nat} (h : f.Fields E M)
    (hn : ¬ (E = 2 ^ f.eb - 1 ∧ M ≠ 0)) :
    (do f.asBV (← f.fromBV ⟨k, f.size, f.pattern s E M⟩)) = .ok ⟨.root .bv, f.size, f.pattern s E M⟩ := by
  obtain ⟨v, h1, h2⟩ := fromBV_decoded hf k h s
  simp only [h1, bind, Except.bind]
  cases h2 with
  | inf e1 e2 => subst e1; subst e2; exact asBV_inf hf s
  | nan e1 e2 => exact absurd ⟨e1, e2⟩ hn
  | nanFlush e1 e2 => exact absurd ⟨e1, e2⟩ hn
  | zero e1 e2 => subst e1; subst e2; exact asBV_zero s
  | sub m e a1 a2 a3 a4 a5 => exact asBV_decoded h (.sub m e a1 a2 a3 a4 a5) ⟨m, e, rfl⟩
  | subFlush _ _ hi' => rw [hi] at hi'; cases hi'
  | normal a1 a2 => exact asBV_decoded h (.normal a1 a2) ⟨_, _, rfl⟩

/-- NaN patterns become a NaN pattern: the positive one with fraction 1. -/
theorem C44_nan {f : Fmt} (hf : f.Ok) (hi : f.ieee = true) (k : Kind) (s : Bool) {E M : Nat} (h : f.Fields E M)
    (hE : E = 2 ^ f.eb - 1) (hM : M ≠ 0) :
    (do f.asBV (← f.fromBV ⟨k, f.size, f.pattern s E M⟩)) =
      .ok ⟨.root .bv, f.size, f.pattern false (2 ^ f.eb - 1) 1⟩ := by
  have h2 : 2 ^ f.eb - 1 ≠ 0 := by
    have : 1 < 2 ^ f.eb := Nat.one_lt_two_pow (by have := hf.1; omega)
    omega
  obtain ⟨v, h1, hd⟩ := fromBV_decoded hf k h s
  simp only [h1, bind, Except.bind]
  cases hd with
  | nan => exact asBV_nan hf false
  | inf _ e => exact absurd e hM
  | zero _ e => exact absurd e hM
  | nanFlush _ _ hi' => rw [hi] at hi'; cases hi'
  | subFlush e => exact absurd (hE.symm.trans e) h2
  | sub _ _ e => exact absurd (hE.symm.trans e) h2
  | normal _ e => exact absurd hE e

/-- The value of every object survives encoding and decoding; a NaN stays a NaN (its sign is dropped). -/
theorem C44_object {f : Fmt} (hf : f.Ok) (h2 : 2 ≤ f.eb) {v : Mpfr} (h : f.Object v) :
    (do f.fromBV (← f.asBV v)) = .ok v.plainNaN := by
  obtain ⟨E, M, hF, h1, ⟨hd, h3⟩ | ⟨s, rfl, hi, hE, hM, h3⟩⟩ := rep_encode hf (object_rep hf h2 h)
  · simp only [h1, bind, Except.bind, h3]
    cases v with
    | nan s => cases hd; rfl
    | _ => rfl
  · simp only [h1, bind, Except.bind, h3]
    rfl

/-- The objects of a format are the values of its patterns and, in an IEEE format, the NaNs. -/
theorem C44_representable {f : Fmt} (hf : f.Ok) (h2 : 2 ≤ f.eb) {v : Mpfr} (h : f.Object v) :
    ∃ s E M, f.Fields E M ∧ f.value s E M = v.datum := by
  obtain ⟨E, M, hF, h1, ⟨hd, h3⟩ | ⟨s, rfl, hi, hE, hM, h3⟩⟩ := rep_encode hf (object_rep hf h2 h)
  · exact ⟨_, E, M, hF, (datum_decoded hf hd).symm⟩
  · exact ⟨s, E, M, hF, (datum_decoded hf (.nan hE hM hi)).symm⟩

example : (do half.asBV (← half.fromBV ⟨.root .sint, 16, half.pattern true 0 77⟩)) =
    .ok ⟨.root .bv, 16, half.pattern true 0 77⟩ := C44_roundtrip (by decide) rfl _ _ (by decide) (by decide)
example : (do half.asBV (← half.fromBV ⟨.root .sint, 16, half.pattern true 31 512⟩)) =
    .ok ⟨.root .bv, 16, half.pattern false 31 1⟩ := C44_nan (by decide) rfl _ _ (by decide) rfl (by decide)
example : (do half.fromBV (← half.asBV (half.ofRat (1 / 3) false))) = .ok (half.ofRat (1 / 3) false).plainNaN := by
  rw [C44_object (by decide) (by decide) (.number _ _)]

/-! ## C46 -/

/-- Without IEEE compliance a subnormal pattern decodes to the zero of its sign. -/
theorem C46_subnormal {f : Fmt} (hf : f.Ok) (hi : f.ieee = false) (k : Kind) (s : Bool) {M : Nat} (h : f.Fields 0 M) :
    f.fromBV ⟨k, f.size, f.pattern s 0 M⟩ = .ok (.zero s) := by
  have h2 : 2 ^ f.eb - 1 ≠ 0 := by
    have : 1 < 2 ^ f.eb := Nat.one_lt_two_pow (by have := hf.1; omega)
    omega
  obtain ⟨v, h1, hd⟩ := fromBV_decoded hf k h s
  rw [h1]
  cases hd with
  | zero => rfl
  | subFlush => rfl
  | sub _ _ _ _ hi' => rw [hi] at hi'; cases hi'
  | inf e => exact absurd e.symm h2
  | nan e => exact absurd e.symm h2
  | nanFlush e => exact absurd e.symm h2
  | normal e => exact absurd rfl e

/-- A NaN pattern, of either sign, decodes to `+∞`. -/
theorem C46_nan {f : Fmt} (hf : f.Ok) (hi : f.ieee = false) (k : Kind) (s : Bool) {M : Nat}
    (h : f.Fields (2 ^ f.eb - 1) M) (hM : M ≠ 0) :
    f.fromBV ⟨k, f.size, f.pattern s (2 ^ f.eb - 1) M⟩ = .ok (.inf false) := by
  have h2 : 2 ^ f.eb - 1 ≠ 0 := by
    have : 1 < 2 ^ f.eb := Nat.one_lt_two_pow (by have := hf.1; omega)
    omega
  obtain ⟨v, h1, hd⟩ := fromBV_decoded hf k h s
  rw [h1]
  cases hd with
  | nanFlush => rfl
  | nan _ _ hi' => rw [hi] at hi'; cases hi'
  | inf _ e => exact absurd e hM
  | zero _ e => exact absurd e hM
  | subFlush e => exact absurd e h2
  | sub _ _ e => exact absurd e h2
  | normal _ e => exact absurd rfl e

/-- Every other pattern, the encodings of zeros and infinities included, round-trips. -/
theorem C46_roundtrip {f : Fmt} (hf : f.Ok) (hi : f.ieee = false) (k : Kind) (s : Bool) {E M : Nat} (h : f.Fields E M)
    (hE : (E = 0 ∨ E = 2 ^ f.eb - 1) → M = 0) :
    (do f.asBV (← f.fromBV ⟨k, f.size, f.pattern s E M⟩)) = .ok ⟨.root .bv, f.size, f.pattern s E M⟩ := by
  obtain ⟨v, h1, h2⟩ := fromBV_decoded hf k h s
  simp only [h1, bind, Except.bind]
  cases h2 with
  | inf e1 e2 => subst e1; subst e2; exact asBV_inf hf s
  | nan e1 e2 => exact absurd (hE (.inr e1)) e2
  | nanFlush e1 e2 => exact absurd (hE (.inr e1)) e2
  | zero e1 e2 => subst e1; subst e2; exact asBV_zero s
  | sub _ _ _ _ hi' => rw [hi] at hi'; cases hi'
  | subFlush e1 e2 => exact absurd (hE (.inl e1)) e2
  | normal a1 a2 => exact asBV_decoded h (.normal a1 a2) ⟨_, _, rfl⟩

/-- No object of a non-IEEE format holds a NaN or a subnormal: its pattern has a nonzero fraction only
beside an exponent that is neither all zeros nor all ones. -/
theorem C46_objects {f : Fmt} (hf : f.Ok) (h2 : 2 ≤ f.eb) (hi : f.ieee = false) {v : Mpfr} (h : f.Object v) :
    ∃ s E M, f.Fields E M ∧ f.asBV v = .ok ⟨.root .bv, f.size, f.pattern s E M⟩ ∧
      ((E = 0 ∨ E = 2 ^ f.eb - 1) → M = 0) := by
  obtain ⟨E, M, hF, h1, ⟨hd, h3⟩ | ⟨s, rfl, hi', _⟩⟩ := rep_encode hf (object_rep hf h2 h)
  · refine ⟨_, E, M, hF, h1, ?_⟩
    generalize v.isSigned = s at hd
    have hr := object_rep hf h2 h
    cases hd with
    | inf _ e => exact fun _ => e
    | zero _ e => exact fun _ => e
    | nan _ _ hi' => rw [hi] at hi'; cases hi'
    | sub _ _ _ _ hi' => rw [hi] at hi'; cases hi'
    | normal a1 a2 => rintro (h | h); exacts [absurd h a1, absurd h a2]
    | nanFlush e1 e2 =>
      subst e1
      rw [asBV_inf hf] at h1
      injection h1 with h1
      injection h1 with _ _ h1
      have := (pattern_fields (s := false) (ones_fields (f := f) (M := 0) (by positivity))).1
      rw [h1, (pattern_fields hF).1] at this
      exact absurd (by exact_mod_cast this) e2
    | subFlush e1 e2 =>
      subst e1
      rw [asBV_zero] at h1
      injection h1 with h1
      injection h1 with _ _ h1
      have := (pattern_fields (f := f) (s := s) (E := 0) (M := 0) ⟨by positivity, by positivity⟩).1
      rw [h1, (pattern_fields hF).1] at this
      exact absurd (by exact_mod_cast this) e2
  · rw [hi] at hi'; cases hi'

example : brain.fromBV ⟨.root .bv, 16, brain.pattern true 0 9⟩ = .ok (.zero true) :=
  C46_subnormal (by decide) rfl _ _ (by decide)
example : brain.fromBV ⟨.root .bv, 16, brain.pattern true 255 64⟩ = .ok (.inf false) :=
  C46_nan (by decide) rfl _ _ (by decide) (by decide)
example : (do brain.asBV (← brain.fromBV ⟨.root .bv, 16, brain.pattern true 1 64⟩)) =
    .ok ⟨.root .bv, 16, brain.pattern true 1 64⟩ := C46_roundtrip (by decide) rfl _ _ (by decide) (by decide)
example : brain.Object (brain.ofMpfr (.nan true)) := .mpfr _

/-! ## C47 -/

/-- Every object has an encoding, and each of the five predicates answers what the fields of that encoding
say. -/
theorem C47_by_fields {f : Fmt} (hf : f.Ok) (h2 : 2 ≤ f.eb) {v : Mpfr} (h : f.Object v) :
    ∃ s E M, f.Fields E M ∧ f.asBV v = .ok ⟨.root .bv, f.size, f.pattern s E M⟩ ∧
      isZero v = decide (E = 0 ∧ M = 0) ∧
      f.isSubnormal v = .ok (decide (E = 0 ∧ M ≠ 0)) ∧
      f.isNormal v = .ok (decide (E ≠ 0 ∧ E ≠ 2 ^ f.eb - 1)) ∧
      isInf v = decide (E = 2 ^ f.eb - 1 ∧ M = 0) ∧
      isNaN v = decide (E = 2 ^ f.eb - 1 ∧ M ≠ 0) := by
  have two : 2 ^ f.eb - 1 ≠ 0 := by
    have : 1 < 2 ^ f.eb := Nat.one_lt_two_pow (by have := hf.1; omega)
    omega
  obtain ⟨s, E, M, hF, h1, _, hc⟩ := rep_class hf (object_rep hf h2 h)
  refine ⟨s, E, M, hF, h1, ?_⟩
  have hsl := (slices (s := s) (.root .bv) hf hF).2.1
  have hsub : f.isSubnormal v = if E = 0 ∧ isZero v = false then
      (if f.ieee then .ok true else .error .assertionError) else .ok false := by
    unfold Fmt.isSubnormal
    simp only [h1, hsl, bind, Except.bind, eqInt_eq, Int.zero_emod]
    by_cases hE : E = 0 <;> cases hz : isZero v <;> simp [hE, pure, Except.pure]
  unfold Fmt.isNormal
  rw [hsub]
  simp only [bind, Except.bind]
  rcases hc with ⟨rfl, rfl, rfl⟩ | ⟨rfl, rfl, rfl⟩ | ⟨rfl, rfl, hM, hi⟩ | ⟨m, e, rfl, rfl, hM, hi⟩ |
    ⟨m, e, rfl, hE, hE'⟩
  · simp [isZero, isInf, isNaN, two.symm, pure, Except.pure]
  · simp [isZero, isInf, isNaN, two, pure, Except.pure]
  · simp [isZero, isInf, isNaN, two, hM, pure, Except.pure]
  · simp [isZero, isInf, isNaN, two.symm, hM, hi, pure, Except.pure]
  · simp [isZero, isInf, isNaN, hE, hE', pure, Except.pure]

/-- Exactly one of the five predicates holds of every object. -/
theorem C47_partition {f : Fmt} (hf : f.Ok) (h2 : 2 ≤ f.eb) {v : Mpfr} (h : f.Object v) :
    ∃ n sn, f.isNormal v = .ok n ∧ f.isSubnormal v = .ok sn ∧
      [n, sn, isZero v, isInf v, isNaN v].count true = 1 := by
  have two : 2 ^ f.eb - 1 ≠ 0 := by
    have : 1 < 2 ^ f.eb := Nat.one_lt_two_pow (by have := hf.1; omega)
    omega
  obtain ⟨s, E, M, hF, h1, hz, hs, hn, hi, ha⟩ := C47_by_fields hf h2 h
  refine ⟨_, _, hn, hs, ?_⟩
  rw [hz, hi, ha]
  by_cases hE : E = 0
  · subst hE
    by_cases hM : M = 0 <;> simp [hM, two.symm]
  · by_cases hE' : E = 2 ^ f.eb - 1
    · subst hE'
      by_cases hM : M = 0 <;> simp [hM, two]
    · simp [hE, hE']

/-- `2^-2`, the least positive number of the format with two exponent and two fraction bits. -/
example : (⟨2, 2, .RTZ, true⟩ : Fmt).Object ((⟨2, 2, .RTZ, true⟩ : Fmt).ofMpfr (.fin false 4 (-4))) := .mpfr _
example : (Fmt.mk 2 2 .RTZ true).isSubnormal (.fin false 4 (-4)) = .ok true ∧
    (Fmt.mk 2 2 .RTZ true).isNormal (.fin false 4 (-4)) = .ok false := by decide

end HW
