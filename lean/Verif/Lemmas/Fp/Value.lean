import Verif.Lemmas.Fp.Codec

/-! What the values of a format denote. -/

namespace HW.Fp
open Spec

variable {f : Fmt} {s : Bool} {E M : Nat}

theorem datum_decoded (hf : f.Ok) {v : Mpfr} (h : Decoded f s E M v) : v.datum = f.value s E M := by
  have h2 : 2 ^ f.eb - 1 ≠ 0 := by
    have : 1 < 2 ^ f.eb := Nat.one_lt_two_pow (by have := hf.1; omega)
    omega
  have hz : (2 : ℚ) ^ f.mb ≠ 0 := by positivity
  have hsplit : ∀ e : Int, (2 : ℚ) ^ (e - f.mb) = 2 ^ e / 2 ^ f.mb := fun e => by
    rw [zpow_sub₀ (by norm_num), zpow_natCast]
  unfold Fmt.value
  cases h with
  | inf h1 h2 => simp [Mpfr.datum, Fmt.flushValue, Fmt.ieeeValue, h1, h2]
  | nan h1 h2 hi => simp [Mpfr.datum, Fmt.ieeeValue, h1, h2, hi]
  | nanFlush h1 h2 hi => simp [Mpfr.datum, Fmt.flushValue, Fmt.ieeeValue, h1, h2, hi]
  | zero h1 h3 => subst h1; subst h3; simp [Mpfr.datum, Fmt.flushValue, Fmt.ieeeValue, h2.symm]
  | subFlush h1 h3 hi => subst h1; simp [Mpfr.datum, Fmt.flushValue, Fmt.ieeeValue, h2.symm, hi, h3]
  | sub m e h1 h3 hi hn heq =>
    subst h1
    simp only [Mpfr.datum, Fmt.ieeeValue, h2.symm, hi, h3, if_true, if_false]
    rw [mul_assoc, heq, hsplit]
    congr 1
    unfold Fmt.bias; ring
  | normal h0 h1 =>
    simp only [Mpfr.datum, Fmt.flushValue, Fmt.ieeeValue, h0, h1, if_false]
    rw [hsplit]
    have : sgn s * ((2 ^ f.mb + M : Nat) : ℚ) * (2 ^ ((E : Int) - f.bias) / 2 ^ f.mb) =
        sgn s * (1 + M / 2 ^ f.mb) * 2 ^ ((E : Int) - (2 ^ (f.eb - 1) - 1)) := by
      unfold Fmt.bias; push_cast; field_simp
    rw [this]
    split <;> rfl

/-- Every canonical vector of the format's size is a pattern. -/
theorem exists_fields {x : BVal} (hx : x.WF) (hs : x.size = f.size) :
    ∃ s E M, f.Fields E M ∧ x.value = f.pattern s E M := by
  obtain ⟨h0, h1⟩ := hx
  rw [hs] at h1
  have p1 := two_pow_pos f.eb
  have p2 := two_pow_pos f.mb
  have hE := Int.emod_nonneg (x.value / 2 ^ f.mb) p1.ne'
  have hE' := Int.emod_lt_of_pos (x.value / 2 ^ f.mb) p1
  have hM := Int.emod_nonneg x.value p2.ne'
  have hM' := Int.emod_lt_of_pos x.value p2
  have hS : 0 ≤ x.value / 2 ^ f.mb / 2 ^ f.eb := Int.ediv_nonneg (Int.ediv_nonneg h0 p2.le) p1.le
  have hS' : x.value / 2 ^ f.mb / 2 ^ f.eb < 2 := by
    rw [Int.ediv_lt_iff_lt_mul p1, Int.ediv_lt_iff_lt_mul p2]
    calc x.value < 2 ^ f.size := h1
      _ = 2 * 2 ^ f.eb * 2 ^ f.mb := by unfold Fmt.size; rw [pow_add, pow_add, pow_one]
  have e1 := Int.emod_add_mul_ediv x.value (2 ^ f.mb)
  have e2 := Int.emod_add_mul_ediv (x.value / 2 ^ f.mb) (2 ^ f.eb)
  refine ⟨decide (x.value / 2 ^ f.mb / 2 ^ f.eb = 1), ((x.value / 2 ^ f.mb) % 2 ^ f.eb).toNat,
    (x.value % 2 ^ f.mb).toNat, ⟨?_, ?_⟩, ?_⟩
  · have : (((x.value / 2 ^ f.mb) % 2 ^ f.eb).toNat : Int) < ((2 ^ f.eb : Nat) : Int) := by
      rw [cast_pow, Int.toNat_of_nonneg hE]; exact hE'
    exact_mod_cast this
  · have : ((x.value % 2 ^ f.mb).toNat : Int) < ((2 ^ f.mb : Nat) : Int) := by
      rw [cast_pow, Int.toNat_of_nonneg hM]; exact hM'
    exact_mod_cast this
  · unfold Fmt.pattern
    rw [Int.toNat_of_nonneg hE, Int.toNat_of_nonneg hM]
    have hb : (if decide (x.value / 2 ^ f.mb / 2 ^ f.eb = 1) = true then (1 : Int) else 0) =
        x.value / 2 ^ f.mb / 2 ^ f.eb := by
      by_cases h : x.value / 2 ^ f.mb / 2 ^ f.eb = 1
      · simp [h]
      · simp [h]; omega
    rw [hb, pow_add]
    generalize x.value / 2 ^ f.mb / 2 ^ f.eb = S at *
    calc x.value = x.value % 2 ^ f.mb + 2 ^ f.mb * (x.value / 2 ^ f.mb) := e1.symm
      _ = x.value % 2 ^ f.mb + 2 ^ f.mb * ((x.value / 2 ^ f.mb) % 2 ^ f.eb + 2 ^ f.eb * S) := by rw [e2]
      _ = _ := by ring

/-- The numbers, zeros, infinities and (IEEE) NaNs of a format. -/
inductive Rep (f : Fmt) : Mpfr → Prop
  | nan (s : Bool) : f.ieee = true → Rep f (.nan s)
  | inf (s : Bool) : Rep f (.inf s)
  | zero (s : Bool) : Rep f (.zero s)
  | fin (s : Bool) (m : Nat) (e : Int) : f.ctx.Norm m e → Rep f (.fin s m e)

theorem decoded_rep (hf : f.Ok) (hF : f.Fields E M) {v : Mpfr} (h : Decoded f s E M v) : Rep f v := by
  cases h with
  | inf => exact .inf s
  | nan _ _ hi => exact .nan _ hi
  | nanFlush => exact .inf _
  | zero => exact .zero s
  | subFlush => exact .zero s
  | sub m e _ _ _ hn _ => exact .fin s m e hn
  | normal h0 h1 => exact .fin _ _ _ (normal_norm hf hF h0 h1)

theorem good (hf : f.Ok) (h2 : 2 ≤ f.eb) : f.ctx.Good := by
  have hb : 1 ≤ f.bias := by
    have h1 := pow_eb hf
    have h3 : (2 : Int) ^ 2 ≤ 2 ^ f.eb := by
      rw [← cast_pow, ← cast_pow]; exact_mod_cast Nat.pow_le_pow_right (by omega) h2
    have : (2 : Int) ^ 2 = 4 := rfl
    omega
  refine ⟨by rw [ctx_p]; omega, ?_, ?_⟩
  · have := ctx_emin_le f
    rw [ctx_emax]; omega
  · intro hs
    rw [ctx_sub] at hs
    rw [ctx_emin, ctx_emax, ctx_p, hs]; simp; omega

theorem ofRat_rep {c : Ctx} (hc : c.Good) (hp2 : 2 ≤ c.precision) (x : ℚ) (z : Bool) :
    (∃ s, c.ofRat x z = .inf s) ∨ (∃ s, c.ofRat x z = .zero s) ∨ ∃ s m e, c.ofRat x z = .fin s m e ∧ c.Norm m e := by
  by_cases hx : x = 0
  · right; left; exact ⟨z, by unfold Ctx.ofRat; rw [if_pos hx]⟩
  · cases hd : dir c.round (decide (x < 0))
    · rcases ofRat_trunc hc hx hd z with ⟨h, _⟩ | ⟨m, e, h, hn, _⟩
      · exact .inr (.inl ⟨_, h⟩)
      · exact .inr (.inr ⟨_, _, _, h, hn⟩)
    · rcases ofRat_away hc hx hd z with ⟨h, _⟩ | ⟨m, e, h, hn, _⟩
      · exact .inl ⟨_, h⟩
      · exact .inr (.inr ⟨_, _, _, h, hn⟩)
    · rcases ofRat_nearest hc hp2 hx hd z with ⟨h, _⟩ | ⟨_, ⟨h, _⟩ | ⟨m, e, h, hn, _⟩⟩
      · exact .inl ⟨_, h⟩
      · exact .inr (.inl ⟨_, h⟩)
      · exact .inr (.inr ⟨_, _, _, h, hn⟩)

theorem ctx_ofMpfr_rep {c : Ctx} (hc : c.Good) (hp2 : 2 ≤ c.precision) (v : Mpfr) :
    (∃ s, c.ofMpfr v = .nan s) ∨ (∃ s, c.ofMpfr v = .inf s) ∨ (∃ s, c.ofMpfr v = .zero s) ∨
      ∃ s m e, c.ofMpfr v = .fin s m e ∧ c.Norm m e := by
  cases v with
  | nan s => exact .inl ⟨s, rfl⟩
  | inf s => exact .inr (.inl ⟨s, rfl⟩)
  | zero s => exact .inr (.inr (.inl ⟨s, rfl⟩))
  | fin s m e => exact .inr (ofRat_rep hc hp2 _ s)

theorem fromBV_size {b : BVal} {v : Mpfr} (h : f.fromBV b = .ok v) : b.size = f.size := by
  by_contra hne
  unfold Fmt.fromBV at h
  rw [if_pos (fun h => hne h.symm)] at h
  cases h

/-- Objects hold numbers of the format. -/
theorem object_rep (hf : f.Ok) (h2 : 2 ≤ f.eb) {v : Mpfr} (h : f.Object v) : Rep f v := by
  have hc := good hf h2
  have hp2 : 2 ≤ f.ctx.precision := by rw [ctx_p]; have := hf.2; omega
  cases h with
  | number x z =>
    unfold Fmt.ofRat
    rcases ofRat_rep hc hp2 x z with ⟨s, h⟩ | ⟨s, h⟩ | ⟨s, m, e, h, hn⟩ <;> rw [h]
    · exact .inf s
    · exact .zero s
    · exact .fin s m e hn
  | mpfr v =>
    unfold Fmt.ofMpfr
    rcases ctx_ofMpfr_rep hc hp2 v with ⟨s, h⟩ | ⟨s, h⟩ | ⟨s, h⟩ | ⟨s, m, e, h, hn⟩ <;> rw [h]
    · unfold Fmt.finish
      dsimp only
      split
      · rename_i hi; exact .nan s hi
      · exact .inf s
    · exact .inf s
    · exact .zero s
    · exact .fin s m e hn
  | @bits b _ hb h =>
    obtain ⟨s, E, M, hF, hv⟩ := exists_fields hb (fromBV_size h)
    obtain ⟨v', h1, h3⟩ := fromBV_decoded hf b.kind hF s
    have : b = ⟨b.kind, f.size, f.pattern s E M⟩ := by
      rw [← hv, ← fromBV_size h]
    rw [this, h1] at h
    injection h with h
    subst h
    exact decoded_rep hf hF h3

/-- Every number of the format has a pattern, found by encoding and read back by decoding. -/
theorem rep_encode (hf : f.Ok) {v : Mpfr} (h : Rep f v) :
    ∃ E M, f.Fields E M ∧ f.asBV v = .ok ⟨.root .bv, f.size, f.pattern v.isSigned E M⟩ ∧
      ((Decoded f v.isSigned E M v ∧ f.fromBV ⟨.root .bv, f.size, f.pattern v.isSigned E M⟩ = .ok v) ∨
       (∃ s, v = .nan s ∧ f.ieee = true ∧ E = 2 ^ f.eb - 1 ∧ M ≠ 0 ∧
         f.fromBV ⟨.root .bv, f.size, f.pattern v.isSigned E M⟩ = .ok (.nan false))) := by
  have two : 2 ^ f.eb - 1 ≠ 0 := by
    have : 1 < 2 ^ f.eb := Nat.one_lt_two_pow (by have := hf.1; omega)
    omega
  cases h with
  | zero s =>
    refine ⟨0, 0, ⟨by positivity, by positivity⟩, asBV_zero s, .inl ⟨.zero rfl rfl, ?_⟩⟩
    obtain ⟨v, h1, h2⟩ := fromBV_decoded hf (.root .bv) (E := 0) (M := 0) ⟨by positivity, by positivity⟩ s
    cases h2 with
    | zero => exact h1
    | inf h => exact absurd h.symm two
    | nan h => exact absurd h.symm two
    | nanFlush h => exact absurd h.symm two
    | subFlush _ h => exact absurd rfl h
    | sub _ _ _ h => exact absurd rfl h
    | normal h => exact absurd rfl h
  | inf s =>
    have hF := ones_fields (f := f) (M := 0) (by positivity)
    refine ⟨_, 0, hF, asBV_inf hf s, .inl ⟨.inf rfl rfl, ?_⟩⟩
    obtain ⟨v, h1, h2⟩ := fromBV_decoded hf (.root .bv) hF s
    cases h2 with
    | inf => exact h1
    | zero h => exact absurd h two
    | nan _ h => exact absurd rfl h
    | nanFlush _ h => exact absurd rfl h
    | subFlush _ h => exact absurd rfl h
    | sub _ _ _ h => exact absurd rfl h
    | normal _ h => exact absurd rfl h
  | nan s hi =>
    have h1 : 1 < 2 ^ f.mb := Nat.one_lt_two_pow (by have := hf.2; omega)
    have hF := ones_fields (f := f) (M := 1) h1
    refine ⟨_, 1, hF, asBV_nan hf s, .inr ⟨s, rfl, hi, rfl, by omega, ?_⟩⟩
    obtain ⟨v, h1, h2⟩ := fromBV_decoded hf (.root .bv) hF s
    cases h2 with
    | nan => exact h1
    | zero h => exact absurd h two
    | inf _ h => omega
    | nanFlush _ _ h => rw [hi] at h; cases h
    | subFlush h => exact absurd h two
    | sub _ _ h => exact absurd h two
    | normal _ h => exact absurd rfl h
  | fin s m e hn =>
    obtain ⟨E, M, hF, hd⟩ := fields_of_norm hf hn s
    refine ⟨E, M, hF, asBV_decoded hF hd ⟨m, e, rfl⟩, .inl ⟨hd, ?_⟩⟩
    obtain ⟨v, h1, h2⟩ := fromBV_decoded hf (.root .bv) hF s
    rw [show (Mpfr.fin s m e).isSigned = s from rfl, h1]
    congr 1
    cases hd with
    | normal h0 h3 =>
      cases h2 with
      | normal => rfl
      | zero h => exact absurd h h0
      | subFlush h => exact absurd h h0
      | sub _ _ h => exact absurd h h0
      | inf h => exact absurd h h3
      | nan h => exact absurd h h3
      | nanFlush h => exact absurd h h3
    | sub _ _ h0 h3 hi hn' heq =>
      cases h2 with
      | normal h => exact absurd h0 h
      | zero _ h => exact absurd h h3
      | subFlush _ _ h => rw [hi] at h; cases h
      | sub m' e' _ _ _ hn'' heq' =>
        obtain ⟨e1, e2⟩ := hn''.sig.unique hn'.sig (by rw [heq, heq'])
        rw [e1, e2]
      | inf h => rw [h0] at h; exact absurd h.symm two
      | nan h => rw [h0] at h; exact absurd h.symm two
      | nanFlush h => rw [h0] at h; exact absurd h.symm two

/-- The fields of the encoding tell the kind of value. -/
theorem rep_class (hf : f.Ok) {v : Mpfr} (h : Rep f v) :
    ∃ s E M, f.Fields E M ∧ f.asBV v = .ok ⟨.root .bv, f.size, f.pattern s E M⟩ ∧ s = v.isSigned ∧
      ((v = .zero s ∧ E = 0 ∧ M = 0) ∨ (v = .inf s ∧ E = 2 ^ f.eb - 1 ∧ M = 0) ∨
       (v = .nan s ∧ E = 2 ^ f.eb - 1 ∧ M ≠ 0 ∧ f.ieee = true) ∨
       (∃ m e, v = .fin s m e ∧ E = 0 ∧ M ≠ 0 ∧ f.ieee = true) ∨
       (∃ m e, v = .fin s m e ∧ E ≠ 0 ∧ E ≠ 2 ^ f.eb - 1)) := by
  cases h with
  | zero s => exact ⟨s, 0, 0, ⟨by positivity, by positivity⟩, asBV_zero s, rfl, .inl ⟨rfl, rfl, rfl⟩⟩
  | inf s => exact ⟨s, _, 0, ones_fields (by positivity), asBV_inf hf s, rfl, .inr (.inl ⟨rfl, rfl, rfl⟩)⟩
  | nan s hi =>
    exact ⟨s, _, 1, ones_fields (Nat.one_lt_two_pow (by have := hf.2; omega)), asBV_nan hf s, rfl,
      .inr (.inr (.inl ⟨rfl, rfl, by omega, hi⟩))⟩
  | fin s m e hn =>
    obtain ⟨E, M, hF, hd⟩ := fields_of_norm hf hn s
    refine ⟨s, E, M, hF, asBV_decoded hF hd ⟨m, e, rfl⟩, rfl, .inr (.inr (.inr ?_))⟩
    cases hd with
    | normal h0 h3 => exact .inr ⟨_, _, rfl, h0, h3⟩
    | sub _ _ h0 h3 hi => exact .inl ⟨_, _, rfl, h0, h3, hi⟩

theorem value_num (hf : f.Ok) (hF : f.Fields E M) {y : ℚ} (h : f.value s E M = .num y) :
    ∃ s m e, f.ctx.Norm m e ∧ y = sgn s * m * 2 ^ e := by
  obtain ⟨v, _, hd⟩ := fromBV_decoded hf (.root .bv) hF s
  have hv := datum_decoded hf hd
  rw [h] at hv
  have hr := decoded_rep hf hF hd
  cases hr with
  | fin s m e hn =>
    injection hv with hv
    exact ⟨s, m, e, hn, hv.symm⟩
  | _ => simp [Mpfr.datum] at hv

theorem finite_iff (hf : f.Ok) (y : ℚ) :
    f.Finite y ↔ y = 0 ∨ ∃ s m e, f.ctx.Norm m e ∧ y = sgn s * m * 2 ^ e := by
  unfold Fmt.Finite
  refine or_congr_right ⟨?_, ?_⟩
  · rintro ⟨s, E, M, hF, h⟩
    exact value_num hf hF h
  · rintro ⟨s, m, e, hn, rfl⟩
    obtain ⟨E, M, hF, hd⟩ := fields_of_norm hf hn s
    exact ⟨s, E, M, hF, (datum_decoded hf hd).symm⟩

theorem abs_sgn (s : Bool) (a : ℚ) : |sgn s * a| = |a| := by
  unfold sgn; cases s <;> simp

theorem abs_num (s : Bool) (m : Nat) (e : Int) : |sgn s * m * 2 ^ e| = (m : ℚ) * 2 ^ e := by
  rw [mul_assoc, abs_sgn, abs_of_nonneg (by have := two_zpow_pos e; positivity)]

theorem sgn_mul_abs (x : ℚ) : sgn (decide (x < 0)) * |x| = x := by
  unfold sgn
  by_cases h : x < 0
  · simp [h, abs_of_neg h]
  · simp [h, abs_of_nonneg (not_lt.mp h)]

end HW.Fp
