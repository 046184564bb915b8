import Verif.Props.FpRound
import Verif.Lemmas.Fp.Construct

/-! # Floating point: what the constructor makes of numbers, texts and foreign objects (C119), and `float` (C120) -/

namespace HW
open Spec Fp

/-! ## C119 -/

/-- A number of python or gmpy2, a decimal text and a text 'p/q' of the same value `x` are rounded once, in the
mode of the format.  (`RNA` is `C49_RNA_refuted`; foreign objects are below.) -/
theorem C119_numbers_partial {f : Fmt} (hf : f.Ok) (h2 : 2 ≤ f.eb) (hm : f.mode ≠ .RNA) (x : ℚ) (z : Bool) :
    ∀ a ∈ [FArg.num x z, .text x z, .ratio (some x)], ∃ v, f.mk' a = .ok v ∧ f.IsRounded x v.datum := by
  intro a ha
  simp only [List.mem_cons, List.not_mem_nil, or_false] at ha
  rcases ha with rfl | rfl | rfl
  · exact ⟨_, rfl, C49_rounds_partial hf h2 hm x z⟩
  · exact ⟨_, rfl, C49_rounds_partial hf h2 hm x z⟩
  · exact ⟨_, rfl, C49_rounds_partial hf h2 hm x false⟩

/-- A vector is rounded once from the number its class gives it. -/
theorem C119_vectors_partial {f : Fmt} (hf : f.Ok) (h2 : 2 ≤ f.eb) (hm : f.mode ≠ .RNA) {b : BVal} {i : Int}
    (hb : b.toInt = .ok i) : ∃ v, f.mk' (.vec b) = .ok v ∧ f.IsRounded i v.datum :=
  ⟨_, by simp only [Fmt.mk', hb, bind, Except.bind], C49_rounds_partial hf h2 hm i false⟩

theorem Fp.double_ok : double.Ok := by decide

theorem Fp.pyFloat_ok {x : ℚ} {v : Mpfr} (h : double.ctx.ofRat x false = v) (hv : ∀ s, v ≠ .inf s) : pyFloat x = .ok v := by
  unfold pyFloat
  rw [h]
  cases v with
  | inf s => exact absurd rfl (hv s)
  | _ => rfl

/-- A foreign object (`fractions.Fraction`, `decimal.Decimal`, an integer of numpy) goes through `float`: it is
rounded once when its value is a `float`. -/
theorem C119_foreign_partial {f : Fmt} {x : ℚ} (hx : double.Finite x) :
    f.mk' (.foreign x) = .ok (f.ofRat x false) := by
  rcases (finite_iff double_ok x).1 hx with rfl | ⟨s, m, e, hn, rfl⟩
  · rfl
  · have h := ofRat_exact hn s false
    have h' : (Mpfr.fin s m e).toRat = sgn s * m * 2 ^ e := rfl
    rw [h'] at h
    simp only [Fmt.mk', pyFloat_ok h (by intro s; nofun), bind, Except.bind, h', Mpfr.isSigned]
    have h0 : sgn s * (m : ℚ) * 2 ^ e ≠ 0 := by
      have h1 := two_zpow_pos e
      have h2 : (0 : ℚ) < m := by exact_mod_cast hn.sig.pos
      have h3 : sgn s ≠ 0 := by unfold sgn; cases s <;> simp
      exact mul_ne_zero (mul_ne_zero h3 h2.ne') h1.ne'
    simp only [Fmt.ofRat, Ctx.ofRat, if_neg h0]

/-- Past the range of `float` it raises, whatever the range of the format. -/
theorem C119_foreign_range (f : Fmt) (x : ℚ) :
    f.mk' (.foreign x) = .error .overflowError ↔ double.overflowThreshold ≤ |x| := by
  have h := C49_rounds_partial double_ok (by decide) (by decide) x false
  rw [ofRat_finish double_ok (by decide)] at h
  change double.IsRNE x _ at h
  have key : f.mk' (.foreign x) = .error .overflowError ↔ ∃ s, double.ctx.ofRat x false = .inf s := by
    constructor
    · intro he
      cases hv : double.ctx.ofRat x false with
      | inf s => exact ⟨s, rfl⟩
      | _ => simp only [Fmt.mk', pyFloat_ok hv (by intro s; nofun), bind, Except.bind] at he; cases he
    · rintro ⟨s, hv⟩
      simp only [Fmt.mk', pyFloat, hv, bind, Except.bind]
  rw [key]
  rcases h with ⟨y, hy, _, hlt, _⟩ | ⟨hd, h⟩
  · refine ⟨?_, fun hx => absurd hx (not_le.mpr hlt)⟩
    rintro ⟨s, hv⟩
    rw [hv] at hy; cases hy
  · refine ⟨fun _ => h, fun _ => ?_⟩
    cases hv : double.ctx.ofRat x false with
    | inf s => exact ⟨s, rfl⟩
    | _ => rw [hv] at hd; cases hd

/-- In `float`'s own format it is rounded once. -/
theorem C119_foreign_double (x : ℚ) (hx : |x| < double.overflowThreshold) :
    double.mk' (.foreign x) = .ok (double.ofRat x false) := by
  have h := C49_rounds_partial double_ok (by decide) (by decide) x false
  rw [ofRat_finish double_ok (by decide)] at h ⊢
  change double.IsRNE x _ at h
  have hr := ofRat_rep (good double_ok (by decide)) (prec2 double_ok) x false
  rcases hr with ⟨s, hr⟩ | ⟨s, hr⟩ | ⟨s, m, e, hr, hn⟩
  · rcases h with ⟨y, hy, _⟩ | ⟨_, h⟩
    · rw [hr] at hy; cases hy
    · exact absurd h (not_le.mpr hx)
  · rw [hr]
    simp only [Fmt.mk', pyFloat_ok hr (by intro s; nofun), bind, Except.bind, Mpfr.toRat, Mpfr.isSigned, ofRat_zero]
  · rw [hr]
    simp only [Fmt.mk', pyFloat_ok hr (by intro s; nofun), bind, Except.bind, Mpfr.isSigned]
    rw [ofRat_finish double_ok (by decide), ofRat_exact hn]

/-- Rounded to `float` and again to the format. -/
theorem Fp.foreign_unit {f : Fmt} (hf : f.Ok) (h2 : 2 ≤ f.eb) {x d : ℚ} (h1 : 1 ≤ x) (hx : x < 2)
    (hd : (roundMag .toNearest false (x * 2 ^ 52) : ℚ) = d * 2 ^ 52) (hd1 : 1 ≤ d) (hd2 : d < 2) :
    ∃ v, f.mk' (.foreign x) = .ok v ∧ v.datum = .num (roundMag f.mode.gmpy false (d * 2 ^ f.mb) / 2 ^ f.mb) := by
  have h := ofRat_unit double_ok (by decide) h1 hx false
  change _ = Datum.num ((roundMag .toNearest false (x * 2 ^ 52) : ℚ) / 2 ^ 52) at h
  rw [hd, mul_div_cancel_right₀ _ (by positivity)] at h
  generalize hv : double.ctx.ofRat x false = v at h
  cases v with
  | nan s => cases h
  | inf s => cases h
  | zero s => cases h
  | fin s m e =>
    injection h with h
    have h' : (Mpfr.fin s m e).toRat = d := h
    refine ⟨f.ofRat d s, by simp only [Fmt.mk', pyFloat_ok hv (by intro s; nofun), bind, Except.bind, h', Mpfr.isSigned], ?_⟩
    rw [ofRat_finish hf h2]
    exact ofRat_unit hf h2 hd1 hd2 s

/-- In every format and mode but `float`'s own significand to nearest, some fraction is rounded twice: not to
the number the mode asks for. -/
theorem C119_foreign_refuted {f : Fmt} (hf : f.Ok) (h2 : 2 ≤ f.eb) (hm : f.mode ≠ .RNA)
    (hd : f.mode = .RNE → f.mb ≠ 52) :
    ∃ x v, f.mk' (.foreign x) = .ok v ∧ ¬ f.IsRounded x v.datum := by
  have hp : (0 : ℚ) < 2 ^ f.mb := by positivity
  have hmb := hf.2
  cases hmode : f.mode with
  | RNA => exact absurd hmode hm
  | RTP =>
    obtain ⟨v, hv, hdv⟩ := foreign_unit hf h2 (x := 1 + 1 / 2 ^ 60) (d := 1) (by norm_num) (by norm_num)
      (by rw [roundMag_down (k := 2 ^ 52) (by norm_num) (by norm_num)]; norm_num) le_rfl (by norm_num)
    refine ⟨_, v, hv, fun h => ?_⟩
    unfold Fmt.IsRounded at h
    rw [hmode] at h
    rw [hdv, one_mul, show (2 : ℚ) ^ f.mb = ((2 ^ f.mb : Nat) : ℚ) by push_cast; rfl, roundMag_nat, div_self (by positivity)] at h
    rcases h with ⟨y, hy, _, hle, _⟩ | ⟨h, _⟩
    · injection hy with hy
      subst hy
      norm_num at hle
    · cases h
  | RTN =>
    obtain ⟨v, hv, hdv⟩ := foreign_unit hf h2 (x := 3 / 2 - 1 / 2 ^ 60) (d := 3 / 2) (by norm_num) (by norm_num)
      (by rw [roundMag_up (k := 3 * 2 ^ 51 - 1) (by norm_num) (by norm_num)]; norm_num) (by norm_num) (by norm_num)
    refine ⟨_, v, hv, fun h => ?_⟩
    unfold Fmt.IsRounded at h
    rw [hmode] at h
    have e : (3 / 2 : ℚ) * 2 ^ f.mb = ((3 * 2 ^ (f.mb - 1) : Nat) : ℚ) := by
      obtain ⟨k, hk⟩ : ∃ k, f.mb = k + 1 := ⟨f.mb - 1, by omega⟩
      rw [hk, pow_succ]; push_cast; ring
    rw [hdv, e, roundMag_nat, ← e, mul_div_cancel_right₀ _ hp.ne'] at h
    rcases h with ⟨y, hy, _, hle, _⟩ | ⟨h, _⟩
    · injection hy with hy
      subst hy
      norm_num at hle
    · cases h
  | RTZ =>
    obtain ⟨v, hv, hdv⟩ := foreign_unit hf h2 (x := 3 / 2 - 1 / 2 ^ 60) (d := 3 / 2) (by norm_num) (by norm_num)
      (by rw [roundMag_up (k := 3 * 2 ^ 51 - 1) (by norm_num) (by norm_num)]; norm_num) (by norm_num) (by norm_num)
    refine ⟨_, v, hv, fun h => ?_⟩
    unfold Fmt.IsRounded at h
    rw [hmode] at h
    have e : (3 / 2 : ℚ) * 2 ^ f.mb = ((3 * 2 ^ (f.mb - 1) : Nat) : ℚ) := by
      obtain ⟨k, hk⟩ : ∃ k, f.mb = k + 1 := ⟨f.mb - 1, by omega⟩
      rw [hk, pow_succ]; push_cast; ring
    rw [hdv, e, roundMag_nat, ← e, mul_div_cancel_right₀ _ hp.ne'] at h
    obtain ⟨y, hy, _, hle, _⟩ := h
    injection hy with hy
    subst hy
    rw [abs_of_pos (by norm_num), abs_of_pos (by norm_num)] at hle
    norm_num at hle
  | RNE =>
    have h52 := hd hmode
    rcases Nat.lt_or_ge f.mb 52 with hlt | hge
    · -- just above the midpoint of 1 and its successor
      obtain ⟨k, hk⟩ : ∃ k, f.mb + 1 + k = 52 := ⟨51 - f.mb, by omega⟩
      have hkp : (2 : ℚ) ^ (f.mb + 1) * 2 ^ k = 2 ^ 52 := by rw [← pow_add, hk]
      have h0 : (0 : ℚ) < 2 ^ (f.mb + 1) := by positivity
      have hA : (1 : ℚ) / 2 ^ (f.mb + 1) * 2 ^ 52 = 2 ^ k := by rw [← hkp]; field_simp
      have hq : (1 : ℚ) / 2 ^ (f.mb + 1) ≤ 1 / 4 := by
        rw [div_le_div_iff₀ h0 (by norm_num)]
        have : (2 : ℚ) ^ 2 ≤ 2 ^ (f.mb + 1) := pow_le_pow_right₀ (by norm_num) (by omega)
        linarith
      have hq0 : (0 : ℚ) < 1 / 2 ^ (f.mb + 1) := by positivity
      obtain ⟨v, hv, hdv⟩ := foreign_unit hf h2 (x := 1 + 1 / 2 ^ (f.mb + 1) + 1 / 2 ^ 60) (d := 1 + 1 / 2 ^ (f.mb + 1))
        (by have : (0 : ℚ) < 1 / 2 ^ 60 := by positivity
            linarith) (by have : (1 : ℚ) / 2 ^ 60 ≤ 1 / 4 := by norm_num
                          linarith)
        (by rw [roundMag_down (k := 2 ^ 52 + 2 ^ k)]
            · rw [add_mul, hA]; push_cast; ring
            · rw [add_mul, add_mul, hA]; push_cast; norm_num
            · rw [add_mul, add_mul, hA]; push_cast; norm_num) (by linarith) (by linarith)
      refine ⟨_, v, hv, fun h => ?_⟩
      unfold Fmt.IsRounded at h
      rw [hmode] at h
      have e : (1 + 1 / 2 ^ (f.mb + 1) : ℚ) * 2 ^ f.mb = ((2 ^ f.mb : Nat) : ℚ) + 1 / 2 := by
        rw [pow_succ]; push_cast; field_simp
      rw [hdv, e, hmode, show Mode.RNE.gmpy = .toNearest from rfl,
        roundMag_tie (k := 2 ^ f.mb) rfl (by
          obtain ⟨j, hj⟩ : ∃ j, f.mb = j + 1 := ⟨f.mb - 1, by omega⟩
          rw [hj, pow_succ]; omega)] at h
      have e1 : (((2 ^ f.mb : Nat) : ℚ)) / 2 ^ f.mb = 1 := by push_cast; exact div_self hp.ne'
      rw [e1] at h
      rcases h with ⟨y, hy, _, _, hn, _⟩ | ⟨h, _⟩
      · injection hy with hy
        subst hy
        have hfin : f.Finite (1 + 2 / 2 ^ (f.mb + 1)) := by
          have hs : Sig (f.mb + 1) (2 ^ f.mb + 1) := by
            refine ⟨by simp, ?_⟩
            have : 2 ≤ 2 ^ f.mb := by
              calc 2 = 2 ^ 1 := rfl
                _ ≤ _ := Nat.pow_le_pow_right (by omega) hmb
            rw [pow_succ]; omega
          have := finite_num hf (unit_norm hf h2 hs) false
          simp only [sgn, Bool.false_eq_true, if_false, one_mul] at this
          rw [zpow_neg, zpow_natCast] at this
          convert this using 1
          rw [pow_succ]; push_cast; field_simp
        have := hn _ hfin
        rw [abs_of_pos (by have : (0 : ℚ) < 1 / 2 ^ 60 := by positivity
                           linarith)] at this
        have e2 : (1 + 1 / 2 ^ (f.mb + 1) + 1 / 2 ^ 60 - (1 + 2 / 2 ^ (f.mb + 1)) : ℚ) = 1 / 2 ^ 60 - 1 / 2 ^ (f.mb + 1) := by
          ring
        have h60 : (1 : ℚ) / 2 ^ 60 < 1 / 2 ^ (f.mb + 1) := by
          apply div_lt_div_of_pos_left one_pos h0
          exact pow_lt_pow_right₀ (by norm_num) (by omega)
        rw [e2, abs_of_neg (by linarith)] at this
        have : (0 : ℚ) < 1 / 2 ^ 60 := by positivity
        linarith
      · cases h
    · -- a number of the format that `float` has not the digits for
      obtain ⟨k, hk⟩ : ∃ k, f.mb = 53 + k := ⟨f.mb - 53, by omega⟩
      have hle : (1 : ℚ) / 2 ^ f.mb ≤ 1 / 2 ^ 53 := by
        apply div_le_div_of_nonneg_left (by norm_num) (by positivity)
        exact pow_le_pow_right₀ (by norm_num) (by omega)
      have hpos : (0 : ℚ) < 1 / 2 ^ f.mb := by positivity
      have h53 : (1 : ℚ) / 2 ^ 53 * 2 ^ 52 = 1 / 2 := by norm_num
      obtain ⟨v, hv, hdv⟩ := foreign_unit hf h2 (x := 1 + 1 / 2 ^ f.mb) (d := 1) (by linarith)
        (by have : (1 : ℚ) / 2 ^ 53 < 1 := by norm_num
            linarith)
        (by
          rcases hle.lt_or_eq with hl | hl
          · rw [roundMag_down (k := 2 ^ 52)]
            · norm_num
            · push_cast; nlinarith
            · push_cast; nlinarith
          · rw [hl, roundMag_tie (k := 2 ^ 52) (by norm_num) (by norm_num)]; norm_num) le_rfl (by norm_num)
      refine ⟨_, v, hv, fun h => ?_⟩
      unfold Fmt.IsRounded at h
      rw [hmode] at h
      rw [hdv, one_mul, show (2 : ℚ) ^ f.mb = ((2 ^ f.mb : Nat) : ℚ) by push_cast; rfl, roundMag_nat, div_self (by positivity)] at h
      rcases h with ⟨y, hy, _, _, hn, _⟩ | ⟨h, _⟩
      · injection hy with hy
        subst hy
        have hfin : f.Finite (1 + 1 / ((2 ^ f.mb : Nat) : ℚ)) := by
          have hs : Sig (f.mb + 1) (2 ^ f.mb + 1) := by
            refine ⟨by simp, ?_⟩
            have : 2 ≤ 2 ^ f.mb := by
              calc 2 = 2 ^ 1 := rfl
                _ ≤ _ := Nat.pow_le_pow_right (by omega) hmb
            rw [pow_succ]; omega
          have := finite_num hf (unit_norm hf h2 hs) false
          simp only [sgn, Bool.false_eq_true, if_false, one_mul] at this
          rw [zpow_neg, zpow_natCast] at this
          convert this using 1
          push_cast; field_simp
        have := hn _ hfin
        rw [sub_self, abs_zero] at this
        push_cast at this
        rw [abs_of_pos (by linarith)] at this
        linarith
      · cases h

/-- Which arguments the constructor raises for, and what: the same in every format.  (A vector raises what its
own `__int__` does.) -/
theorem C119_raises (f : Fmt) (a : FArg) (hv : ∀ b, a ≠ .vec b) (e : PyErr) :
    f.mk' a = .error e ↔
      (a = .badText ∧ e = .valueError) ∨ (a = .ratio none ∧ e = .zeroDivisionError) ∨ (a = .bad ∧ e = .typeError) ∨
      ∃ x, a = .foreign x ∧ double.overflowThreshold ≤ |x| ∧ e = .overflowError := by
  cases a with
  | vec b => exact absurd rfl (hv b)
  | foreign x =>
    have h := C119_foreign_range f x
    simp only [reduceCtorEq, false_and, false_or, FArg.foreign.injEq, exists_eq_left']
    rw [← h]
    constructor
    · intro he
      have : e = .overflowError := by
        simp only [Fmt.mk', pyFloat] at he
        cases hx : double.ctx.ofRat x false <;> simp only [hx, bind, Except.bind, reduceCtorEq, Except.error.injEq] at he
        exact he.symm
      exact ⟨this ▸ he, this⟩
    · rintro ⟨he, rfl⟩
      exact he
  | ratio x => cases x <;> simp [Fmt.mk', eq_comm]
  | _ => simp [Fmt.mk', eq_comm]

example : half.mk' .badText = .error .valueError :=
  (C119_raises half .badText nofun _).2 (.inl ⟨rfl, rfl⟩)
example : ∃ v, half.mk' (.ratio (some (1 / 3))) = .ok v ∧ half.IsRounded (1 / 3) v.datum :=
  C119_numbers_partial (by decide) (by decide) (by decide) (1 / 3) false _ (by simp)
example : ∃ v, half.mk' (.vec ⟨.root .sint, 16, 0x8001⟩) = .ok v ∧ half.IsRounded ((-32767 : Int) : ℚ) v.datum :=
  C119_vectors_partial (by decide) (by decide) (by decide) (by decide)
example : half.mk' (.foreign (1 / 2)) = .ok (half.ofRat (1 / 2) false) := by
  apply C119_foreign_partial
  have := finite_grid double_ok (k := 1) (q := -1) (by decide) (by decide) (by
    have : double.ctx.emax = 1024 := by decide
    rw [this]; exact lt_of_lt_of_le (by norm_num) (one_le_zpow₀ (by norm_num) (by norm_num) : (1 : ℚ) ≤ 2 ^ (1024 : Int))) false
  simpa [sgn] using this
example : ∃ x v, half.mk' (.foreign x) = .ok v ∧ ¬ half.IsRounded x v.datum :=
  C119_foreign_refuted (by decide) (by decide) (by decide) (by decide)
example : ∃ x v, (⟨11, 52, .RTP, true⟩ : Fmt).mk' (.foreign x) = .ok v ∧ ¬ (⟨11, 52, .RTP, true⟩ : Fmt).IsRounded x v.datum :=
  C119_foreign_refuted (by decide) (by decide) (by decide) nofun

/-! ## C120 -/

/-- `float` of an object of a format no larger than python's is its value. -/
theorem C120_exact {f : Fmt} (hf : f.Ok) (h2 : 2 ≤ f.eb) (he : f.eb ≤ 11) (hm : f.mb ≤ 52) {v : Mpfr} (h : f.Object v) :
    (f.toFloat v).datum = v.datum := by
  cases object_rep hf h2 h with
  | nan => rfl
  | inf => rfl
  | zero => rfl
  | fin s m e hn =>
    have hd : (doubleIn f.mode).Finite (sgn s * m * 2 ^ e) :=
      finite_embed hf (doubleIn_ok _) rfl he hm (finite_num hf hn s)
    have := C48_exact (f := doubleIn f.mode) (doubleIn_ok _) (doubleIn_eb _) hd s
    rw [ofRat_finish (doubleIn_ok _) (doubleIn_eb _)] at this
    have h0 : sgn s * (m : ℚ) * 2 ^ e ≠ 0 := by
      have h1 := two_zpow_pos e
      have h2 : (0 : ℚ) < m := by exact_mod_cast hn.sig.pos
      have h3 : sgn s ≠ 0 := by unfold sgn; cases s <;> simp
      exact mul_ne_zero (mul_ne_zero h3 h2.ne') h1.ne'
    rw [if_neg h0] at this
    exact this

/-- What `cls(x)` makes of a `float`. -/
theorem Fp.mk_float (f : Fmt) {w : Mpfr} {a : ℚ} (h : w.datum.fin? = some a) :
    f.mk' (floatArg w) = .ok (f.ofRat a w.isSigned) := by
  cases w with
  | nan => cases h
  | inf => cases h
  | zero s => injection h with h; subst h; rfl
  | fin s m e => injection h with h; subst h; rfl

/-- So `cls(float(x))` is `x` again, bit for bit: NaNs apart, of which only being one is kept. -/
theorem C120_roundtrip {f : Fmt} (hf : f.Ok) (h2 : 2 ≤ f.eb) (he : f.eb ≤ 11) (hm : f.mb ≤ 52) {v : Mpfr} (h : f.Object v)
    (hn : v.datum ≠ .nan) : f.mk' (floatArg (f.toFloat v)) = .ok v := by
  have hx := C120_exact hf h2 he hm h
  cases object_rep hf h2 h with
  | nan => exact absurd rfl hn
  | inf => rfl
  | zero s => simp only [Fmt.toFloat, Ctx.ofMpfr, floatArg, Fmt.mk', ofRat_zero]
  | fin s m e hn' =>
    rw [mk_float f (a := sgn s * m * 2 ^ e) (by rw [hx]; rfl), ofRat_finish hf h2]
    exact congrArg _ (ofRat_exact hn' s _)

/-- From a larger format `float` rounds once, in the format's mode. -/
theorem C120_rounded_partial {f : Fmt} (hm : f.mode ≠ .RNA) {v : Mpfr} {a : ℚ} (h : v.datum.fin? = some a) :
    (doubleIn f.mode).IsRounded a (f.toFloat v).datum := by
  obtain ⟨rfl, hv⟩ := fin_cases h
  have := C49_rounds_partial (f := doubleIn f.mode) (doubleIn_ok _) (doubleIn_eb _) hm v.toRat v.isSigned
  rw [ofRat_finish (doubleIn_ok _) (doubleIn_eb _)] at this
  rcases hv with ⟨s, rfl⟩ | ⟨s, m, e, rfl⟩
  · simp only [Mpfr.toRat, Ctx.ofRat, if_true] at this
    exact this
  · exact this

/-- A significand of more than 52 digits does not survive. -/
theorem C120_precision_refuted {f : Fmt} (hf : f.Ok) (h2 : 2 ≤ f.eb) (hm : 52 < f.mb) :
    ∃ v, f.Object v ∧ v.datum ≠ .nan ∧ f.mk' (floatArg (f.toFloat v)) ≠ .ok v := by
  have hp : (0 : ℚ) < 2 ^ f.mb := by positivity
  have hle : (1 : ℚ) / 2 ^ f.mb ≤ 1 / 2 ^ 53 := by
    apply div_le_div_of_nonneg_left (by norm_num) (by positivity)
    exact pow_le_pow_right₀ (by norm_num) (by omega)
  have hpos : (0 : ℚ) < 1 / 2 ^ f.mb := by positivity
  set x : ℚ := 1 + 1 / 2 ^ f.mb with hx
  have hx1 : 1 ≤ x := by rw [hx]; linarith
  have hx2 : x < 2 := by
    have : (1 : ℚ) / 2 ^ 53 < 1 := by norm_num
    rw [hx]; linarith
  have hxm : x * 2 ^ f.mb = ((2 ^ f.mb + 1 : Nat) : ℚ) := by rw [hx]; push_cast; field_simp
  have hd := ofRat_unit hf h2 hx1 hx2 false
  rw [hxm, roundMag_nat, ← hxm, mul_div_cancel_right₀ _ hp.ne'] at hd
  refine ⟨f.ofRat x false, .number _ _, ?_, ?_⟩
  · rw [ofRat_finish hf h2, hd]; nofun
  rw [ofRat_finish hf h2]
  intro h
  generalize hv : f.ctx.ofRat x false = v at *
  have hr := ofRat_unit (f := doubleIn f.mode) (doubleIn_ok _) (doubleIn_eb _) hx1 hx2 v.isSigned
  have hvx : v.toRat = x ∧ ∃ s m e, v = .fin s m e := by
    cases v with
    | fin s m e => injection hd with hd; exact ⟨hd, s, m, e, rfl⟩
    | _ => cases hd
  obtain ⟨hvx, s, m, e, rfl⟩ := hvx
  have ht : (f.toFloat (.fin s m e)).datum = .num ((roundMag f.mode.gmpy false (x * 2 ^ 52) : ℚ) / 2 ^ 52) := by
    rw [← hvx] at hr ⊢; exact hr
  generalize hk : roundMag f.mode.gmpy false (x * 2 ^ 52) = k at ht
  have hku : k ≤ 2 ^ 52 + 1 := by
    rw [← hk]
    refine roundMag_le _ _ (by positivity) ?_
    rw [hx]
    push_cast
    have : (1 : ℚ) / 2 ^ 53 * 2 ^ 52 = 1 / 2 := by norm_num
    nlinarith
  have hkl : 2 ^ 52 ≤ k := by
    have h1 := le_floor_toNat (t := x * 2 ^ 52) (k := 2 ^ 52) (by positivity) (by push_cast; nlinarith)
    rcases roundMag_cases f.mode.gmpy false (t := x * 2 ^ 52) (by positivity) with h | ⟨_, h | h | h | h | h⟩ <;>
      (have h' := h.2; try have h' := h'.2) <;> omega
  rw [mk_float f (a := (k : ℚ) / 2 ^ 52) (by rw [ht]; rfl), ofRat_finish hf h2] at h
  injection h with h
  have hkl' : (2 ^ 52 : ℚ) ≤ k := by exact_mod_cast hkl
  have hku' : (k : ℚ) ≤ 2 ^ 52 + 1 := by exact_mod_cast hku
  have hf' := ofRat_unit hf h2 (x := (k : ℚ) / 2 ^ 52) (by rw [le_div_iff₀ (by positivity)]; linarith)
    (by rw [div_lt_iff₀ (by positivity)]; linarith) (f.toFloat (.fin s m e)).isSigned
  obtain ⟨j, hj⟩ : ∃ j, f.mb = j + 1 + 52 := ⟨f.mb - 53, by omega⟩
  have hkm : (k : ℚ) / 2 ^ 52 * 2 ^ f.mb = ((k * 2 ^ (j + 1) : Nat) : ℚ) := by
    rw [hj, pow_add 2 (j + 1)]; push_cast; field_simp
  rw [h, hd, hkm, roundMag_nat] at hf'
  injection hf' with hf'
  rw [eq_div_iff hp.ne', hxm] at hf'
  have hf' : 2 ^ f.mb + 1 = k * 2 ^ (j + 1) := by exact_mod_cast hf'
  have e1 : 2 ^ f.mb = 2 * 2 ^ (j + 52) := by rw [hj]; ring
  have e2 : k * 2 ^ (j + 1) = 2 * (k * 2 ^ j) := by ring
  omega

/-- Nor does an exponent of more than 11 digits. -/
theorem C120_range_refuted {f : Fmt} (hf : f.Ok) (he : 11 < f.eb) :
    ∃ v, f.Object v ∧ v.datum ≠ .nan ∧ f.mk' (floatArg (f.toFloat v)) ≠ .ok v := by
  have h2 : 2 ≤ f.eb := by omega
  have hb : 2047 ≤ f.bias := by
    have h1 := pow_eb hf
    have h3 : (2 : Int) ^ 12 ≤ 2 ^ f.eb := by
      rw [← cast_pow, ← cast_pow]; exact_mod_cast Nat.pow_le_pow_right (by omega) he
    have : (2 : Int) ^ 12 = 4096 := rfl
    omega
  have hn : f.ctx.Norm (2 ^ f.mb) (1024 - f.mb) := by
    refine ⟨⟨by rw [ctx_p]; simp, by rw [ctx_p]; exact Nat.pow_lt_pow_right (by omega) (by omega)⟩, ?_, ?_, ?_⟩
    · have := ctx_emin_le f
      rw [ctx_p]; push_cast; omega
    · rw [ctx_p, ctx_emax]; push_cast; omega
    · intro _
      have := ctx_emin_le f
      refine ⟨2 ^ (1024 - (f.ctx.emin - 1)).toNat, ?_⟩
      rw [← zpow_nat, ← zpow_add', ← zpow_nat, ← zpow_add']
      congr 1
      omega
  have hx : (Mpfr.fin false (2 ^ f.mb) (1024 - f.mb)).toRat = 2 ^ 1024 := by
    simp only [Mpfr.toRat, Bool.false_eq_true, if_false, one_mul]
    rw [← zpow_nat, ← zpow_add', show (f.mb : Int) + (1024 - f.mb) = ((1024 : Nat) : Int) by push_cast; ring, zpow_natCast]
  have ho : f.Object (.fin false (2 ^ f.mb) (1024 - f.mb)) := by
    have := Fmt.Object.number (f := f) ((Mpfr.fin false (2 ^ f.mb) (1024 - f.mb)).toRat) false
    rwa [ofRat_finish hf h2, ofRat_exact hn] at this
  refine ⟨_, ho, nofun, fun h => ?_⟩
  have hT : (Mpfr.fin false (2 ^ f.mb) (1024 - f.mb)).datum.fin? = some (2 ^ 1024) := congrArg some hx
  have he' : (doubleIn f.mode).ctx.emax = ((1024 : Nat) : Int) := rfl
  generalize hw : f.toFloat (.fin false (2 ^ f.mb) (1024 - f.mb)) = w at h
  have hlt : ∀ {y : ℚ}, (doubleIn f.mode).Finite y → y < 2 ^ 1024 := by
    intro y hy
    have h1 := finite_lt (doubleIn_ok f.mode) hy
    rw [he', zpow_natCast] at h1
    exact lt_of_le_of_lt (le_abs_self y) h1
  have hthr : (doubleIn f.mode).overflowThreshold < 2 ^ 1024 := by
    have e : (doubleIn f.mode).overflowThreshold = 2 ^ ((1023 : Nat) : Int) * (2 - 1 / 2 ^ 53) := rfl
    rw [e, zpow_natCast, show (2 : ℚ) ^ 1024 = 2 ^ 1023 * 2 from pow_succ _ _]
    exact mul_lt_mul_of_pos_left (by norm_num) (by positivity)
  -- truncating modes give a smaller `float`, the others an infinity
  by_cases hm : f.mode = .RNA
  · have hr := C49_RNA_actual (f := doubleIn f.mode) (doubleIn_ok _) (doubleIn_eb _) hm (2 ^ 1024) false
    rw [ofRat_finish (doubleIn_ok _) (doubleIn_eb _), ← hx] at hr
    change (doubleIn f.mode).IsAway _ (f.toFloat (.fin false (2 ^ f.mb) (1024 - f.mb))).datum at hr
    rw [hw, hx] at hr
    rcases hr with ⟨y, _, hy, hle, _⟩ | ⟨hi, _⟩
    · have h1 := finite_lt (doubleIn_ok f.mode) hy
      rw [he', zpow_natCast] at h1
      rw [abs_of_pos (by positivity)] at hle
      exact absurd h1 (not_lt.mpr hle)
    · cases w with
      | inf s => cases h
      | _ => cases hi
  · have hr := C120_rounded_partial hm hT
    rw [hw] at hr
    have hinf : ∀ s, w.datum = .inf s → False := by
      intro s hi
      cases w with
      | inf s => cases h
      | _ => cases hi
    have hfin : ∀ {y}, w.datum.fin? = some y → y < 2 ^ 1024 → f.mode = .RTN ∨ f.mode = .RTZ → 0 ≤ y → False := by
      intro y hy hlt hmode h0
      rw [mk_float f hy] at h
      injection h with h
      have h1 := C49_rounds_partial hf h2 hm y w.isSigned
      rw [h] at h1
      unfold Fmt.IsRounded at h1
      rcases hmode with hmode | hmode <;> rw [hmode] at h1
      · rcases h1 with ⟨y', hy', _, hle, _⟩ | ⟨hi, _⟩
        · rw [hT] at hy'
          injection hy' with hy'
          subst hy'
          exact absurd hlt (not_lt.mpr hle)
        · cases hi
      · obtain ⟨y', hy', _, hle, _⟩ := h1
        rw [hT] at hy'
        injection hy' with hy'
        subst hy'
        rw [abs_of_pos (by positivity), abs_of_nonneg h0] at hle
        exact absurd hlt (not_lt.mpr hle)
    unfold Fmt.IsRounded at hr
    change match f.mode with
      | .RNE => _ | .RNA => _ | .RTP => _ | .RTN => _ | .RTZ => _ at hr
    cases hmode : f.mode with
    | RNA => exact hm hmode
    | RNE =>
      rw [hmode] at hr
      rcases hr with ⟨_, _, _, h1, _⟩ | ⟨hi, _⟩
      · rw [abs_of_pos (by positivity)] at h1
        rw [hmode] at hthr
        exact absurd hthr (not_lt.mpr h1.le)
      · exact hinf _ hi
    | RTP =>
      rw [hmode] at hr
      rcases hr with ⟨y, _, hy, h1, _⟩ | ⟨hi, _⟩
      · exact absurd (hlt hy) (not_lt.mpr h1)
      · exact hinf _ hi
    | RTN =>
      rw [hmode] at hr
      rcases hr with ⟨y, hy, hyf, _, hmax⟩ | ⟨hi, _⟩
      · exact hfin hy (hlt hyf) (.inl hmode) (hmax 0 (.inl rfl) (by positivity))
      · exact hinf _ hi
    | RTZ =>
      rw [hmode] at hr
      obtain ⟨y, hy, hyf, _, hs, _⟩ := hr
      exact hfin hy (hlt hyf) (.inr hmode) (by
        have : (0 : ℚ) < 2 ^ 1024 := by positivity
        exact nonneg_of_mul_nonneg_right hs this)

example : half.mk' (floatArg (half.toFloat (half.ofRat (1 / 3) false))) = .ok (half.ofRat (1 / 3) false) :=
  C120_roundtrip (by decide) (by decide) (by decide) (by decide) (.number _ _) (by
    rcases ofRat_rep (good (f := half) (by decide) (by decide)) (prec2 (by decide)) (1 / 3) false with
      ⟨s, h⟩ | ⟨s, h⟩ | ⟨s, m, e, h, _⟩ <;> rw [ofRat_finish (by decide) (by decide), h] <;> nofun)
example : ∃ v, (⟨15, 112, .RNE, true⟩ : Fmt).Object v ∧ v.datum ≠ .nan ∧
    (⟨15, 112, .RNE, true⟩ : Fmt).mk' (floatArg ((⟨15, 112, .RNE, true⟩ : Fmt).toFloat v)) ≠ .ok v :=
  C120_precision_refuted (by decide) (by decide) (by decide)

end HW
