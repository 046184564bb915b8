import Verif.Lemmas.Fp.Rounded
import Verif.Model.Fp.Arith
import Verif.Spec.FpArith

/-! Arithmetic of a format. -/

namespace HW.Fp
open Spec

variable {f : Fmt} {x : ℚ}

/-- Rounding what is rounded changes nothing. -/
theorem ofMpfr_ofRat (hf : f.Ok) (h2 : 2 ≤ f.eb) (x : ℚ) (z : Bool) : f.ofMpfr (f.ctx.ofRat x z) = f.ofRat x z := by
  rw [ofRat_finish hf h2]
  rcases ofRat_rep (good hf h2) (prec2 hf) x z with ⟨s, h⟩ | ⟨s, h⟩ | ⟨s, m, e, h, hn⟩ <;> rw [h]
  · rfl
  · rfl
  · exact ofMpfr_exact hn

theorem rep_ofMpfr {v : Mpfr} (h : Rep f v) : f.ofMpfr v = v := by
  cases h with
  | nan s hi => simp [Fmt.ofMpfr, Ctx.ofMpfr, Fmt.finish, hi]
  | inf => rfl
  | zero => rfl
  | fin s m e hn => exact ofMpfr_exact hn

/-- Finite objects: zero or a number of the context. -/
theorem fin_cases {v : Mpfr} {a : ℚ} (h : v.datum.fin? = some a) :
    a = v.toRat ∧ ((∃ s, v = .zero s) ∨ ∃ s m e, v = .fin s m e) := by
  cases v with
  | nan => cases h
  | inf => cases h
  | zero s => injection h with h; exact ⟨h.symm, .inl ⟨s, rfl⟩⟩
  | fin s m e => injection h with h; exact ⟨h.symm, .inr ⟨s, m, e, rfl⟩⟩

theorem down_iff (f : Fmt) : (f.ctx.round = GMode.down) ↔ f.mode = .RTN := by
  simp only [Fmt.ctx]; cases f.mode <;> simp [Mode.gmpy]

theorem zeroSign_eq (f : Fmt) (s t : Bool) : f.ctx.zeroSign s t = FOp.zeroSign .add f.mode s t := by
  simp [Ctx.zeroSign, FOp.zeroSign, down_iff]

theorem ctx_fin2 {c : Ctx} {o : Bool} {v w : Mpfr} {a b : ℚ} (hv : v.datum.fin? = some a) (hw : w.datum.fin? = some b) :
    c.add o v w = c.ofRat (a + b) (c.zeroSign v.isSigned w.isSigned) ∧
    c.sub o v w = c.ofRat (a - b) (c.zeroSign v.isSigned !w.isSigned) ∧
    c.mul o v w = c.ofRat (a * b) (v.isSigned ^^ w.isSigned) := by
  obtain ⟨rfl, hv'⟩ := fin_cases hv
  obtain ⟨rfl, hw'⟩ := fin_cases hw
  rcases hv' with ⟨s, rfl⟩ | ⟨s, m, e, rfl⟩ <;> rcases hw' with ⟨s', rfl⟩ | ⟨s', m', e', rfl⟩ <;> exact ⟨rfl, rfl, rfl⟩

theorem rep_toRat_ne {v : Mpfr} (h : Rep f v) (hs : ∃ s m e, v = .fin s m e) : v.toRat ≠ 0 := by
  obtain ⟨s, m, e, rfl⟩ := hs
  cases h with
  | fin _ _ _ hn =>
    have h1 := two_zpow_pos e
    have h2 : (0 : ℚ) < m := by exact_mod_cast hn.sig.pos
    unfold Mpfr.toRat
    exact mul_ne_zero (mul_ne_zero (by split <;> simp) h2.ne') h1.ne'

theorem rep_sign {v : Mpfr} (h : Rep f v) (hs : ∃ s m e, v = .fin s m e) : v.isSigned = decide (v.toRat < 0) := by
  obtain ⟨s, m, e, rfl⟩ := hs
  cases h with
  | fin _ _ _ hn =>
    have h1 := two_zpow_pos e
    have h2 : (0 : ℚ) < m := by exact_mod_cast hn.sig.pos
    have h3 : (0 : ℚ) < m * 2 ^ e := mul_pos h2 h1
    cases s
    · simp [Mpfr.isSigned, Mpfr.toRat, h3.le]
    · simp [Mpfr.isSigned, Mpfr.toRat, h3]

theorem ctx_div_fin {c : Ctx} {o : Bool} {v w : Mpfr} {a b : ℚ} (hv : v.datum.fin? = some a)
    (hw : w.datum.fin? = some b) (hb : b ≠ 0) : c.div o v w = c.ofRat (a / b) (v.isSigned ^^ w.isSigned) := by
  obtain ⟨rfl, hv'⟩ := fin_cases hv
  obtain ⟨rfl, hw'⟩ := fin_cases hw
  rcases hw' with ⟨s', rfl⟩ | ⟨s', m', e', rfl⟩
  · exact absurd rfl hb
  · rcases hv' with ⟨s, rfl⟩ | ⟨s, m, e, rfl⟩ <;> rfl

end HW.Fp

namespace HW.Fp
open Spec

variable {f : Fmt}

/-! ### Order -/

theorem ext_fin {d : Datum} {y : ℚ} (h : d.fin? = some y) :
    d.ext = some ((y : WithTop ℚ) : WithBot (WithTop ℚ)) := by
  cases d with
  | nan => cases h
  | inf => cases h
  | zero s => injection h with h; subst h; rfl
  | num x => injection h with h; subst h; rfl

theorem le_fin {d d' : Datum} {y y' : ℚ} (h : d.fin? = some y) (h' : d'.fin? = some y') (hle : y ≤ y') : d.le d' :=
  ⟨_, _, ext_fin h, ext_fin h', by simpa using hle⟩

theorem le_bot {d' : Datum} (h : d' ≠ .nan) : (Datum.inf true).le d' := by
  have : ∃ b, d'.ext = some b := by
    cases d' with
    | nan => exact absurd rfl h
    | inf s => cases s <;> exact ⟨_, rfl⟩
    | zero => exact ⟨_, rfl⟩
    | num => exact ⟨_, rfl⟩
  obtain ⟨b, hb⟩ := this
  exact ⟨_, b, rfl, hb, bot_le⟩

theorem le_top {d : Datum} (h : d ≠ .nan) : d.le (.inf false) := by
  have : ∃ b, d.ext = some b := by
    cases d with
    | nan => exact absurd rfl h
    | inf s => cases s <;> exact ⟨_, rfl⟩
    | zero => exact ⟨_, rfl⟩
    | num => exact ⟨_, rfl⟩
  obtain ⟨b, hb⟩ := this
  refine ⟨b, _, hb, rfl, ?_⟩
  induction b using WithBot.recBotCoe with
  | bot => exact bot_le
  | coe b => exact WithBot.coe_le_coe.2 _root_.le_top

theorem fin_ne_nan {d : Datum} {y : ℚ} (h : d.fin? = some y) : d ≠ .nan := by
  rintro rfl; cases h

theorem mono_RTN {x x' : ℚ} (hle : x ≤ x') {d d' : Datum} (h : f.IsRTN x d) (h' : f.IsRTN x' d') : d.le d' := by
  rcases h with ⟨y, h1, h2, h3, _⟩ | ⟨rfl, _⟩
  · rcases h' with ⟨y', h1', h2', h3', h4'⟩ | ⟨rfl, h2'⟩
    · exact le_fin h1 h1' (h4' y h2 (h3.trans hle))
    · exact absurd (h2' y h2) (not_lt.mpr (h3.trans hle))
  · rcases h' with ⟨y', h1', _⟩ | ⟨rfl, _⟩
    · exact le_bot (fin_ne_nan h1')
    · exact le_bot (by simp)

theorem mono_RTP {x x' : ℚ} (hle : x ≤ x') {d d' : Datum} (h : f.IsRTP x d) (h' : f.IsRTP x' d') : d.le d' := by
  rcases h' with ⟨y', h1', h2', h3', _⟩ | ⟨rfl, _⟩
  · rcases h with ⟨y, h1, h2, h3, h4⟩ | ⟨rfl, h2⟩
    · exact le_fin h1 h1' (h4 y' h2' (hle.trans h3'))
    · exact absurd (h2 y' h2') (not_lt.mpr (hle.trans h3'))
  · rcases h with ⟨y, h1, _⟩ | ⟨rfl, _⟩
    · exact le_top (fin_ne_nan h1)
    · exact le_top (by simp)

theorem RTZ_sign {x : ℚ} {d : Datum} (h : f.IsRTZ x d) :
    ∃ y, d.fin? = some y ∧ (0 ≤ x → 0 ≤ y) ∧ (x ≤ 0 → y ≤ 0) := by
  obtain ⟨y, h1, _, h3, h4, _⟩ := h
  refine ⟨y, h1, fun hx => ?_, fun hx => ?_⟩
  · rcases hx.eq_or_lt with rfl | hx
    · rw [abs_zero] at h3; exact (abs_eq_zero.1 (le_antisymm h3 (abs_nonneg y))).ge
    · exact nonneg_of_mul_nonneg_right h4 hx
  · rcases hx.eq_or_lt with rfl | hx
    · rw [abs_zero] at h3; exact (abs_eq_zero.1 (le_antisymm h3 (abs_nonneg y))).le
    · by_contra hc
      have := mul_neg_of_neg_of_pos hx (not_le.mp hc)
      linarith

theorem mono_RTZ {x x' : ℚ} (hle : x ≤ x') {d d' : Datum} (h : f.IsRTZ x d) (h' : f.IsRTZ x' d') : d.le d' := by
  rcases lt_or_ge 0 x with hx | hx
  · exact mono_RTN hle (isRTN_of_RTZ hx h) (isRTN_of_RTZ (lt_of_lt_of_le hx hle) h')
  · rcases lt_or_ge x' 0 with hx' | hx'
    · exact mono_RTP hle (isRTP_of_RTZ (lt_of_le_of_lt hle hx') h) (isRTP_of_RTZ hx' h')
    · obtain ⟨y, h1, _, h2⟩ := RTZ_sign h
      obtain ⟨y', h1', h2', _⟩ := RTZ_sign h'
      exact le_fin h1 h1' ((h2 hx).trans (h2' hx'))

theorem mono_away {x x' : ℚ} (hx0 : x ≠ 0) (hx0' : x' ≠ 0) (hle : x ≤ x') {d d' : Datum} (h : f.IsAway x d)
    (h' : f.IsAway x' d') : d.le d' := by
  rcases lt_or_gt_of_ne hx0 with hx | hx
  · rcases lt_or_gt_of_ne hx0' with hx' | hx'
    · exact mono_RTN hle (isRTN_of_away hx h) (isRTN_of_away hx' h')
    · have a1 : d = .inf true ∨ ∃ y, d.fin? = some y ∧ y ≤ 0 := by
        rcases h with ⟨y, h1, _, _, h4, _⟩ | ⟨h1, _⟩
        · refine .inr ⟨y, h1, ?_⟩
          by_contra hc
          have := mul_neg_of_neg_of_pos hx (not_le.mp hc)
          linarith
        · exact .inl (by rw [h1]; simp [hx])
      have a2 : d' = .inf false ∨ ∃ y, d'.fin? = some y ∧ 0 ≤ y := by
        rcases h' with ⟨y, h1, _, _, h4, _⟩ | ⟨h1, _⟩
        · exact .inr ⟨y, h1, nonneg_of_mul_nonneg_right h4 hx'⟩
        · exact .inl (by rw [h1]; simp [not_lt.mpr hx'.le])
      rcases a1 with rfl | ⟨y, h1, h2⟩
      · rcases a2 with rfl | ⟨y, h1, _⟩
        · exact le_bot (by simp)
        · exact le_bot (fin_ne_nan h1)
      · rcases a2 with rfl | ⟨y', h1', h2'⟩
        · exact le_top (fin_ne_nan h1)
        · exact le_fin h1 h1' (h2.trans h2')
  · exact mono_RTP hle (isRTP_of_away hx h) (isRTP_of_away (lt_of_lt_of_le hx hle) h')

theorem mono_RNE {x x' : ℚ} (hlt : x < x') {d d' : Datum} (h : f.IsRNE x d) (h' : f.IsRNE x' d') : d.le d' := by
  rcases h with ⟨y, h1, h2, h3, h4, _⟩ | ⟨rfl, h3⟩
  · rcases h' with ⟨y', h1', h2', h3', h4', _⟩ | ⟨rfl, h3'⟩
    · refine le_fin h1 h1' ?_
      by_contra hc
      rw [not_le] at hc
      have a1 := h4 y' h2'
      have a2 := h4' y h2
      have b1 : y + y' ≤ 2 * x := by
        by_contra hcc
        rw [not_le] at hcc
        have : |x - y'| < |x - y| := by
          rw [abs_lt]
          have := neg_abs_le (x - y)
          have : |x - y| = y - x := by rw [abs_of_nonpos (by linarith)]; ring
          constructor <;> linarith
        linarith
      have b2 : 2 * x' ≤ y + y' := by
        by_contra hcc
        rw [not_le] at hcc
        have : |x' - y| < |x' - y'| := by
          rw [abs_lt]
          have : |x' - y'| = x' - y' := abs_of_nonneg (by linarith)
          constructor <;> linarith
        linarith
      linarith
    · have : 0 ≤ x' := by
        by_contra hc
        rw [not_le] at hc
        rw [abs_of_neg hc] at h3'
        rw [abs_of_neg (hlt.trans hc)] at h3
        linarith
      rw [show decide (x' < 0) = false by simp [this]]
      exact le_top (fin_ne_nan h1)
  · rcases h' with ⟨y', h1', h2', h3', h4', _⟩ | ⟨rfl, h3'⟩
    · have : x < 0 := by
        by_contra hc
        rw [not_lt] at hc
        rw [abs_of_nonneg hc] at h3
        rw [abs_of_nonneg (hc.trans hlt.le)] at h3'
        linarith
      rw [show decide (x < 0) = true by simp [this]]
      exact le_bot (fin_ne_nan h1')
    · by_cases hx : x < 0
      · rw [show decide (x < 0) = true by simp [hx]]
        exact le_bot (by simp)
      · rw [show decide (x' < 0) = false by simp; linarith [not_lt.mp hx]]
        exact le_top (by simp)

theorem coe_lt_top' (x : ℚ) : ((x : WithTop ℚ) : WithBot (WithTop ℚ)) < ⊤ :=
  WithBot.coe_lt_coe.2 (WithTop.coe_lt_top x)

theorem mpfr_lt_iff (v w : Mpfr) :
    v.lt w = true ↔ ∃ a b, v.datum.ext = some a ∧ w.datum.ext = some b ∧ a < b := by
  cases v with
  | nan => cases w <;> simp [Mpfr.lt, Mpfr.datum, Datum.ext]
  | inf s =>
    cases w with
    | nan => cases s <;> simp [Mpfr.lt, Mpfr.datum, Datum.ext]
    | inf t => cases s <;> cases t <;> simp [Mpfr.lt, Mpfr.datum, Datum.ext]
    | zero t => cases s <;> simp [Mpfr.lt, Mpfr.datum, Datum.ext]
    | fin t m e => cases s <;> simp [Mpfr.lt, Mpfr.datum, Datum.ext]
  | zero s =>
    cases w with
    | nan => simp [Mpfr.lt, Mpfr.datum, Datum.ext]
    | inf t =>
      cases t
      · simpa [Mpfr.lt, Mpfr.datum, Datum.ext] using coe_lt_top' 0
      · simp [Mpfr.lt, Mpfr.datum, Datum.ext]
    | zero t => simp [Mpfr.lt, Mpfr.datum, Datum.ext, Mpfr.toRat]
    | fin t m e => simp [Mpfr.lt, Mpfr.datum, Datum.ext, Mpfr.toRat, sgn]
  | fin s m e =>
    cases w with
    | nan => simp [Mpfr.lt, Mpfr.datum, Datum.ext]
    | inf t =>
      cases t
      · simpa [Mpfr.lt, Mpfr.datum, Datum.ext] using coe_lt_top' _
      · simp [Mpfr.lt, Mpfr.datum, Datum.ext]
    | zero t => simp [Mpfr.lt, Mpfr.datum, Datum.ext, Mpfr.toRat, sgn]
    | fin t m' e' => simp [Mpfr.lt, Mpfr.datum, Datum.ext, Mpfr.toRat, sgn]

theorem mpfr_eq_iff (v w : Mpfr) :
    v.eq w = true ↔ ∃ a, v.datum.ext = some a ∧ w.datum.ext = some a := by
  cases v with
  | nan => cases w <;> simp [Mpfr.eq, Mpfr.datum, Datum.ext]
  | inf s =>
    cases w with
    | nan => cases s <;> simp [Mpfr.eq, Mpfr.datum, Datum.ext]
    | inf t => cases s <;> cases t <;> simp [Mpfr.eq, Mpfr.datum, Datum.ext]
    | zero t =>
      cases s
      · simpa [Mpfr.eq, Mpfr.datum, Datum.ext] using (coe_lt_top' 0).ne
      · simp [Mpfr.eq, Mpfr.datum, Datum.ext]
    | fin t m e => cases s <;> simp [Mpfr.eq, Mpfr.datum, Datum.ext]
  | zero s =>
    cases w with
    | nan => simp [Mpfr.eq, Mpfr.datum, Datum.ext]
    | inf t =>
      cases t
      · simpa [Mpfr.eq, Mpfr.datum, Datum.ext] using (coe_lt_top' 0).ne'
      · simp [Mpfr.eq, Mpfr.datum, Datum.ext]
    | zero t => simp [Mpfr.eq, Mpfr.datum, Datum.ext, Mpfr.toRat]
    | fin t m e => simp [Mpfr.eq, Mpfr.datum, Datum.ext, Mpfr.toRat, sgn, eq_comm]
  | fin s m e =>
    cases w with
    | nan => simp [Mpfr.eq, Mpfr.datum, Datum.ext]
    | inf t => cases t <;> simp [Mpfr.eq, Mpfr.datum, Datum.ext]
    | zero t => simp [Mpfr.eq, Mpfr.datum, Datum.ext, Mpfr.toRat, sgn, eq_comm]
    | fin t m' e' => simp [Mpfr.eq, Mpfr.datum, Datum.ext, Mpfr.toRat, sgn, eq_comm]

/-! ### Numbers -/

theorem bias_pos (hf : f.Ok) (h2 : 2 ≤ f.eb) : 1 ≤ f.bias := by
  have h1 := pow_eb hf
  have h3 : (2 : Int) ^ 2 ≤ 2 ^ f.eb := by
    rw [← cast_pow, ← cast_pow]; exact_mod_cast Nat.pow_le_pow_right (by omega) h2
  have : (2 : Int) ^ 2 = 4 := rfl
  omega

theorem one_norm (hf : f.Ok) (h2 : 2 ≤ f.eb) : f.ctx.Norm (2 ^ f.mb) (-f.mb) := by
  have hb := bias_pos hf h2
  refine ⟨⟨by rw [ctx_p]; simp, by rw [ctx_p]; exact Nat.pow_lt_pow_right (by omega) (by omega)⟩, ?_, ?_, ?_⟩
  · have := ctx_emin_le f
    rw [ctx_p]; push_cast; omega
  · rw [ctx_p, ctx_emax]; push_cast; omega
  · intro hs
    rw [ctx_sub] at hs
    rw [ctx_emin, if_pos hs, show 2 - f.bias - (f.mb : Int) - 1 = 1 - f.bias - f.mb by omega]
    refine ⟨2 ^ (f.mb + (f.bias - 1).toNat), ?_⟩
    rw [← zpow_nat, ← zpow_nat, ← zpow_add', ← zpow_add']
    congr 1
    push_cast
    omega

theorem ofRat_one (hf : f.Ok) (h2 : 2 ≤ f.eb) (z : Bool) : f.ofRat 1 z = .fin false (2 ^ f.mb) (-f.mb) := by
  rw [ofRat_finish hf h2, ← ofRat_exact (one_norm hf h2) false z]
  congr 1
  simp only [Mpfr.toRat, Bool.false_eq_true, if_false, one_mul]
  rw [← zpow_nat, ← zpow_add']
  simp

theorem toRat_one : (Mpfr.fin false (2 ^ f.mb) (-f.mb)).toRat = 1 := by
  simp only [Mpfr.toRat, Bool.false_eq_true, if_false, one_mul]
  rw [← zpow_nat, ← zpow_add']
  simp

theorem rep_neg {v : Mpfr} (h : Rep f v) : Rep f v.neg := by
  cases h with
  | nan s hi => exact .nan _ hi
  | inf => exact .inf _
  | zero => exact .zero _
  | fin s m e hn => exact .fin _ _ _ hn

theorem datum_neg (v : Mpfr) : v.neg.datum = match v.datum with
    | .nan => .nan | .inf s => .inf !s | .zero s => .zero !s | .num x => .num (-x) := by
  cases v with
  | fin s m e => cases s <;> simp [Mpfr.neg, Mpfr.datum, sgn]
  | _ => rfl

theorem rep_finite (hf : f.Ok) {v : Mpfr} (h : Rep f v) {a : ℚ} (ha : v.datum.fin? = some a) : f.Finite a := by
  cases h with
  | nan => cases ha
  | inf => cases ha
  | zero => injection ha with ha; exact .inl ha.symm
  | fin s m e hn => injection ha with ha; rw [← ha]; exact finite_num hf hn s

theorem ofRat_toRat (hf : f.Ok) (h2 : 2 ≤ f.eb) {s : Bool} {m : Nat} {e : Int} (hn : f.ctx.Norm m e) (z : Bool) :
    f.ofRat (Mpfr.fin s m e).toRat z = .fin s m e := by rw [ofRat_finish hf h2, ofRat_exact hn]

/-- Only the two zeros compare equal without being the same object. -/
theorem rep_ext_inj (hf : f.Ok) (h2 : 2 ≤ f.eb) {v w : Mpfr} (hv : Rep f v) (hw : Rep f w)
    (hz : ¬((∃ s, v = .zero s) ∧ ∃ t, w = .zero t)) {a} (ha : v.datum.ext = some a) (hb : w.datum.ext = some a) : v = w := by
  have h := (mpfr_eq_iff v w).2 ⟨a, ha, hb⟩
  cases hv with
  | nan => cases w <;> cases h
  | inf s =>
    cases w with
    | inf t => cases s <;> cases t <;> first | rfl | cases h
    | _ => cases h
  | zero s =>
    cases hw with
    | nan => cases h
    | inf => cases h
    | zero t => exact absurd ⟨⟨s, rfl⟩, t, rfl⟩ hz
    | fin t m e hn => exact absurd (of_decide_eq_true h).symm (rep_toRat_ne (.fin t m e hn) ⟨_, _, _, rfl⟩)
  | fin s m e hn =>
    cases hw with
    | nan => cases h
    | inf => cases h
    | zero t => exact absurd (of_decide_eq_true h) (rep_toRat_ne (.fin s m e hn) ⟨_, _, _, rfl⟩)
    | fin t m' e' hn' => rw [← ofRat_toRat hf h2 hn false, ← ofRat_toRat hf h2 hn' false, of_decide_eq_true h]

end HW.Fp
