import Verif.Lemmas.Fp.Arith
import Verif.Props.FpRound

/-! # Floating point: arithmetic (C77-C79) -/

namespace HW
open Spec Fp

/-- The method of an operation. -/
def Fp.Fmt.run (f : Fmt) : FOp → Bool → Mpfr → FArg → PyM Mpfr
  | .add => f.fpAdd
  | .sub => f.fpSub
  | .mul => f.fpMul
  | .div => f.fpDiv

theorem Fp.coerce_self (f : Fmt) (v : Mpfr) : f.coerce (.fp f v) = .ok v := by simp [Fmt.coerce]

/-! ## C77 -/

/-- On finite operands, `+ - * /` give what the constructor makes of the exact rational result: one rounding,
in the format's mode; an exactly zero result has the sign IEEE 754 says. -/
theorem C77_exact {f : Fmt} (hf : f.Ok) (h2 : 2 ≤ f.eb) (o : Bool) {v w : Mpfr} {a b x : ℚ}
    (ha : v.datum.fin? = some a) (hb : w.datum.fin? = some b) (op : FOp) (hx : op.exact a b = some x) :
    f.run op o v (.fp f w) = .ok (f.ofRat x (op.zeroSign f.mode v.isSigned w.isSigned)) := by
  obtain ⟨e1, e2, e3⟩ := ctx_fin2 (c := f.ctx) (o := o) ha hb
  cases op with
  | add =>
    injection hx with hx; subst hx
    simp only [Fmt.run, Fmt.fpAdd, coerce_self, bind, Except.bind, pure, Except.pure, e1, ofMpfr_ofRat hf h2, zeroSign_eq]
  | sub =>
    injection hx with hx; subst hx
    simp only [Fmt.run, Fmt.fpSub, coerce_self, bind, Except.bind, pure, Except.pure, e2, ofMpfr_ofRat hf h2, zeroSign_eq]
    rfl
  | mul =>
    injection hx with hx; subst hx
    simp only [Fmt.run, Fmt.fpMul, coerce_self, bind, Except.bind, pure, Except.pure, e3, ofMpfr_ofRat hf h2]
    rfl
  | div =>
    unfold FOp.exact at hx
    by_cases h0 : b = 0
    · simp [h0] at hx
    · simp only [h0, if_false] at hx
      injection hx with hx; subst hx
      simp only [Fmt.run, Fmt.fpDiv, coerce_self, bind, Except.bind, pure, Except.pure, ctx_div_fin ha hb h0,
        ofMpfr_ofRat hf h2]
      rfl

/-- So the result is the exact one rounded as the mode's name says (`RNA` aside: there it is rounded away
from zero, `C77_RNA`). -/
theorem C77_rounded_partial {f : Fmt} (hf : f.Ok) (h2 : 2 ≤ f.eb) (hm : f.mode ≠ .RNA) (o : Bool) {v w r : Mpfr} {a b x : ℚ}
    (ha : v.datum.fin? = some a) (hb : w.datum.fin? = some b) {op : FOp} (hx : op.exact a b = some x)
    (hr : f.run op o v (.fp f w) = .ok r) : f.IsRounded x r.datum := by
  rw [C77_exact hf h2 o ha hb op hx] at hr
  injection hr with hr
  subst hr
  exact C49_rounds_partial hf h2 hm _ _

theorem C77_RNA {f : Fmt} (hf : f.Ok) (h2 : 2 ≤ f.eb) (hm : f.mode = .RNA) (o : Bool) {v w r : Mpfr} {a b x : ℚ}
    (ha : v.datum.fin? = some a) (hb : w.datum.fin? = some b) {op : FOp} (hx : op.exact a b = some x)
    (hr : f.run op o v (.fp f w) = .ok r) : f.IsAway x r.datum := by
  rw [C77_exact hf h2 o ha hb op hx] at hr
  injection hr with hr
  subst hr
  exact C49_RNA_actual hf h2 hm _ _

/-- Special operands give what IEEE 754's table says; a format without NaN has an infinity in its place. -/
theorem C77_special {f : Fmt} (hf : f.Ok) (h2 : 2 ≤ f.eb) (o : Bool) {v w : Mpfr} (hv : f.Object v) (hw : f.Object w)
    {op : FOp} {d : Datum} (hd : op.special v.datum w.datum = some d) :
    ∃ r, f.run op o v (.fp f w) = .ok r ∧ f.OrNaN d r.datum := by
  have hv := object_rep hf h2 hv
  have hw := object_rep hf h2 hw
  have hnan : ∀ s, f.OrNaN .nan (f.ofMpfr (.nan s)).datum := by
    intro s
    unfold Fmt.OrNaN Fmt.ofMpfr Ctx.ofMpfr Fmt.finish
    cases f.ieee <;> simp [Mpfr.datum]
  have hinf : ∀ s, f.OrNaN (.inf s) (f.ofMpfr (.inf s)).datum := fun s => by
    simp [Fmt.OrNaN, Fmt.ofMpfr, Ctx.ofMpfr, Fmt.finish, Mpfr.datum]
  have hzero : ∀ s, f.OrNaN (.zero s) (f.ofMpfr (.zero s)).datum := fun s => by
    simp [Fmt.OrNaN, Fmt.ofMpfr, Ctx.ofMpfr, Fmt.finish, Mpfr.datum]
  have key : ∀ {s m e}, Rep f (.fin s m e) → decide (sgn s * m * 2 ^ e < 0) = s := fun h =>
    (rep_sign h ⟨_, _, _, rfl⟩).symm
  cases op <;> cases v <;> cases w <;>
    simp only [FOp.special, Mpfr.datum, Datum.neg?, Option.map, Option.some.injEq, reduceCtorEq] at hd <;> subst hd <;>
    simp only [Fmt.run, Fmt.fpAdd, Fmt.fpSub, Fmt.fpMul, Fmt.fpDiv, coerce_self, bind, Except.bind, pure, Except.pure,
      Ctx.add, Ctx.sub, Ctx.mul, Ctx.div, Mpfr.isSigned] <;> refine ⟨_, rfl, ?_⟩
  all_goals first
    | exact hnan _
    | exact hinf _
    | exact hzero _
    | (rw [key hv]; exact hinf _)
    | (rw [key hv]; exact hzero _)
    | (rw [key hw]; exact hinf _)
    | (split <;> first | exact hnan _ | exact hinf _ | (rw [if_neg (not_not_intro (by assumption))]; exact hnan _))

/-- Every pair of objects falls under one of the two. -/
theorem C77_total {f : Fmt} (hf : f.Ok) (h2 : 2 ≤ f.eb) {v w : Mpfr} (hv : f.Object v) (hw : f.Object w) (op : FOp) :
    (∃ d, op.special v.datum w.datum = some d) ∨
      ∃ a b x, v.datum.fin? = some a ∧ w.datum.fin? = some b ∧ op.exact a b = some x := by
  have hw := object_rep hf h2 hw
  have h0 : ∀ {s m e}, Rep f (.fin s m e) → sgn s * m * 2 ^ e ≠ 0 := fun h => rep_toRat_ne h ⟨_, _, _, rfl⟩
  cases op <;> cases v <;> cases w <;>
    simp [FOp.special, Mpfr.datum, Datum.neg?, Datum.fin?, FOp.exact, -mul_eq_zero]
  all_goals exact h0 hw

/-- `half(1) / half(3)` is 1/3 rounded to nearest. -/
example {r : Mpfr} (h : half.run .div false (half.ofRat 1 false) (.fp half (half.ofRat 3 false)) = .ok r) :
    half.IsRNE (1 / 3) r.datum := by
  have e1 := C48_exact (f := half) (by decide) (by decide) (y := 1)
    (.inr ⟨false, 15, 0, by decide, by norm_num [Fmt.value, half, Fmt.ieeeValue, sgn]⟩) false
  have e3 := C48_exact (f := half) (by decide) (by decide) (y := 3)
    (.inr ⟨false, 16, 512, by decide, by norm_num [Fmt.value, half, Fmt.ieeeValue, sgn]⟩) false
  refine C77_rounded_partial (f := half) (by decide) (by decide) (by decide) false (a := 1) (b := 3) (op := .div) ?_ ?_ ?_ h
  · rw [e1]; simp [Datum.fin?]
  · rw [e3]; simp [Datum.fin?]
  · simp [FOp.exact]
example : FOp.special .add (.inf true) (.inf false) = some .nan := rfl
example : FOp.special .div (.num (-3)) (.zero false) = some (.inf true) := by simp [FOp.special, Datum.neg?]

/-! ## C78 -/

/-- The special results of a fused multiply-add. -/
def Fp.fmaSpecial (x y z : Datum) : Option Datum :=
  match FOp.mul.special x y with
  | some p => FOp.add.special p z
  | none => match z with
    | .nan => some .nan
    | .inf t => some (.inf t)
    | _ => none

/-- `fp_fma` rounds once: on finite operands it is what the constructor makes of the exact `a * b + c`. -/
theorem C78_fma {f : Fmt} (hf : f.Ok) (h2 : 2 ≤ f.eb) (o : Bool) {v w u : Mpfr} {a b c : ℚ}
    (ha : v.datum.fin? = some a) (hb : w.datum.fin? = some b) (hc : u.datum.fin? = some c) :
    f.fpFma o v (.fp f w) (.fp f u) =
      .ok (f.ofRat (a * b + c) (FOp.zeroSign .add f.mode (v.isSigned ^^ w.isSigned) u.isSigned)) := by
  obtain ⟨rfl, hv'⟩ := fin_cases ha
  obtain ⟨rfl, hw'⟩ := fin_cases hb
  obtain ⟨rfl, hu'⟩ := fin_cases hc
  have : f.ctx.fma o v w u = f.ctx.ofRat (v.toRat * w.toRat + u.toRat)
      (f.ctx.zeroSign (v.isSigned ^^ w.isSigned) u.isSigned) := by
    rcases hv' with ⟨s, rfl⟩ | ⟨s, m, e, rfl⟩ <;> rcases hw' with ⟨s', rfl⟩ | ⟨s', m', e', rfl⟩ <;>
      rcases hu' with ⟨s'', rfl⟩ | ⟨s'', m'', e'', rfl⟩ <;> rfl
  simp only [Fmt.fpFma, coerce_self, bind, Except.bind, pure, Except.pure, this, ofMpfr_ofRat hf h2, zeroSign_eq]

theorem C78_special {f : Fmt} (hf : f.Ok) (h2 : 2 ≤ f.eb) (o : Bool) {v w u : Mpfr} (hv : f.Object v) (hw : f.Object w)
    {d : Datum} (hd : fmaSpecial v.datum w.datum u.datum = some d) :
    ∃ r, f.fpFma o v (.fp f w) (.fp f u) = .ok r ∧ f.OrNaN d r.datum := by
  have hv := object_rep hf h2 hv
  have hw := object_rep hf h2 hw
  have hnan : ∀ s, f.OrNaN .nan (f.ofMpfr (.nan s)).datum := by
    intro s
    unfold Fmt.OrNaN Fmt.ofMpfr Ctx.ofMpfr Fmt.finish
    cases f.ieee <;> simp [Mpfr.datum]
  have hinf : ∀ s, f.OrNaN (.inf s) (f.ofMpfr (.inf s)).datum := fun s => by
    simp [Fmt.OrNaN, Fmt.ofMpfr, Ctx.ofMpfr, Fmt.finish, Mpfr.datum]
  have key : ∀ {s m e}, Rep f (.fin s m e) → decide (sgn s * m * 2 ^ e < 0) = s := fun h =>
    (rep_sign h ⟨_, _, _, rfl⟩).symm
  simp only [Fmt.fpFma, coerce_self, bind, Except.bind, pure, Except.pure]
  refine ⟨_, rfl, ?_⟩
  cases v <;> cases w <;> cases u <;>
    simp only [fmaSpecial, FOp.special, Mpfr.datum, Datum.neg?, Option.map, Option.some.injEq, reduceCtorEq] at hd <;>
    subst hd <;> simp only [Ctx.fma, exactMul, Mpfr.isSigned]
  all_goals first
    | exact hnan _
    | exact hinf _
    | (split <;> first | exact hnan _ | exact hinf _)
    | (rw [key hv]; exact hinf _)
    | (rw [key hw]; exact hinf _)
    | (rw [key hv]; split <;> first | exact hnan _ | exact hinf _)
    | (rw [key hw]; split <;> first | exact hnan _ | exact hinf _)

example : fmaSpecial (.inf true) (.num 2) (.inf false) = some .nan := by simp [fmaSpecial, FOp.special, Datum.neg?]
example : (Mpfr.zero true).datum.fin? = some 0 := rfl

/-! ## C79 -/

/-- Addition and multiplication commute, on all values. -/
theorem C79_comm (f : Fmt) (o : Bool) (v w : Mpfr) :
    f.fpAdd o v (.fp f w) = f.fpAdd o w (.fp f v) ∧ f.fpMul o v (.fp f w) = f.fpMul o w (.fp f v) := by
  have hz : ∀ s t, f.ctx.zeroSign s t = f.ctx.zeroSign t s := fun s t => by
    unfold Ctx.zeroSign; cases s <;> cases t <;> rfl
  simp only [Fmt.fpAdd, Fmt.fpMul, coerce_self, bind, Except.bind, pure, Except.pure]
  constructor
  · congr 2
    cases v <;> cases w <;> simp only [Ctx.add]
    · rename_i s t; cases s <;> cases t <;> rfl
    all_goals rw [add_comm, hz]
  · congr 2
    cases v <;> cases w <;> simp only [Ctx.mul, Mpfr.isSigned]
    all_goals first | rfl | (rw [mul_comm, Bool.xor_comm]) | (rw [Bool.xor_comm])

/-- Subtracting is adding the negated object. -/
theorem C79_sub {f : Fmt} (hf : f.Ok) (h2 : 2 ≤ f.eb) (o : Bool) (v : Mpfr) {w : Mpfr} (hw : f.Object w) :
    f.fpSub o v (.fp f w) = f.fpAdd o v (.fp f (f.fpNeg w)) := by
  have hn : f.fpNeg w = w.neg := rep_ofMpfr (rep_neg (object_rep hf h2 hw))
  simp only [Fmt.fpAdd, Fmt.fpSub, coerce_self, bind, Except.bind, pure, Except.pure, hn]
  congr 2
  have e : ∀ s m e, (Mpfr.fin (!s) m e).toRat = -(Mpfr.fin s m e).toRat := fun s m e => by
    cases s <;> simp [Mpfr.toRat]
  cases v <;> cases w <;> simp only [Ctx.add, Ctx.sub, Mpfr.neg, Mpfr.isSigned, e, sub_eq_add_neg]
  · rename_i s t; cases s <;> cases t <;> rfl
  all_goals simp [Mpfr.toRat]

/-- 1 is neutral for `*` and `/`; a NaN stays a NaN. -/
theorem C79_one {f : Fmt} (hf : f.Ok) (h2 : 2 ≤ f.eb) (o : Bool) {v : Mpfr} (hv : f.Object v) (hn : v.datum ≠ .nan) :
    f.fpMul o v (.num 1 false) = .ok v ∧ f.fpDiv o v (.num 1 false) = .ok v := by
  have hv := object_rep hf h2 hv
  have h1 : f.coerce (.num 1 false) = .ok (.fin false (2 ^ f.mb) (-f.mb)) := by
    simp only [Fmt.coerce, Fmt.mk', ofRat_one hf h2]
  simp only [Fmt.fpMul, Fmt.fpDiv, h1, bind, Except.bind, pure, Except.pure]
  cases hv with
  | nan => exact absurd rfl hn
  | inf s => cases s <;> exact ⟨rfl, rfl⟩
  | zero s =>
    simp only [Ctx.mul, Ctx.div, toRat_one]
    cases s <;> simp [Mpfr.toRat, Ctx.ofRat, Mpfr.isSigned, Fmt.ofMpfr, Ctx.ofMpfr, Fmt.finish]
  | fin s m e hN =>
    simp only [Ctx.mul, Ctx.div, toRat_one, mul_one, div_one, ofRat_exact hN]
    rw [ofMpfr_exact hN]
    exact ⟨rfl, rfl⟩

/-- Adding `+0` changes nothing but (outside `RTN`) the sign of `-0`. -/
theorem C79_zero {f : Fmt} (hf : f.Ok) (h2 : 2 ≤ f.eb) (o : Bool) {v : Mpfr} (hv : f.Object v) (hn : v.datum ≠ .nan)
    (hz : v ≠ .zero true ∨ f.mode = .RTN) : f.fpAdd o v (.num 0 false) = .ok v := by
  have hv := object_rep hf h2 hv
  have h1 : f.coerce (.num 0 false) = .ok (.zero false) := by
    simp only [Fmt.coerce, Fmt.mk', ofRat_zero]
  simp only [Fmt.fpAdd, h1, bind, Except.bind, pure, Except.pure]
  cases hv with
  | nan => exact absurd rfl hn
  | inf s => rfl
  | zero s =>
    simp only [Ctx.add, zeroSign_eq]
    cases s
    · simp [Mpfr.toRat, Ctx.ofRat, Mpfr.isSigned, Fmt.ofMpfr, Ctx.ofMpfr, Fmt.finish, FOp.zeroSign]
    · have := hz.resolve_left (by simp)
      simp [Mpfr.toRat, Ctx.ofRat, Mpfr.isSigned, Fmt.ofMpfr, Ctx.ofMpfr, Fmt.finish, FOp.zeroSign, this]
  | fin s m e hN =>
    have e0 : (Mpfr.zero false).toRat = 0 := rfl
    simp only [Ctx.add, e0, add_zero, ofRat_exact hN]
    rw [ofMpfr_exact hN]

/-- `x - x` is `+0`, in `RTN` `-0`, for finite `x`. -/
theorem C79_self {f : Fmt} (hf : f.Ok) (h2 : 2 ≤ f.eb) (o : Bool) {v : Mpfr} {a : ℚ} (ha : v.datum.fin? = some a) :
    f.fpSub o v (.fp f v) = .ok (.zero (decide (f.mode = .RTN))) := by
  have := C77_exact hf h2 o ha ha .sub (x := 0) (by simp [FOp.exact])
  rw [show f.run .sub = f.fpSub from rfl] at this
  rw [this, ofRat_zero]
  simp only [FOp.zeroSign]
  cases v.isSigned <;> simp

example : half.fpAdd false (.zero true) (.num 0 false) = .ok (.zero false) := by
  simp [Fmt.fpAdd, Fmt.coerce, Fmt.mk', ofRat_zero, bind, Except.bind, pure, Except.pure, Ctx.add, Mpfr.toRat, Ctx.ofRat,
    Mpfr.isSigned, Fmt.ofMpfr, Ctx.ofMpfr, Fmt.finish, Ctx.zeroSign, half, Fmt.ctx, Mode.gmpy]
example : brain.Object (brain.ofRat (-5 / 7) false) ∧ (Mpfr.zero false).datum ≠ .nan := ⟨.number _ _, by decide⟩

/-! ## C80 -/

/-- Construction is monotone in the exact value. -/
theorem C80_construct {f : Fmt} (hf : f.Ok) (h2 : 2 ≤ f.eb) {x x' : ℚ} (hle : x ≤ x') (z z' : Bool) :
    (f.ofRat x z).datum.le (f.ofRat x' z').datum := by
  have hzero : ∀ z, (f.ofRat 0 z).datum.fin? = some 0 := fun z => by rw [ofRat_zero]; rfl
  rcases hle.eq_or_lt with rfl | hlt
  · by_cases h0 : x = 0
    · subst h0; exact le_fin (hzero z) (hzero z') le_rfl
    · rw [show f.ofRat x z' = f.ofRat x z by unfold Fmt.ofRat; rw [ofRat_ne_zero h0, ofRat_ne_zero h0]]
      rw [ofRat_finish hf h2]
      have : ∃ a, (f.ctx.ofRat x z).datum.ext = some a := by
        rcases ofRat_rep (good hf h2) (prec2 hf) x z with ⟨s, h⟩ | ⟨s, h⟩ | ⟨s, m, e, h, _⟩ <;> rw [h]
        · cases s <;> exact ⟨_, rfl⟩
        · exact ⟨_, rfl⟩
        · exact ⟨_, rfl⟩
      obtain ⟨a, ha⟩ := this
      exact ⟨a, a, ha, ha, le_rfl⟩
  · by_cases hm : f.mode = .RNA
    · by_cases hx : x = 0
      · subst hx
        rcases isRTP_of_away hlt (C49_RNA_actual hf h2 hm x' z') with ⟨y, h1, _, h3, _⟩ | ⟨h1, _⟩
        · exact le_fin (hzero z) h1 (hlt.le.trans h3)
        · rw [h1]; exact le_top (fin_ne_nan (hzero z))
      · by_cases hx' : x' = 0
        · subst hx'
          rcases isRTN_of_away hlt (C49_RNA_actual hf h2 hm x z) with ⟨y, h1, _, h3, _⟩ | ⟨h1, _⟩
          · exact le_fin h1 (hzero z') (h3.trans hlt.le)
          · rw [h1]; exact le_bot (fin_ne_nan (hzero z'))
        · exact mono_away hx hx' hle (C49_RNA_actual hf h2 hm x z) (C49_RNA_actual hf h2 hm x' z')
    · have h := C49_rounds_partial hf h2 hm x z
      have h' := C49_rounds_partial hf h2 hm x' z'
      unfold Fmt.IsRounded at h h'
      cases hmode : f.mode <;> rw [hmode] at h h'
      · exact mono_RNE hlt h h'
      · exact absurd hmode hm
      · exact mono_RTP hle h h'
      · exact mono_RTN hle h h'
      · exact mono_RTZ hle h h'

/-- Results of operations are ordered as the exact results are, whatever the operations. -/
theorem C80_operations {f : Fmt} (hf : f.Ok) (h2 : 2 ≤ f.eb) (o o' : Bool) {v w v' w' r r' : Mpfr} {a b a' b' x x' : ℚ}
    (ha : v.datum.fin? = some a) (hb : w.datum.fin? = some b) (ha' : v'.datum.fin? = some a')
    (hb' : w'.datum.fin? = some b') {op op' : FOp} (hx : op.exact a b = some x) (hx' : op'.exact a' b' = some x')
    (hle : x ≤ x') (hr : f.run op o v (.fp f w) = .ok r) (hr' : f.run op' o' v' (.fp f w') = .ok r') :
    r.datum.le r'.datum := by
  rw [C77_exact hf h2 o ha hb op hx] at hr
  rw [C77_exact hf h2 o' ha' hb' op' hx'] at hr'
  injection hr with hr
  injection hr' with hr'
  subst hr; subst hr'
  exact C80_construct hf h2 hle _ _

example : (half.ofRat (1 / 3) false).datum.le (half.ofRat (1 / 2) false).datum :=
  C80_construct (by decide) (by decide) (by norm_num) _ _

end HW
