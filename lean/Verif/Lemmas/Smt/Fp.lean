import Verif.Spec.SmtFp
import Verif.Lemmas.Smt.Names
import Verif.Lemmas.Fp.Arith
import Verif.Props.Fp

/-! # Lemmas about `SMTFPVector` -/

namespace HW.SmtFp
open HW.Fp
open HW.Smt (Name split_last toDigits_inj)

theorem not_mem_digits {c : Char} (h : c.isDigit = false) (n : Nat) : c ∉ Nat.toDigits 10 n := fun hm => by
  have := Nat.isDigit_of_mem_toDigits (by decide) (by decide) hm
  simp [h] at this

theorem Meth.name_inj : ∀ m m' : Meth, m.name = m'.name → m = m' := by
  intro m m'
  cases m <;> cases m' <;> first | exact fun _ => rfl | (intro h; simp [Meth.name] at h)

theorem Meth.dot (m : Meth) : '.' ∉ m.name := by cases m <;> decide

theorem ubv_dot (n : Nat) : '.' ∉ SFP.ubvName n := by
  simp only [SFP.ubvName, List.mem_append]
  rintro ((h | h) | h)
  · revert h; decide
  · exact not_mem_digits (by decide) _ h
  · revert h; decide

theorem ubv_inj {n n' : Nat} (h : SFP.ubvName n = SFP.ubvName n') : n = n' := by
  simp only [SFP.ubvName, List.append_cancel_right_eq, List.append_cancel_left_eq] at h
  exact toDigits_inj h

theorem ubv_ne (n : Nat) (m : Meth) : SFP.ubvName n ≠ m.name := by
  intro h
  have : (SFP.ubvName n).head? = m.name.head? := by rw [h]
  revert this
  simp only [SFP.ubvName, List.cons_append, List.head?_cons]
  cases m <;> decide

theorem stdName_inj {f g : Fmt} (h : stdName f = stdName g) : f = g := by
  simp only [stdName, List.append_cancel_right_eq] at h
  simp only [List.append_assoc, List.singleton_append] at h
  have hi : ∀ b : Bool, ',' ∉ (if b then ['T', 'r', 'u', 'e'] else ['F', 'a', 'l', 's', 'e']) := by decide
  have hm : ∀ m : Mode, ',' ∉ ['R', 'o', 'u', 'n', 'd', 'i', 'n', 'g', 'M', 'o', 'd', 'e', '.'] ++ Mode.text m := by
    intro m; cases m <;> decide
  have hd : ∀ n : Nat, ',' ∉ Nat.toDigits 10 n := not_mem_digits (by decide)
  obtain ⟨a, b, c, d⟩ := f
  obtain ⟨a', b', c', d'⟩ := g
  dsimp only at h
  have re : ∀ (p x y z w : Name), p ++ (x ++ (',' :: y ++ (',' :: z ++ ',' :: w))) =
      (((p ++ x) ++ ',' :: y) ++ ',' :: z) ++ ',' :: w := by intros; simp
  rw [re, re] at h
  obtain ⟨h, h4⟩ := split_last (hi _) (hi _) h
  obtain ⟨h, h3⟩ := split_last (hm _) (hm _) h
  obtain ⟨h, h2⟩ := split_last (hd _) (hd _) h
  have h1 := toDigits_inj (List.append_cancel_left h)
  have h2 := toDigits_inj h2
  have h3 : c = c' := by cases c <;> cases c' <;> first | rfl | (simp [Mode.text] at h3)
  have h4 : d = d' := by cases d <;> cases d' <;> first | rfl | (simp at h4)
  rw [h1, h2, h3, h4]

/-! ### The concrete methods do not look at the sign of a NaN operand -/

/-- Two results that differ at most in the sign of a NaN. -/
def FRes.same : FRes → FRes → Prop
  | .fp v, .fp w => v.plainNaN = w.plainNaN
  | .bit a, .bit b => a = b
  | _, _ => False

theorem FRes.same_refl : ∀ r : FRes, r.same r
  | .fp _ => rfl
  | .bit _ => rfl

/-- Both raise or both return the same. -/
def sameE : PyM FRes → PyM FRes → Prop
  | .ok a, .ok b => a.same b
  | .error _, .error _ => True
  | _, _ => False

theorem sameE_refl : ∀ r : PyM FRes, sameE r r
  | .ok _ => FRes.same_refl _
  | .error _ => trivial

theorem object_cases {f : Fmt} (hf : f.Ok) (h2 : 2 ≤ f.eb) {v : Mpfr} (h : f.Object v) :
    (∃ s, v = .nan s ∧ f.ieee = true) ∨ v.plainNaN = v := by
  cases object_rep hf h2 h with
  | nan s hi => exact .inl ⟨s, rfl, hi⟩
  | _ => exact .inr rfl

theorem ofMpfr_nan {f : Fmt} (hi : f.ieee = true) (s : Bool) : f.ofMpfr (.nan s) = .nan s := by
  simp [Fmt.ofMpfr, Ctx.ofMpfr, Fmt.finish, hi]

theorem object_nan {f : Fmt} (hi : f.ieee = true) (s : Bool) : f.Object (.nan s) := by
  rw [← ofMpfr_nan hi s]; exact .mpfr _

theorem class_nan {f : Fmt} (hf : f.Ok) (h2 : 2 ≤ f.eb) (hi : f.ieee = true) (s : Bool) :
    f.isNormal (.nan s) = .ok false ∧ f.isSubnormal (.nan s) = .ok false := by
  obtain ⟨_, E, M, -, -, hz, hs, hn, -, ha⟩ := C47_by_fields hf h2 (object_nan hi s)
  have ha : E = 2 ^ f.eb - 1 ∧ M ≠ 0 := by simpa [HW.Fp.isNaN] using ha
  have hne : E ≠ 0 := by
    have : 1 < 2 ^ f.eb := Nat.one_lt_two_pow (by have := hf.1; omega)
    omega
  rw [hs, hn]
  exact ⟨by simp [ha.1], congrArg _ (decide_eq_false fun h => hne h.1)⟩

theorem add_plain (c : Ctx) (o : Bool) (v w : Mpfr) : c.add o v.plainNaN w.plainNaN = c.add o v w := by
  cases v <;> cases w <;> rfl
theorem sub_plain (c : Ctx) (o : Bool) (v w : Mpfr) : c.sub o v.plainNaN w.plainNaN = c.sub o v w := by
  cases v <;> cases w <;> rfl
theorem mul_plain (c : Ctx) (o : Bool) (v w : Mpfr) : c.mul o v.plainNaN w.plainNaN = c.mul o v w := by
  cases v <;> cases w <;> rfl
theorem div_plain (c : Ctx) (o : Bool) (v w : Mpfr) : c.div o v.plainNaN w.plainNaN = c.div o v w := by
  cases v <;> cases w <;> rfl
theorem rem_plain (c : Ctx) (o : Bool) (v w : Mpfr) : c.rem o v.plainNaN w.plainNaN = c.rem o v w := by
  cases v <;> cases w <;> rfl
theorem lt_plain (v w : Mpfr) : v.plainNaN.lt w.plainNaN = v.lt w := by cases v <;> cases w <;> rfl
theorem eq_plain (v w : Mpfr) : v.plainNaN.eq w.plainNaN = v.eq w := by cases v <;> cases w <;> rfl
theorem minnum_plain (o : Bool) (v w : Mpfr) : Mpfr.minnum o v.plainNaN w.plainNaN = Mpfr.minnum o v w := by
  cases v <;> cases w <;> rfl
theorem maxnum_plain (o : Bool) (v w : Mpfr) : Mpfr.maxnum o v.plainNaN w.plainNaN = Mpfr.maxnum o v w := by
  cases v <;> cases w <;> rfl
theorem fma_plain (c : Ctx) (o : Bool) (v w u : Mpfr) :
    c.fma o v.plainNaN w.plainNaN u.plainNaN = c.fma o v w u := by
  have : exactMul v.plainNaN w.plainNaN = exactMul v w := by cases v <;> cases w <;> rfl
  unfold Ctx.fma
  rw [this]
  cases exactMul v w <;> cases u <;> rfl

theorem coerce_same (f : Fmt) (v : Mpfr) : f.coerce (.fp f v) = .ok v := by simp [Fmt.coerce]

theorem concrete_plain {f : Fmt} (hf : f.Ok) (h2 : 2 ≤ f.eb) (m : Meth) (o : Bool) {v : Mpfr} {ws : List Mpfr}
    (hv : f.Object v) :
    sameE (concrete m f o v.plainNaN (ws.map Mpfr.plainNaN)) (concrete m f o v ws) := by
  have c0 := coerce_same f
  rcases ws with _ | ⟨w, _ | ⟨u, _ | ⟨t, ws⟩⟩⟩
  · -- unary
    rcases object_cases hf h2 hv with ⟨s, rfl, hi⟩ | h
    · have hn := class_nan hf h2 hi
      cases m <;> simp [concrete, sameE, FRes.same, Mpfr.plainNaN, Fmt.fpAbs, Fmt.fpNeg, Fmt.fpRint, Ctx.rint,
        Fmt.fpSqrt, Ctx.sqrt, Mpfr.geZero, Mpfr.neg, ofMpfr_nan hi, HW.Fp.isZero, isInf, HW.Fp.isNaN, HW.Fp.isNegative,
        HW.Fp.isPositive, (hn _).1, (hn _).2, Except.map]
    · rw [h]; exact sameE_refl _
  · -- binary
    have : concrete m f o v.plainNaN [w.plainNaN] = concrete m f o v [w] := by
      cases m <;> simp [concrete, Fmt.fpAdd, Fmt.fpSub, Fmt.fpMul, Fmt.fpDiv, Fmt.fpRem, Fmt.fpMin, Fmt.fpMax,
        Fmt.fpLeq, Fmt.fpLt, Fmt.fpGeq, Fmt.fpGt, Fmt.fpEq, c0, bind, Except.bind, pure, Except.pure, Except.map,
        add_plain, sub_plain, mul_plain, div_plain, rem_plain, minnum_plain, maxnum_plain, lt_plain, eq_plain]
    rw [List.map_cons, List.map_nil, this]
    exact sameE_refl _
  · -- ternary
    have : concrete m f o v.plainNaN [w.plainNaN, u.plainNaN] = concrete m f o v [w, u] := by
      cases m <;> simp [concrete, Fmt.fpFma, c0, bind, Except.bind, pure, Except.pure, Except.map, fma_plain]
    simp only [List.map_cons, List.map_nil]
    rw [this]
    exact sameE_refl _
  · cases m <;> exact trivial

/-- Results that are numbers are objects of the format. -/
theorem concrete_object {f : Fmt} {m : Meth} {o : Bool} {v : Mpfr} {ws : List Mpfr} {r : Mpfr}
    (h : concrete m f o v ws = .ok (.fp r)) : f.Object r := by
  have c0 := coerce_same f
  rcases ws with _ | ⟨w, _ | ⟨u, _ | ⟨t, ws⟩⟩⟩ <;> cases m <;>
    simp [concrete, Except.map, Fmt.fpAbs, Fmt.fpNeg, Fmt.fpRint, Fmt.fpSqrt, Fmt.fpAdd, Fmt.fpSub, Fmt.fpMul, Fmt.fpDiv, Fmt.fpRem,
      Fmt.fpMin, Fmt.fpMax, Fmt.fpFma, Fmt.fpLeq, Fmt.fpLt, Fmt.fpGeq, Fmt.fpGt, Fmt.fpEq, c0, bind, Except.bind, pure,
      Except.pure] at h <;>
    first
    | (rw [← h]; exact .mpfr _)
    | (split at h <;> simp at h)

/-- Two results of one operation of `gmpy2` that differ at most in the sign of a NaN. -/
def nanOr (a b : Mpfr) : Prop := a = b ∨ ∃ s t, a = .nan s ∧ b = .nan t

theorem nanOr_ofMpfr {f : Fmt} (hi : f.ieee = true) {a b : Mpfr} (h : nanOr a b) :
    (f.ofMpfr a).plainNaN = (f.ofMpfr b).plainNaN := by
  rcases h with rfl | ⟨s, t, rfl, rfl⟩
  · rfl
  · rw [ofMpfr_nan hi, ofMpfr_nan hi]; rfl

section
variable (c : Ctx) (o o' : Bool) (v w : Mpfr)
theorem add_or : nanOr (c.add o v w) (c.add o' v w) := by
  cases v <;> cases w <;> first | exact .inl rfl | exact .inr ⟨_, _, rfl, rfl⟩ |
    (simp only [Ctx.add]; split <;> first | exact .inl rfl | exact .inr ⟨_, _, rfl, rfl⟩)
theorem sub_or : nanOr (c.sub o v w) (c.sub o' v w) := by
  cases v <;> cases w <;> first | exact .inl rfl | exact .inr ⟨_, _, rfl, rfl⟩ |
    (simp only [Ctx.sub]; split <;> first | exact .inl rfl | exact .inr ⟨_, _, rfl, rfl⟩)
theorem mul_or : nanOr (c.mul o v w) (c.mul o' v w) := by
  cases v <;> cases w <;> first | exact .inl rfl | exact .inr ⟨_, _, rfl, rfl⟩
theorem div_or : nanOr (c.div o v w) (c.div o' v w) := by
  cases v <;> cases w <;> first | exact .inl rfl | exact .inr ⟨_, _, rfl, rfl⟩
theorem rem_or : nanOr (c.rem o v w) (c.rem o' v w) := by
  cases v <;> cases w <;> first | exact .inl rfl | exact .inr ⟨_, _, rfl, rfl⟩
theorem minnum_or : nanOr (Mpfr.minnum o v w) (Mpfr.minnum o' v w) := by
  cases v <;> cases w <;> first | exact .inl rfl | exact .inr ⟨_, _, rfl, rfl⟩
theorem maxnum_or : nanOr (Mpfr.maxnum o v w) (Mpfr.maxnum o' v w) := by
  cases v <;> cases w <;> first | exact .inl rfl | exact .inr ⟨_, _, rfl, rfl⟩
theorem sqrt_or : nanOr (c.sqrt o v) (c.sqrt o' v) := by
  cases v with
  | inf s => cases s <;> first | exact .inl rfl | exact .inr ⟨_, _, rfl, rfl⟩
  | fin s => cases s <;> first | exact .inl rfl | exact .inr ⟨_, _, rfl, rfl⟩
  | nan => exact .inr ⟨_, _, rfl, rfl⟩
  | zero => exact .inl rfl
theorem fma_or (u : Mpfr) : nanOr (c.fma o v w u) (c.fma o' v w u) := by
  unfold Ctx.fma
  cases exactMul v w <;> cases u <;> first | exact .inl rfl | exact .inr ⟨_, _, rfl, rfl⟩ |
    (dsimp only; split <;> first | exact .inl rfl | exact .inr ⟨_, _, rfl, rfl⟩)
end

/-- In an IEEE format the open sign is that of a NaN result only. -/
theorem concrete_oracle {f : Fmt} (hi : f.ieee = true) (m : Meth) (o o' : Bool) (v : Mpfr) (ws : List Mpfr) :
    sameE (concrete m f o v ws) (concrete m f o' v ws) := by
  have c0 := coerce_same f
  rcases ws with _ | ⟨w, _ | ⟨u, _ | ⟨t, ws⟩⟩⟩
  · cases m <;> try exact sameE_refl _
    exact nanOr_ofMpfr hi (sqrt_or _ _ _ _)
  · cases m <;> first
      | exact sameE_refl _
      | (simp only [concrete, sameE, FRes.same, Fmt.fpAdd, Fmt.fpSub, Fmt.fpMul, Fmt.fpDiv, Fmt.fpRem, Fmt.fpMin, Fmt.fpMax,
          c0, bind, Except.bind, pure, Except.pure, Except.map]
         apply nanOr_ofMpfr hi
         first | exact add_or _ _ _ _ _ | exact sub_or _ _ _ _ _ | exact mul_or _ _ _ _ _ | exact div_or _ _ _ _ _ |
           exact rem_or _ _ _ _ _ | exact minnum_or _ _ _ _ | exact maxnum_or _ _ _ _)
  · cases m <;> try exact sameE_refl _
    simp only [concrete, sameE, FRes.same, Fmt.fpFma, c0, bind, Except.bind, pure, Except.pure, Except.map]
    exact nanOr_ofMpfr hi (fma_or _ _ _ _ _ _)
  · cases m <;> exact trivial

theorem FRes.same_trans {a b c : FRes} (h : a.same b) (h' : b.same c) : a.same c := by
  cases a <;> cases b <;> cases c <;> simp_all [FRes.same]

theorem sameE_trans {a b c : PyM FRes} (h : sameE a b) (h' : sameE b c) : sameE a c := by
  cases a <;> cases b <;> cases c <;> first | trivial | exact h.elim | exact h'.elim | exact FRes.same_trans h h'

/-- What the concrete method gives on operands read back from their bits, against the operands themselves. -/
theorem concrete_read {f : Fmt} (hf : f.Ok) (h2 : 2 ≤ f.eb) (m : Meth) (o : Mpfr → List Mpfr → Bool) {v : Mpfr}
    {ws : List Mpfr} (hv : f.Object v) (hws : ∀ w ∈ ws, f.Object w) :
    sameE (concrete m f (o v.plainNaN (ws.map Mpfr.plainNaN)) v.plainNaN (ws.map Mpfr.plainNaN))
      (concrete m f (o v ws) v ws) := by
  cases hi : f.ieee with
  | true => exact sameE_trans (concrete_plain hf h2 m _ hv) (concrete_oracle hi _ _ _ _ _)
  | false =>
    have key : ∀ w, f.Object w → w.plainNaN = w := fun w hw => by
      rcases object_cases hf h2 hw with ⟨_, _, h⟩ | h
      · rw [hi] at h; cases h
      · exact h
    have : ws.map Mpfr.plainNaN = ws := by
      rw [List.map_congr_left (fun w hw => key w (hws w hw)), List.map_id']
    rw [key v hv, this]
    exact sameE_refl _

/-! ### The interpretation that follows the concrete class -/

/-- The concrete operands of a list of bit patterns. -/
def readAll (f : Fmt) (l : List Nat) : List Mpfr :=
  l.map fun (a : Nat) => match f.fromBV ⟨.root .bv, f.size, (a : Int)⟩ with
    | .ok v => v
    | .error _ => .zero false

/-- The value of the function symbol of `m` on bit patterns. -/
def follow (f : Fmt) (o : Mpfr → List Mpfr → Bool) (m : Meth) (l : List Nat) : Nat :=
  match readAll f l with
  | [] => 0
  | v :: ws =>
    match concrete m f (o v ws) v ws with
    | .ok (.fp r) => match f.asBV r with
      | .ok b => b.value.toNat
      | .error _ => 0
    | .ok (.bit b) => b.toNat
    | .error _ => 0

def followUbv (f : Fmt) (size : Nat) (l : List Nat) : Nat :=
  match readAll f l with
  | [] => 0
  | v :: _ => match toUBV v size with
    | .ok b => b.value.toNat
    | .error _ => 0

open Classical in
/-- The function symbols read as the concrete class of the format `N` gives the class name. -/
noncomputable def interpUF (N : Name → Fmt) (o : Fmt → Meth → Mpfr → List Mpfr → Bool) (n : Name) (l : List Nat) : Nat :=
  if h : ∃ c : Name, ∃ m : Meth, n = c ++ '.' :: m.name then
    follow (N h.choose) (o (N h.choose) h.choose_spec.choose) h.choose_spec.choose l
  else if h : ∃ c : Name, ∃ s : Nat, n = c ++ '.' :: SFP.ubvName s then
    followUbv (N h.choose) h.choose_spec.choose l
  else 0

theorem interpUF_meth (N o) (c : Name) (m : Meth) (l : List Nat) :
    interpUF N o (c ++ '.' :: m.name) l = follow (N c) (o (N c) m) m l := by
  unfold interpUF
  have h : ∃ c' : Name, ∃ m' : Meth, c ++ '.' :: m.name = c' ++ '.' :: m'.name := ⟨c, m, rfl⟩
  rw [dif_pos h]
  obtain ⟨hc, hm⟩ := split_last m.dot (h.choose_spec.choose).dot h.choose_spec.choose_spec
  rw [← Meth.name_inj _ _ hm, ← hc]

theorem interpUF_ubv (N o) (c : Name) (s : Nat) (l : List Nat) :
    interpUF N o (c ++ '.' :: SFP.ubvName s) l = followUbv (N c) s l := by
  unfold interpUF
  have h0 : ¬ ∃ c' : Name, ∃ m' : Meth, c ++ '.' :: SFP.ubvName s = c' ++ '.' :: m'.name := by
    rintro ⟨c', m', h⟩
    exact ubv_ne s m' (split_last (ubv_dot s) m'.dot h).2
  have h : ∃ c' : Name, ∃ s' : Nat, c ++ '.' :: SFP.ubvName s = c' ++ '.' :: SFP.ubvName s' := ⟨c, s, rfl⟩
  rw [dif_neg h0, dif_pos h]
  obtain ⟨hc, hm⟩ := split_last (ubv_dot s) (ubv_dot _) h.choose_spec.choose_spec
  rw [← ubv_inj hm, ← hc]

theorem readAll_reads {e : Interp} {f : Fmt} {xs : List SFP} {vs : List Mpfr} (hc : ∀ x ∈ xs, x.cls.fmt = f)
    (h : List.Forall₂ (Reads e) xs vs) :
    readAll f (nums e (xs.map SFP.val)) = vs.map Mpfr.plainNaN := by
  induction h with
  | nil => rfl
  | @cons x v xs vs hx _ ih =>
    have ih := ih fun y hy => hc y (List.mem_cons_of_mem _ hy)
    have hf := hc x (by simp)
    simp only [readAll, nums, List.map_cons, List.map_map] at ih ⊢
    rw [← hf, hx.bits, hf]
    exact congrArg _ ih

theorem asBV_reads {f : Fmt} (hf : f.Ok) (h2 : 2 ≤ f.eb) {r : Mpfr} (h : f.Object r) :
    ∃ n : Nat, n < 2 ^ f.size ∧ f.asBV r = .ok ⟨.root .bv, f.size, n⟩ ∧
      f.fromBV ⟨.root .bv, f.size, n⟩ = .ok r.plainNaN := by
  obtain ⟨E, M, hF, h1, -⟩ := rep_encode hf (object_rep hf h2 h)
  have hb := pattern_bounds (s := r.isSigned) hF
  have h3 := C44_object hf h2 h
  obtain ⟨n, hn⟩ := Int.eq_ofNat_of_zero_le hb.1
  rw [hn] at h1 hb
  refine ⟨n, by exact_mod_cast hb.2, h1, ?_⟩
  rw [h1] at h3
  exact h3

theorem checkArgs_ok {f : Fmt} {xs : List SFP} {k : Nat} (hk : xs.length = k) (hw : ∀ x ∈ xs, x.val.w = f.size) :
    checkArgs (List.replicate k f.size) (xs.map fun x => some x.val) = .ok (xs.map SFP.val) := by
  subst hk
  unfold checkArgs
  rw [if_neg (by simp), if_neg]
  · congr 1
    induction xs with
    | nil => rfl
    | cons x xs ih => simp
  · rw [not_not]
    induction xs with
    | nil => rfl
    | cons x xs ih =>
      simp only [List.map_cons, List.length_cons, List.replicate_succ, Option.map_some]
      rw [ih fun y hy => hw y (List.mem_cons_of_mem _ hy), hw x (by simp)]

/-- The number of arguments of a method after `self`. -/
def Meth.arity : Meth → Nat
  | .add | .sub | .mul | .div | .rem | .min | .max | .leq | .lt | .geq | .gt | .eq => 1
  | .fma => 2
  | _ => 0

theorem concrete_arity {m : Meth} {f : Fmt} {o : Bool} {v : Mpfr} {ws : List Mpfr} {r : FRes}
    (h : concrete m f o v ws = .ok r) : ws.length = m.arity := by
  rcases ws with _ | ⟨w, _ | ⟨u, _ | ⟨t, ws⟩⟩⟩ <;> cases m <;> first | rfl | cases h

/-- The call in terms of the function symbols. -/
theorem call_eq {x : SFP} {ys : List SFP} {m : Meth} (h : ys.length = m.arity) :
    call m x (ys.map .fp) = if m.sig.2 then (bitMethod x.cls m ((x :: ys).map fun y => some y.val)).map .bit
      else (fpMethod x.cls m ((x :: ys).map fun y => some y.val)).map .fp := by
  rcases ys with _ | ⟨y, _ | ⟨z, _ | ⟨t, ys⟩⟩⟩ <;> cases m <;> first | rfl | cases h

theorem concrete_kind {m : Meth} {f : Fmt} {o : Bool} {v : Mpfr} {ws : List Mpfr} {r : FRes}
    (h : concrete m f o v ws = .ok r) : m.sig.2 = (match r with | .fp _ => false | .bit _ => true) := by
  have c0 := coerce_same f
  cases r <;> rcases ws with _ | ⟨w, _ | ⟨u, _ | ⟨t, ws⟩⟩⟩ <;> cases m <;> first
    | rfl
    | cases h
    | (simp [concrete, Except.map, Fmt.fpAdd, Fmt.fpSub, Fmt.fpMul, Fmt.fpDiv, Fmt.fpRem, Fmt.fpMin, Fmt.fpMax,
        Fmt.fpFma, Fmt.fpLeq, Fmt.fpLt, Fmt.fpGeq, Fmt.fpGt, Fmt.fpEq, c0, bind, Except.bind, pure, Except.pure] at h
       done)
    | (simp only [concrete, Except.map] at h; split at h <;> cases h)

theorem sig_arity {m : Meth} (h1 : m ≠ .min) (h2 : m ≠ .max) : m.sig.1 = m.arity + 1 := by
  cases m <;> first | rfl | exact absurd rfl h1 | exact absurd rfl h2

/-- The main step: in the interpretation that follows the concrete class, a call reads as the concrete call. -/
theorem call_reads {N : Name → Fmt} {o : Fmt → Meth → Mpfr → List Mpfr → Bool} {bv : Name → (w : Nat) → BitVec w}
    {x : SFP} {ys : List SFP} {v : Mpfr} {ws : List Mpfr} {m : Meth} {r : FRes}
    (hN : N x.cls.name = x.cls.fmt) (hf : x.cls.fmt.Ok) (h2 : 2 ≤ x.cls.fmt.eb) (hys : ∀ y ∈ ys, y.cls = x.cls)
    (hv : x.cls.fmt.Object v) (hws : ∀ w ∈ ws, x.cls.fmt.Object w)
    (hx : Reads ⟨bv, interpUF N o⟩ x v) (hy : List.Forall₂ (Reads ⟨bv, interpUF N o⟩) ys ws)
    (h1 : m ≠ .min) (h3 : m ≠ .max) (hr : concrete m x.cls.fmt (o x.cls.fmt m v ws) v ws = .ok r) :
    ∃ s, call m x (ys.map .fp) = .ok s ∧ ReadsRes ⟨bv, interpUF N o⟩ x.cls s r := by
  have hl : ys.length = m.arity := by rw [hy.length_eq]; exact concrete_arity hr
  have hwid : ∀ y ∈ x :: ys, y.val.w = x.cls.fmt.size := by
    intro y hy'
    rcases List.mem_cons.1 hy' with rfl | hy'
    · exact hx.width
    · obtain ⟨i, hi, rfl⟩ := List.mem_iff_getElem.1 hy'
      have := (List.forall₂_iff_get.1 hy).2 i hi (by rw [← hy.length_eq]; exact hi)
      have := this.width
      simp only [List.get_eq_getElem] at this
      rw [this, hys _ (List.getElem_mem hi)]
  have hca := checkArgs_ok (f := x.cls.fmt) (xs := x :: ys) (k := m.sig.1)
    (by rw [sig_arity h1 h3, ← hl]; rfl) hwid
  have hcls : ∀ y ∈ x :: ys, y.cls.fmt = x.cls.fmt := by
    intro y hy'
    rcases List.mem_cons.1 hy' with rfl | hy'
    · rfl
    · rw [hys y hy']
  have hread := readAll_reads hcls (List.Forall₂.cons hx hy)
  have hsame := concrete_read hf h2 m (o x.cls.fmt m) hv hws
  rw [hr] at hsame
  obtain ⟨r', hr', hsame⟩ : ∃ r', concrete m x.cls.fmt (o x.cls.fmt m v.plainNaN (ws.map Mpfr.plainNaN)) v.plainNaN
      (ws.map Mpfr.plainNaN) = .ok r' ∧ r'.same r := by
    revert hsame
    cases concrete m x.cls.fmt (o x.cls.fmt m v.plainNaN (ws.map Mpfr.plainNaN)) v.plainNaN (ws.map Mpfr.plainNaN) with
    | ok r' => exact fun h => ⟨r', rfl, h⟩
    | error => exact fun h => h.elim
  rw [call_eq hl]
  have hk := concrete_kind hr
  cases r with
  | fp r =>
    cases r' with
    | bit => exact hsame.elim
    | fp r' =>
    dsimp only at hk
    obtain ⟨n, hn, ha, hb⟩ := asBV_reads hf h2 (concrete_object hr')
    refine ⟨.fp ⟨x.cls, ⟨x.cls.fmt.size, fun e => BitVec.ofNat _ (e.uf (x.cls.sym m.name)
      (nums e ((x :: ys).map SFP.val)))⟩⟩, ?_, rfl, rfl, ?_⟩
    · rw [if_neg (by simp [hk]), fpMethod, Cls.symTy, hca]
      simp only [bind, Except.bind, mkF, if_true]; rfl
    have : follow (N x.cls.name) (o (N x.cls.name) m) m
        (nums ⟨bv, interpUF N o⟩ ((x :: ys).map SFP.val)) = n := by
      rw [hN, follow, hread]
      simp only [List.map_cons, hr', ha, Int.toNat_natCast]
    simp only [Cls.sym, interpUF_meth, this]
    rw [BitVec.toNat_ofNat, Nat.mod_eq_of_lt hn, hb]
    exact congrArg _ hsame
  | bit b =>
    cases r' with
    | fp => exact hsame.elim
    | bit b' =>
    cases hsame
    dsimp only at hk
    refine ⟨_, by rw [if_pos hk, bitMethod, Cls.symTy, hca]; rfl, ?_⟩
    have : follow (N x.cls.name) (o (N x.cls.name) m) m
        (nums ⟨bv, interpUF N o⟩ ((x :: ys).map SFP.val)) = b.toNat := by
      rw [hN, follow, hread]
      simp only [List.map_cons, hr']
    simp only [ReadsRes, Cls.sym, interpUF_meth, this]
    cases b <;> rfl

/-- The same for `to_ubv`. -/
theorem toUbv_reads {N : Name → Fmt} {o : Fmt → Meth → Mpfr → List Mpfr → Bool} {bv : Name → (w : Nat) → BitVec w}
    {x : SFP} {v : Mpfr} {size : Nat} {b : BVal} (hN : N x.cls.name = x.cls.fmt)
    (hx : Reads ⟨bv, interpUF N o⟩ x v) (hr : toUBV v size = .ok b) :
    ∃ t : Tm, x.toUbv size = .ok t ∧ t.w = b.size ∧ ((t.den ⟨bv, interpUF N o⟩).toNat : Int) = b.value := by
  have hca := checkArgs_ok (f := x.cls.fmt) (xs := [x]) (k := 1) rfl (by simpa using hx.width)
  have hread := readAll_reads (xs := [x]) (f := x.cls.fmt) (by simp) (List.Forall₂.cons hx .nil)
  obtain ⟨i, hi, hv⟩ : ∃ i, v.toInt = .ok i ∧ v.plainNaN = v := by
    cases v <;> first | exact ⟨_, rfl, rfl⟩ | cases hr
  have hb : b = ⟨.root .bv, size, i % 2 ^ size⟩ := by
    simp only [toUBV, hi, bind, Except.bind, mkBV_int] at hr
    exact (Except.ok.inj hr).symm
  have h0 : 0 ≤ i % 2 ^ size := Int.emod_nonneg _ (by positivity)
  have h1 : i % 2 ^ size < 2 ^ size := Int.emod_lt_of_pos _ (by positivity)
  refine ⟨_, by rw [SFP.toUbv, SFP.toVec, if_pos (by decide)]; erw [hca]; rfl, by rw [hb], ?_⟩
  have : followUbv (N x.cls.name) size (nums ⟨bv, interpUF N o⟩ ([x].map SFP.val)) = (i % 2 ^ size).toNat := by
    rw [hN, followUbv, hread]
    simp only [List.map_cons, hv, hr, hb]
  simp only [Cls.sym, interpUF_ubv, this, hb]
  rw [BitVec.toNat_ofNat, Nat.mod_eq_of_lt (by zify; rw [Int.toNat_of_nonneg h0]; exact h1), Int.toNat_of_nonneg h0]

/-! ### Calls that return -/

theorem ok_bind_inv {α β : Type} {x : PyM α} {f : α → PyM β} {b : β} (h : (x >>= f) = .ok b) :
    ∃ a, x = .ok a ∧ f a = .ok b := by
  cases x with
  | error => cases h
  | ok a => exact ⟨a, rfl, h⟩

theorem call_ok {m : Meth} {x : SFP} {ys : List SArg} {s : SRes} (h : call m x ys = .ok s) :
    ys.length = m.arity ∧ m ≠ .min ∧ m ≠ .max := by
  rcases ys with _ | ⟨y, _ | ⟨z, _ | ⟨t, ys⟩⟩⟩ <;> cases m <;> first
    | (refine ⟨rfl, ?_, ?_⟩ <;> (intro h'; cases h'); done)
    | (cases h; done)
    | (cases y <;> cases h; done)

theorem concrete_total {f : Fmt} (hf : f.Ok) (h2 : 2 ≤ f.eb) {m : Meth} (o : Bool) {v : Mpfr} {ws : List Mpfr}
    (hv : f.Object v) (h : ws.length = m.arity) : ∃ r, concrete m f o v ws = .ok r := by
  have c0 := coerce_same f
  obtain ⟨_, E, M, -, -, hz, hs, hn, -⟩ := C47_by_fields hf h2 hv
  rcases ws with _ | ⟨w, _ | ⟨u, _ | ⟨t, ws⟩⟩⟩ <;> cases m <;> first
    | cases h; done
    | exact ⟨_, rfl⟩
    | (simp only [concrete, hs, hn, Except.map]; exact ⟨_, rfl⟩)
    | (simp only [concrete, Fmt.fpAdd, Fmt.fpSub, Fmt.fpMul, Fmt.fpDiv, Fmt.fpRem, Fmt.fpMin, Fmt.fpMax, Fmt.fpFma,
        Fmt.fpLeq, Fmt.fpLt, Fmt.fpGeq, Fmt.fpGt, Fmt.fpEq, c0, bind, Except.bind, pure, Except.pure, Except.map]
       exact ⟨_, rfl⟩)

/-- A method call that returns reads as the concrete call, which returns too. -/
theorem call_sound {N : Name → Fmt} {o : Fmt → Meth → Mpfr → List Mpfr → Bool} {bv : Name → (w : Nat) → BitVec w}
    {x : SFP} {ys : List SFP} {v : Mpfr} {ws : List Mpfr} {m : Meth} {s : SRes}
    (hN : N x.cls.name = x.cls.fmt) (hf : x.cls.fmt.Ok) (h2 : 2 ≤ x.cls.fmt.eb) (hys : ∀ y ∈ ys, y.cls = x.cls)
    (hv : x.cls.fmt.Object v) (hws : ∀ w ∈ ws, x.cls.fmt.Object w)
    (hx : Reads ⟨bv, interpUF N o⟩ x v) (hy : List.Forall₂ (Reads ⟨bv, interpUF N o⟩) ys ws)
    (hs : call m x (ys.map .fp) = .ok s) :
    ∃ r, concrete m x.cls.fmt (o x.cls.fmt m v ws) v ws = .ok r ∧ ReadsRes ⟨bv, interpUF N o⟩ x.cls s r := by
  obtain ⟨hl, h1, h3⟩ := call_ok hs
  rw [List.length_map, hy.length_eq] at hl
  obtain ⟨r, hr⟩ := concrete_total hf h2 (o x.cls.fmt m v ws) hv hl
  obtain ⟨s', hs', h⟩ := call_reads hN hf h2 hys hv hws hx hy h1 h3 hr
  rw [hs] at hs'
  cases hs'
  exact ⟨r, hr, h⟩

section
variable {N : Name → Fmt} {o : Fmt → Meth → Mpfr → List Mpfr → Bool} {bv : Name → (w : Nat) → BitVec w}
variable {c : Cls} {xs : Nat → SFP} {vs : Nat → Mpfr}

theorem Ex.sound (hN : N c.name = c.fmt) (hf : c.fmt.Ok) (h2 : 2 ≤ c.fmt.eb) (hc : ∀ i, (xs i).cls = c)
    (hv : ∀ i, c.fmt.Object (vs i)) (hr : ∀ i, Reads ⟨bv, interpUF N o⟩ (xs i) (vs i)) (a : Ex) {x : SFP}
    (h : a.sym xs = .ok x) :
    x.cls = c ∧ ∃ v, a.conc c.fmt (o c.fmt) vs = .ok v ∧ c.fmt.Object v ∧ Reads ⟨bv, interpUF N o⟩ x v := by
  have step : ∀ {m : Meth} {x : SFP} {ys : List SFP} {v : Mpfr} {ws : List Mpfr} {s : SRes} {y : SFP}, x.cls = c →
      (∀ y ∈ ys, y.cls = c) → c.fmt.Object v → (∀ w ∈ ws, c.fmt.Object w) → Reads ⟨bv, interpUF N o⟩ x v →
      List.Forall₂ (Reads ⟨bv, interpUF N o⟩) ys ws → call m x (ys.map .fp) = .ok s → s.asFp = .ok y →
      y.cls = c ∧ ∃ r v', concrete m c.fmt (o c.fmt m v ws) v ws = .ok r ∧ r.asFp = .ok v' ∧ c.fmt.Object v' ∧
        Reads ⟨bv, interpUF N o⟩ y v' := by
    intro m x ys v ws s y hxc hys hv hws hx hy hs hsy
    subst hxc
    obtain ⟨r, hr, hrd⟩ := call_sound hN hf h2 hys hv hws hx hy hs
    cases s with
    | bit => cases hsy
    | fp s =>
      cases hsy
      cases r with
      | bit => exact hrd.elim
      | fp r => exact ⟨hrd.1, _, r, hr, rfl, concrete_object hr, hrd.2⟩
  induction a generalizing x with
  | var i => cases h; exact ⟨hc i, vs i, rfl, hv i, hr i⟩
  | app m a iha =>
    obtain ⟨y, hy, h⟩ := ok_bind_inv h
    obtain ⟨s, hs, h⟩ := ok_bind_inv h
    obtain ⟨h1, v, h3, h4, h5⟩ := iha hy
    obtain ⟨g1, r, v', g2, g3, g4, g5⟩ := step (ys := []) (ws := []) h1 (by simp) h4 (by simp) h5 .nil hs h
    exact ⟨g1, v', by simp only [Ex.conc, h3, bind, Except.bind, g2, g3], g4, g5⟩
  | app2 m a b iha ihb =>
    obtain ⟨y, hy, h⟩ := ok_bind_inv h
    obtain ⟨z, hz, h⟩ := ok_bind_inv h
    obtain ⟨s, hs, h⟩ := ok_bind_inv h
    obtain ⟨h1, v, h3, h4, h5⟩ := iha hy
    obtain ⟨i1, w, i3, i4, i5⟩ := ihb hz
    obtain ⟨g1, r, v', g2, g3, g4, g5⟩ := step (ys := [z]) (ws := [w]) h1 (by simpa using i1) h4 (by simpa using i4) h5
      (.cons i5 .nil) hs h
    exact ⟨g1, v', by simp only [Ex.conc, h3, i3, bind, Except.bind, g2, g3], g4, g5⟩
  | app3 m a b d iha ihb ihd =>
    obtain ⟨y, hy, h⟩ := ok_bind_inv h
    obtain ⟨z, hz, h⟩ := ok_bind_inv h
    obtain ⟨t, ht, h⟩ := ok_bind_inv h
    obtain ⟨s, hs, h⟩ := ok_bind_inv h
    obtain ⟨h1, v, h3, h4, h5⟩ := iha hy
    obtain ⟨i1, w, i3, i4, i5⟩ := ihb hz
    obtain ⟨j1, u, j3, j4, j5⟩ := ihd ht
    obtain ⟨g1, r, v', g2, g3, g4, g5⟩ := step (ys := [z, t]) (ws := [w, u]) h1 (by simpa using ⟨i1, j1⟩) h4
      (by simpa using ⟨i4, j4⟩) h5 (.cons i5 (.cons j5 .nil)) hs h
    exact ⟨g1, v', by simp only [Ex.conc, h3, i3, j3, bind, Except.bind, g2, g3], g4, g5⟩

theorem Fm.sound (hN : N c.name = c.fmt) (hf : c.fmt.Ok) (h2 : 2 ≤ c.fmt.eb) (hc : ∀ i, (xs i).cls = c)
    (hv : ∀ i, c.fmt.Object (vs i)) (hr : ∀ i, Reads ⟨bv, interpUF N o⟩ (xs i) (vs i)) (p : Fm) {b : BTm}
    (h : p.sym xs = .ok b) : p.conc c.fmt (o c.fmt) vs = .ok (b ⟨bv, interpUF N o⟩) := by
  have step : ∀ {m : Meth} {x : SFP} {ys : List SFP} {v : Mpfr} {ws : List Mpfr} {s : SRes} {y : BTm}, x.cls = c →
      (∀ y ∈ ys, y.cls = c) → c.fmt.Object v → (∀ w ∈ ws, c.fmt.Object w) → Reads ⟨bv, interpUF N o⟩ x v →
      List.Forall₂ (Reads ⟨bv, interpUF N o⟩) ys ws → call m x (ys.map .fp) = .ok s → s.asBit = .ok y →
      ∃ r, concrete m c.fmt (o c.fmt m v ws) v ws = .ok r ∧ r.asBit = .ok (y ⟨bv, interpUF N o⟩) := by
    intro m x ys v ws s y hxc hys hv hws hx hy hs hsy
    subst hxc
    obtain ⟨r, hr, hrd⟩ := call_sound hN hf h2 hys hv hws hx hy hs
    cases s with
    | fp => cases hsy
    | bit s =>
      cases hsy
      cases r with
      | fp => exact hrd.elim
      | bit r => exact ⟨_, hr, congrArg _ (Eq.symm hrd)⟩
  induction p generalizing b with
  | test m a =>
    obtain ⟨y, hy, h⟩ := ok_bind_inv h
    obtain ⟨s, hs, h⟩ := ok_bind_inv h
    obtain ⟨h1, v, h3, h4, h5⟩ := a.sound hN hf h2 hc hv hr hy
    obtain ⟨r, g1, g2⟩ := step (ys := []) (ws := []) h1 (by simp) h4 (by simp) h5 .nil hs h
    simp only [Fm.conc, h3, bind, Except.bind, g1, g2]
  | rel m a d =>
    obtain ⟨y, hy, h⟩ := ok_bind_inv h
    obtain ⟨z, hz, h⟩ := ok_bind_inv h
    obtain ⟨s, hs, h⟩ := ok_bind_inv h
    obtain ⟨h1, v, h3, h4, h5⟩ := a.sound hN hf h2 hc hv hr hy
    obtain ⟨i1, w, i3, i4, i5⟩ := d.sound hN hf h2 hc hv hr hz
    obtain ⟨r, g1, g2⟩ := step (ys := [z]) (ws := [w]) h1 (by simpa using i1) h4 (by simpa using i4) h5
      (.cons i5 .nil) hs h
    simp only [Fm.conc, h3, i3, bind, Except.bind, g1, g2]
  | not p ih =>
    obtain ⟨y, hy, h⟩ := ok_bind_inv h
    cases h
    simp only [Fm.conc, ih hy, bind, Except.bind, pure, Except.pure]
  | and p q ihp ihq =>
    obtain ⟨y, hy, h⟩ := ok_bind_inv h
    obtain ⟨z, hz, h⟩ := ok_bind_inv h
    cases h
    simp only [Fm.conc, ihp hy, ihq hz, bind, Except.bind, pure, Except.pure]
  | or p q ihp ihq =>
    obtain ⟨y, hy, h⟩ := ok_bind_inv h
    obtain ⟨z, hz, h⟩ := ok_bind_inv h
    cases h
    simp only [Fm.conc, ihp hy, ihq hz, bind, Except.bind, pure, Except.pure]

end

end HW.SmtFp
