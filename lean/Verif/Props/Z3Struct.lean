import Verif.Props.Z3

/-!
# Property C94: structure of z3 vectors
-/

namespace HW
open Spec Z3
open Smt (toI toI_bounds toI_mod toI_of_toInt toInt_signed normStart normStop ok_bind)

/-- **C94** construction `T[n](o)` from ints, bools, bits, vectors of any width, sequences of `n` bits
and integer-like objects. -/
theorem C94_construct {e : Env} {r : Root} {n : Nat} {o : ZObj} {O : Obj} (hn : 0 < n)
    (h : Z3.DenObj e o O) (hf : o.Fits n) : RelE (Z3.Den e) (mkZBV r n o) (mkBV (.root r) n O) :=
  mkZBV_rel r hn h hf

/-- **C94** width zero, which the concrete family has, does not exist: every construction raises. -/
theorem C94_width_zero (r : Root) (o : ZObj) : mkZBV r 0 o = .error .z3Exception := rfl

/-- **C94** indexing, including negative indices and the `IndexError`s. -/
theorem C94_index {e : Env} {x : ZBV} {X : BVal} (h : Z3.Den e x X) (i : Int) :
    RelE (Z3.DenBit e) (x.getIdx i) (X.getIdx i) := Z3.getIdx_rel h i

/-- **C94** step-1 slices: in range and non-empty they agree with the concrete ones, otherwise the z3
slice raises; every other step is an `IndexError`. -/
theorem C94_slice {e : Env} {x : ZBV} {X : BVal} (h : Z3.Den e x X) (a b : Option Int) :
    (if 0 ≤ sliceFrom x.size a ∧ sliceFrom x.size a < sliceTo x.size b then
      RelE (Z3.Den e) (x.getSlice ⟨a, b, none⟩) (X.getSlice ⟨a, b, none⟩)
    else x.getSlice ⟨a, b, none⟩ = .error .z3Exception) ∧
    x.getSlice ⟨a, b, some 1⟩ = x.getSlice ⟨a, b, none⟩ ∧
    ∀ k, k ≠ 1 → x.getSlice ⟨a, b, some k⟩ = .error .indexError := by
  refine ⟨?_, rfl, fun k hk => by simp [ZBV.getSlice, hk]⟩
  have key := Z3.getSlice_rel h a b
  have e1 : normStart x.size a = sliceFrom x.size a := by cases a <;> rfl
  have e2 : normStop x.size b = sliceTo x.size b := by
    cases b with
    | none => simp [normStop, sliceTo]
    | some v => simp only [normStop, sliceTo]; split <;> omega
  rwa [e1, e2] at key

/-- **C94** concatenation, including the class check. -/
theorem C94_concat {e : Env} {x y : ZBV} {X Y : BVal} (hx : Z3.Den e x X) (hy : Z3.Den e y Y) :
    RelE (Z3.Den e) (x.concat y) (X.concat Y) := by
  rw [C14_concat hx.WF hy.WF]
  have hk : Y.kind.isSub X.kind = y.root.isSub x.root := by
    rw [hx.kind_eq, hy.kind_eq]; rfl
  rw [hk]
  by_cases h : y.root.isSub x.root = true
  · rw [if_pos h]
    exact Z3.concat_rel' hx hy h
  · simp [ZBV.concat, h, RelE]

/-- **C94** zero extension, including the `ValueError` for negative amounts. -/
theorem C94_zext {e : Env} {x : ZBV} {X : BVal} (h : Z3.Den e x X) (k : Int) :
    RelE (Z3.Den e) (x.zext k) (X.zext k) := Z3.zext_rel h k

theorem zsext_value {e : Env} {x : ZBV} {X : BVal} (h : Z3.Den e x X) {k : Int} (hk : 0 ≤ k) :
    RelE (Z3.Den e) (x.sext k) (.ok ⟨X.kind, X.size + k.toNat, wrap (X.size + k.toNat) (signed X.size X.value)⟩) := by
  obtain ⟨r, n, d, rfl, rfl, hn⟩ := h.cases
  simp only [ZBV.sext, if_neg (show ¬ k < 0 by omega), zSignExt]
  refine Z3.bvF_rel r _ (by omega) ?_
  rw [toI_of_toInt, BitVec.toInt_signExtend_of_le (by omega), toInt_signed]
  rfl

/-- **C94** sign extension by `k ≠ 0`; by 0 the z3 family returns the vector where the concrete family
raises (C18). -/
theorem C94_sext {e : Env} {x : ZBV} {X : BVal} (h : Z3.Den e x X) (k : Int) :
    (k ≠ 0 → RelE (Z3.Den e) (x.sext k) (X.sext k)) ∧
    RelE (Z3.Den e) (x.sext 0) (.ok X) := by
  have hX := h.size_eq
  have hn := h.pos
  refine ⟨fun hk => ?_, ?_⟩
  · by_cases hneg : k < 0
    · simp [C18_negative X k hneg, ZBV.sext, hneg, RelE]
    · obtain ⟨Y, h1, h2, h3, h4, h5, h6⟩ := C18_sext_partial h.WF (by omega) k (by omega)
      rw [h1]
      have hv : Y.value = signed X.size X.value % 2 ^ (X.size + k.toNat) := by
        rw [h6, asSint_eq h4, if_neg (by omega)] at h5
        injection h5 with h5
        rw [← h5, h3, signed_mod, ← h3, h4.mod_eq]
      have := zsext_value h (k := k) (by omega)
      obtain ⟨a1, a2, a3⟩ := Y
      dsimp only at h2 h3 hv
      subst h2 h3 hv
      exact this
  · have := zsext_value h (k := 0) (by omega)
    have e1 : wrap (X.size + (0 : Int).toNat) (signed X.size X.value) = X.value := by
      simp only [Int.toNat_zero, Nat.add_zero, wrap, signed_mod, h.WF.mod_eq]
    rw [e1] at this
    exact this

theorem zzext_size {e : Env} {w : ZBV} {W : BVal} (hw : Z3.Den e w W) (k : Int) (hk : 0 ≤ k) :
    RelE (fun s V => Z3.Den e s V ∧ s.size = w.size + k.toNat) (w.zext k) (W.zext k) :=
  (Z3.zext_rel hw k).with_left fun a ha => by
    unfold ZBV.zext at ha
    rw [if_neg (by omega)] at ha
    exact (Z3.bvF_attrs ha).2

/-- **C94** add-with-carry. -/
theorem C94_adc {e : Env} {x : ZBV} {X : BVal} {o c : ZObj} {O C : Obj} (h : Z3.Den e x X)
    (ho : Z3.DenObj e o O) (hc : Z3.DenObj e c C) (hof : o.Fits x.size) (hcf : c.Fits 1) :
    RelE (fun r R => Z3.Den e r.1 R.1 ∧ Z3.DenBit e r.2 R.2) (x.adc o c) (X.adc O C) := by
  have hX := h.size_eq
  have hn := h.pos
  unfold ZBV.adc BVal.adc
  rw [hX, h.kind_eq]
  refine (zcoerce_rel x.root hn ho hof).bind fun y Y hy => ?_
  refine (zcoerce_rel x.root (by omega) hc hcf).bind fun z Z hz => ?_
  refine (zzext_size h 1 (by omega)).bind fun a A ha => ?_
  refine (zzext_size hy.1 1 (by omega)).bind fun b B hb => ?_
  refine (zzext_size hz.1 x.size (by omega)).bind fun d D hd => ?_
  refine ((C92_bvadd e a A (.bv b) (.bv B) ha.1 (.bv hb.1) trivial).with_left
    fun _ => Z3.bin_size).bind fun s V hs => ?_
  refine ((C92_bvadd e s V (.bv d) (.bv D) hs.1 (.bv hd.1) trivial).with_left
    fun _ => Z3.bin_size).bind fun r R hr => ?_
  have hsl := Z3.getSlice_rel hr.1 (some 0) (some (-1))
  have hrs : r.size = x.size + 1 := by rw [hr.2.2, hs.2.2, ha.2]; rfl
  rw [if_pos (by simp [normStart, normStop, hrs]; omega)] at hsl
  refine hsl.bind fun lo LO hlo => ?_
  refine (Z3.getIdx_rel hr.1 (-1)).bind fun t c ht => ?_
  exact ⟨hlo, ht⟩

/-- **C94** item assignment (an int index; the object after the assignment). -/
theorem C94_setitem {e : Env} {x : ZBV} {X : BVal} {o : ZObj} {O : Obj} (h : Z3.Den e x X) (i : Int)
    (ho : Z3.DenObj e o O) : RelE (Z3.Den e) (x.setitem i o) (X.setitem (.int i) O) := by
  have hX := h.size_eq
  have hn := h.pos
  have hbl : ZBV.isBitLike o = BVal.isBitLike O := by cases ho <;> rfl
  unfold ZBV.setitem BVal.setitem
  rw [hbl, hX]
  by_cases hb : BVal.isBitLike O = true
  · simp only [hb, not_true, if_false]
    generalize hj : (if i < 0 then (x.size : Int) + i else i) = j
    by_cases hr : 0 ≤ j ∧ j < x.size
    · simp only [hr, and_self, not_true, if_false]
      have e1 : pyShl 1 j = .ok (2 ^ j.toNat) := by simp [pyShl]; omega
      simp only [e1, ok_bind]
      have hbit : RelE (Z3.DenBit e) (mkZBit o) (mkBit O) := by
        cases ho with
        | @int v =>
          simp only [mkZBit, mkBit]
          split
          · rfl
          · split
            · rfl
            · exact .inl rfl
        | bool => rfl
        | bit h => exact h
        | bv => simp [BVal.isBitLike] at hb
        | seq => simp [BVal.isBitLike] at hb
        | other => simp [BVal.isBitLike] at hb
      have hmask : RelE (Z3.Den e) (mkZBV x.root x.size (.int (2 ^ j.toNat))) (X.mk' (2 ^ j.toNat)) := by
        have := mkZBV_rel (e := e) (O := .int (2 ^ j.toNat)) x.root hn .int trivial
        rw [mkBV_int] at this
        rwa [mk'_eq, hX, h.kind_eq]
      refine hmask.bind fun m M hm => ?_
      refine hbit.bind fun b B hb => ?_
      refine ((C92_bvor e x X (.bv m) (.bv M) h (.bv hm) trivial).with_left
        fun _ => Z3.bin_size).bind fun t T ht => ?_
      refine (C92_bvnot hm).bind fun nm NM hnm => ?_
      refine ((C92_bvand e x X (.bv nm) (.bv NM) h (.bv hnm) trivial).with_left
        fun _ => Z3.bin_size).bind fun f F hf => ?_
      rw [mkBV_eq, ← hX]
      simp only [Obj.denotes]
      obtain ⟨r, n, d, rfl, rfl, hn⟩ := h.cases
      obtain ⟨r1, n1, d1, rfl, rfl, hn1⟩ := ht.1.cases
      obtain ⟨r2, n2, d2, rfl, rfl, hn2⟩ := hf.1.cases
      obtain ⟨q1, q2⟩ := ht.2
      obtain ⟨q3, q4⟩ := hf.2
      dsimp only at q1 q2 q3 q4 ⊢
      subst q1 q3
      subst q2
      subst q4
      have hb' : b e = B := hb
      simp only [zIte, and_self, not_true, if_false, iteF, zIf_ok, ok_bind, Z3.bvF_ok _ _ hn, pure, Except.pure]
      refine Den.intro _ _ hn ?_
      rw [hb']
      cases B
      · exact (toI_mod _).symm
      · exact (toI_mod _).symm
    · simp [hr, RelE]
  · simp [hb, RelE]

/-- **C94** `repeat`: one copy is the vector itself, as in the concrete family; more copies raise
`TypeError` where the concrete family repeats; none or fewer raise (a different exception). -/
theorem C94_repeat {e : Env} {x : ZBV} {X : BVal} (h : Z3.Den e x X) (k : Int) :
    (k = 1 → RelE (Z3.Den e) (x.repeat_ k) (X.repeat_ k)) ∧
    (2 ≤ k → x.repeat_ k = .error .typeError ∧ ∃ Y, X.repeat_ k = .ok Y) ∧
    (k ≤ 0 → x.repeat_ k = .error .z3Exception ∧ X.repeat_ k = .error .valueError) := by
  obtain ⟨r, n, d, rfl, rfl, hn⟩ := h.cases
  have hc := C19_repeat ⟨.root r, n, toI (d e)⟩ k
  refine ⟨?_, ?_, ?_⟩
  · rintro rfl
    rw [if_neg (by omega)] at hc
    obtain ⟨Y, h1, h2, h3, h4, h5⟩ := hc
    have : Y = ⟨.root r, n, toI (d e)⟩ := by
      refine C06_bits_determine h4 (toI_bounds _) h2 (by rw [h3]; simp) fun i hi => ?_
      rw [h5 i hi, Nat.mod_eq_of_lt]
      rw [h3] at hi; simpa using hi
    rw [h1, this]
    simp only [ZBV.repeat_, zRepeat, if_neg (show ¬ (1 : Int) ≤ 0 by omega), ok_bind]
    refine Z3.bvF_rel' r _ hn (by simp) ?_
    simp [toI]
  · intro hk
    rw [if_neg (by omega)] at hc
    obtain ⟨Y, h1, -⟩ := hc
    refine ⟨?_, Y, h1⟩
    simp only [ZBV.repeat_, zRepeat, if_neg (show ¬ k ≤ 0 by omega), ok_bind, bvF, sort_ok hn]
    rw [if_neg]
    have : 2 ≤ k.toNat := by omega
    nlinarith
  · intro hk
    rw [if_pos hk] at hc
    refine ⟨?_, hc⟩
    simp only [ZBV.repeat_, zRepeat, if_pos hk]
    rfl

/-- **C94** refuted: the z3 and the concrete structure operations do not agree in general: empty
slices, slices with a step, `sext(0)` and `repeat(2)`. -/
theorem C94_refuted :
    ¬ (∀ (e : Env) (x : ZBV) (X : BVal) (s : PySlice), Z3.Den e x X →
      RelE (Z3.Den e) (x.getSlice s) (X.getSlice s)) ∧
    ¬ (∀ (e : Env) (x : ZBV) (X : BVal) (k : Int), Z3.Den e x X → RelE (Z3.Den e) (x.sext k) (X.sext k)) ∧
    ¬ (∀ (e : Env) (x : ZBV) (X : BVal) (k : Int), Z3.Den e x X → RelE (Z3.Den e) (x.repeat_ k) (X.repeat_ k)) := by
  have hx : Z3.Den zEnv9 (zSym .sint 4 'x') ⟨.root .sint, 4, 9⟩ := ⟨rfl, rfl, by decide, _, rfl, by decide⟩
  refine ⟨fun h => ?_, fun h => ?_, fun h => ?_⟩
  · have := h zEnv9 _ _ ⟨some 1, some 1, none⟩ hx
    rw [show (BVal.mk (.root .sint) 4 9).getSlice ⟨some 1, some 1, none⟩ = .ok ⟨.root .sint, 0, 0⟩ by decide] at this
    exact this
  · have := h zEnv9 _ _ 0 hx
    obtain ⟨z, hz, -⟩ := ((C94_sext hx 0).2).ok_right
    rw [hz] at this
    rw [show (BVal.mk (.root .sint) 4 9).sext 0 = .error .valueError by decide] at this
    exact this
  · have := h zEnv9 _ _ 2 hx
    obtain ⟨h1, Y, h2⟩ := (C94_repeat hx 2).2.1 (by omega)
    rw [h1, h2] at this
    exact this

example : ∃ z, (zSym .bv 8 'x').getSlice ⟨some (-8), some 3, none⟩ = .ok z ∧
    Z3.Den zEnv9 z ⟨.root .bv, 3, 1⟩ := ⟨_, rfl, rfl, rfl, by decide, _, rfl, by decide⟩

example : ∃ z, (zSym .sint 4 'x').sext 4 = .ok z ∧ Z3.Den zEnv9 z ⟨.root .sint, 8, 249⟩ :=
  ⟨_, rfl, rfl, rfl, by decide, _, rfl, by decide⟩

example : ∃ z c, (zSym .bv 4 'x').adc (.int 7) (.bool true) = .ok (z, c) ∧
    Z3.Den zEnv9 z ⟨.root .bv, 4, 1⟩ ∧ Z3.DenBit zEnv9 c true :=
  ⟨_, _, rfl, ⟨rfl, rfl, by decide, _, rfl, by decide⟩, by unfold Z3.DenBit; decide⟩

end HW
