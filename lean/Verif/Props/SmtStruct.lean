import Verif.Props.Smt

/-!
# Properties C35 – C37, C41, C42, C72, C73: symbolic division, structure, integers
-/

namespace HW
open Spec Smt

/-! ## C35 signed division -/

theorem smtSDiv_of_ne {n : Nat} (a b : BitVec n) (h : b ≠ 0#n) : a.smtSDiv b = a.sdiv b := by
  have h' : -b ≠ 0#n := by simpa using h
  rw [BitVec.smtSDiv_eq, BitVec.sdiv_eq]
  cases a.msb <;> cases b.msb <;> simp [BitVec.smtUDiv, h, h']

theorem toInt_eq_zero {n : Nat} {b : BitVec n} : b.toInt = 0 ↔ b = 0#n := by
  rw [← BitVec.toInt_inj]; simp

theorem wrap_bmod (n : Nat) (v : Int) : v.bmod (2 ^ n) % 2 ^ n = v % 2 ^ n := by
  have := Int.bmod_emod (x := v) (m := 2 ^ n)
  push_cast at this; exact this

/-- SMT-LIB `bvsdiv` on signed values. -/
theorem toI_sdiv {n : Nat} (hn : 0 < n) (a b : BitVec n) :
    toI (a.smtSDiv b) = wrap n (smtSdiv (signed n (toI a)) (signed n (toI b))) := by
  rw [← toInt_signed, ← toInt_signed, smtSdiv, wrap]
  by_cases h : b = 0#n
  · subst h
    rw [BitVec.smtSDiv_zero, if_pos (show (0#n).toInt = 0 by simp)]
    by_cases hs : a.toInt < 0
    · have : a.slt 0#n = true := by simp [BitVec.slt, hs]
      rw [this, if_pos rfl, if_pos hs]
      exact toI_ofNat (v := 1) (Nat.one_lt_two_pow (by omega)) |>.trans (by
        have : (1 : Int) < 2 ^ n := by exact_mod_cast Nat.one_lt_two_pow (n := n) (by omega)
        rw [Int.emod_eq_of_lt (by omega) this]; rfl)
    · have : a.slt 0#n = false := by simp [BitVec.slt]; omega
      rw [this, if_neg (by simp), if_neg hs, ← BitVec.neg_one_eq_allOnes, toI_neg,
        toI_ofNat (v := 1) (Nat.one_lt_two_pow (by omega))]
      rfl
  · rw [smtSDiv_of_ne _ _ h, if_neg (by rwa [toInt_eq_zero]), toI_of_toInt, BitVec.toInt_sdiv, wrap_bmod]

theorem toI_srem {n : Nat} (a b : BitVec n) :
    toI (a.srem b) = wrap n (smtSrem (signed n (toI a)) (signed n (toI b))) := by
  rw [← toInt_signed, ← toInt_signed, smtSrem, wrap, toI_of_toInt, BitVec.toInt_srem]
  by_cases h : b.toInt = 0
  · simp [h]
  · simp [h]

variable (S : Simplifier)

/-- **C35** the symbolic family implements the SMT-LIB operations: truncated division, remainder with
the sign of the dividend, `x / 0 = -1` or `1`, `x % 0 = x`. -/
theorem C35_symbolic_is_smtlib {e : Env} {x y : SBV} {X Y : BVal} (hx : Den e x X) (hy : Den e y Y)
    (hs : y.size = x.size) (hn : 0 < x.size) :
    RelM (Den e) (x.bvsdiv S (.bv y)) (.ok ⟨X.kind, X.size,
      wrap X.size (smtSdiv (signed X.size X.value) (signed X.size Y.value))⟩) ∧
    RelM (Den e) (x.bvsrem S (.bv y)) (.ok ⟨X.kind, X.size,
      wrap X.size (smtSrem (signed X.size X.value) (signed X.size Y.value))⟩) := by
  have hX : X.size = x.size := hx.2.1
  have hY : Y.size = y.size := hy.2.1
  have hop : operand X.size (.bv Y) = .ok Y.value := by simp [operand]; omega
  constructor
  · have := bin_rel (S := S) (op := .bvsdiv) (g := fun b => wrap X.size (smtSdiv (signed X.size X.value) (signed X.size b)))
      rfl hx hn (.bv hy) trivial fun a b h => by rw [h, hX]; exact toI_sdiv hn a b
    rwa [hop] at this
  · have := bin_rel (S := S) (op := .bvsrem) (g := fun b => wrap X.size (smtSrem (signed X.size X.value) (signed X.size b)))
      rfl hx hn (.bv hy) trivial fun a b h => by rw [h, hX]; exact toI_srem a b
    rwa [hop] at this

/-- **C35 (partial)**: full claim: the two families agree on all operands.  Proved where floor and
truncation agree: equal signs, exact division, or a zero divisor with a non-negative dividend (for
the remainder: any dividend).  See `C35_refuted`. -/
theorem C35_division_partial {e : Env} {x y : SBV} {X Y : BVal} (hx : Den e x X) (hy : Den e y Y)
    (hs : y.size = x.size) (hn : 0 < x.size)
    (hc : (signed X.size Y.value = 0 ∧ 0 ≤ signed X.size X.value) ∨
      (0 < signed X.size Y.value ∧ 0 ≤ signed X.size X.value) ∨
      (signed X.size Y.value < 0 ∧ signed X.size X.value ≤ 0) ∨
      (signed X.size Y.value ≠ 0 ∧ signed X.size Y.value ∣ signed X.size X.value)) :
    RelM (Den e) (x.bvsdiv S (.bv y)) (X.bvsdiv (.bv Y)) ∧
    RelM (Den e) (x.bvsrem S (.bv y)) (X.bvsrem (.bv Y)) := by
  have hX : X.size = x.size := hx.2.1
  have hY : Y.size = y.size := hy.2.1
  rw [C12_sdiv_partial hx.WF hy.WF (by omega) (by omega) hc,
    C12_srem_partial hx.WF hy.WF (by omega) (by omega) (by tauto)]
  exact C35_symbolic_is_smtlib S hx hy hs hn

/-- An assignment with two vector symbols: `x = 9`, everything else 2. -/
def env9 : Env := ⟨fun _ => false, fun _ => 7, fun n w => if n = ['x'] then BitVec.ofNat w 9 else BitVec.ofNat w 2⟩

/-- **C35 refuted**: at width 4, `-7 / 2` is `-3` symbolically and `-4` concretely, `-7 % 2` is `-1`
and `1`. -/
theorem C35_refuted :
    ¬ (∀ (e : Env) (x y : SBV) (X Y : BVal), Den e x X → Den e y Y → y.size = x.size → 0 < x.size →
      RelM (Den e) (x.bvsdiv S (.bv y)) (X.bvsdiv (.bv Y))) ∧
    ¬ (∀ (e : Env) (x y : SBV) (X Y : BVal), Den e x X → Den e y Y → y.size = x.size → 0 < x.size →
      RelM (Den e) (x.bvsrem S (.bv y)) (X.bvsrem (.bv Y))) := by
  have hx : Den env9 ⟨.root .sint, 4, .sym ['x'] (.bv 4)⟩ ⟨.root .sint, 4, 9⟩ := ⟨rfl, rfl, 9#4, by decide, by decide⟩
  have hy : Den env9 ⟨.root .sint, 4, .sym ['y'] (.bv 4)⟩ ⟨.root .sint, 4, 2⟩ := ⟨rfl, rfl, 2#4, by decide, by decide⟩
  constructor
  · intro h
    have h1 := h env9 _ _ _ _ hx hy rfl (by decide)
    have h2 := (C35_symbolic_is_smtlib S hx hy rfl (by decide)).1
    obtain ⟨s, hs, hd⟩ := h2.ok_right
    rw [show (BVal.mk (.root .sint) 4 9).bvsdiv (.bv ⟨.root .sint, 4, 2⟩) = .ok ⟨.root .sint, 4, 12⟩ by decide, hs] at h1
    obtain ⟨-, -, b, hb, hv⟩ := hd
    obtain ⟨-, -, b', hb', hv'⟩ := h1
    rw [hb] at hb'
    cases hb'
    rw [← hv'] at hv
    exact absurd hv (by decide)
  · intro h
    have h1 := h env9 _ _ _ _ hx hy rfl (by decide)
    have h2 := (C35_symbolic_is_smtlib S hx hy rfl (by decide)).2
    obtain ⟨s, hs, hd⟩ := h2.ok_right
    rw [show (BVal.mk (.root .sint) 4 9).bvsrem (.bv ⟨.root .sint, 4, 2⟩) = .ok ⟨.root .sint, 4, 1⟩ by decide, hs] at h1
    obtain ⟨-, -, b, hb, hv⟩ := hd
    obtain ⟨-, -, b', hb', hv'⟩ := h1
    rw [hb] at hb'
    cases hb'
    rw [← hv'] at hv
    exact absurd hv (by decide)

/-! ## C36 structure -/

/-- **C36** construction `T[n](o)` from ints, bools, bits, vectors of any width, sequences of `n` bits
and in-range integer-like objects. -/
theorem C36_construct {e : Env} {k : SKind} {K : Kind} {n : Nat} {o : SObj} {O : Obj} (hn : 0 < n)
    (hk : k.At e K) (h : DenObj e o O) (hf : o.Fits n) :
    RelM (Den e) (mkSBV S k n o) (mkBV K n O) := mkSBV_rel hn hk h hf

/-- **C36** indexing, including negative indices and the `IndexError`s. -/
theorem C36_index {e : Env} {x : SBV} {X : BVal} (h : Den e x X) (i : Int) :
    RelM (DenBit e) (x.getIdx S i) (X.getIdx i) := getIdx_rel h i

/-- Bounds of a step-1 slice counted from the front: negative ones are relative to the end, the upper
one is cut at the width.  (`size + b` may still be negative.) -/
def sliceFrom (n : Nat) (b : Option Int) : Int :=
  match b with | none => 0 | some b => if b < 0 then n + b else b
def sliceTo (n : Nat) (b : Option Int) : Int :=
  match b with | none => n | some b => if b < 0 then n + b else min b n

/-- **C36** step-1 slices: in range and non-empty they agree with the concrete ones, otherwise the
symbolic slice raises (`AssertionError`). -/
theorem C36_slice {e : Env} {x : SBV} {X : BVal} (h : Den e x X) (a b : Option Int) :
    if 0 ≤ sliceFrom x.size a ∧ sliceFrom x.size a < sliceTo x.size b then
      RelM (Den e) (x.getSlice S ⟨a, b, none⟩) (X.getSlice ⟨a, b, none⟩)
    else x.getSlice S ⟨a, b, none⟩ = .error .assertionError := by
  have key := getSlice_rel (S := S) h a b
  have e1 : normStart x.size a = sliceFrom x.size a := by cases a <;> rfl
  have e2 : normStop x.size b = sliceTo x.size b := by
    cases b with
    | none => simp [normStop, sliceTo]
    | some v => simp only [normStop, sliceTo]; split <;> omega
  rw [e1, e2] at key
  split
  · rename_i hc; rw [if_pos hc] at key; exact key.mono fun _ _ h => h.1
  · rename_i hc; rw [if_neg hc] at key; exact key

/-- **C36** concatenation, including the class check.  (`hid`: distinct symbolic classes stay distinct;
every class made by `ite` has its own identity.) -/
theorem C36_concat {e : Env} {x y : SBV} {X Y : BVal} (hx : Den e x X) (hy : Den e y Y)
    (hid : Y.kind = X.kind → y.kind = x.kind) :
    RelM (Den e) (x.concat S y) (X.concat Y) := by
  rw [C14_concat hx.WF hy.WF]
  have hk : Y.kind.isSub X.kind = y.kind.isSub x.kind := by
    obtain ⟨kx, n, tx⟩ := x
    obtain ⟨ky, m, ty⟩ := y
    obtain ⟨KX, N, VX⟩ := X
    obtain ⟨KY, M, VY⟩ := Y
    have h1 := hx.1
    have h2 := hy.1
    dsimp only at *
    cases kx with
    | root r =>
      cases h1
      simp [Kind.isSub, SKind.isSub, h2.base]
    | poly i t f sel =>
      obtain ⟨T, F, b, ht, hf, hb, rfl⟩ := id h1
      simp only [Kind.isSub, SKind.isSub]
      by_cases hq : KY = .poly i T F b
      · rw [hid hq]; simp [hq]
      · have : ky ≠ .poly i t f sel := by
          rintro rfl
          exact hq (h2.unique h1)
        simp [hq, this]
  rw [hk]
  by_cases h : y.kind.isSub x.kind = true
  · rw [if_pos h]
    exact (concat_rel' hx hy rfl h).mono fun _ _ h => h.1
  · simp [SBV.concat, h, RelM]

/-- **C36** zero extension, including the `ValueError` for negative amounts. -/
theorem C36_zext {e : Env} {x : SBV} {X : BVal} (h : Den e x X) (k : Int) :
    RelM (Den e) (x.zext S k) (X.zext k) := (zext_rel h k).mono fun _ _ h => h.1

/-- **C36** sign extension by `k ≠ 0` (by 0 the concrete family raises, C18). -/
theorem C36_sext {e : Env} {x : SBV} {X : BVal} (h : Den e x X) (hn : 0 < x.size) (k : Int) (hk : k ≠ 0) :
    RelM (Den e) (x.sext S k) (X.sext k) := by
  have hX : X.size = x.size := h.2.1
  by_cases hneg : k < 0
  · simp [C18_negative X k hneg, SBV.sext, hneg, RelM]
  · obtain ⟨Y, h1, h2, h3, h4, h5, h6⟩ := C18_sext_partial h.WF (by omega) k (by omega)
    rw [h1]
    have hv : Y.value = signed X.size X.value % 2 ^ (X.size + k.toNat) := by
      rw [h6, asSint_eq h4, if_neg (by omega)] at h5
      injection h5 with h5
      rw [← h5, h3, signed_mod, ← h3, h4.mod_eq]
    obtain ⟨kk, K, n, t, a, rfl, rfl, hkK, ht⟩ := h.cases
    have hev : (Term.un (.sext k.toNat) t).eval e = some (.bv (n + k.toNat) (a.signExtend _)) := by
      rw [Term.eval, ht]; rfl
    have : Y = ⟨K, n + k.toNat, signed n (toI a) % 2 ^ (n + k.toNat)⟩ := by
      obtain ⟨a1, a2, a3⟩ := Y
      dsimp only at h2 h3 hv
      rw [h2, h3, hv]
    simp only [SBV.sext, if_neg hneg, node_ok hev, bind, Except.bind, this]
    refine bvF_rel hkK hev ?_
    rw [toI_of_toInt, BitVec.toInt_signExtend_of_le (by omega), toInt_signed]

theorem zext_size {S : Simplifier} {e : Env} {w : SBV} {W : BVal} (hw : Den e w W) (k : Int) (hk : 0 ≤ k) :
    RelM (fun s V => Den e s V ∧ s.size = w.size + k.toNat) (w.zext S k) (W.zext k) := by
  have := zext_rel (S := S) hw k
  rw [C17_zext hw.WF, if_neg (by omega)] at this ⊢
  obtain ⟨s, h1, h2, h3⟩ := this.ok_right
  rw [h1]
  refine ⟨h2, ?_⟩
  rw [← show W.size = w.size from hw.2.1]
  exact h2.2.1.symm

theorem bvadd_size {S : Simplifier} {e : Env} {x y : SBV} {X Y : BVal} (hx : Den e x X) (hy : Den e y Y)
    (hn : 0 < x.size) :
    RelM (fun s V => Den e s V ∧ s.size = x.size) (x.bvadd S (.bv y)) (X.bvadd (.bv Y)) := by
  have h := C34_bvadd S e x X (.bv y) (.bv Y) hx (.bv hy) hn trivial
  rw [C05_bvadd] at h ⊢
  cases hop : operand X.size (.bv Y) with
  | error er =>
    rw [hop] at h
    cases hm : x.bvadd S (.bv y) with
    | error => rw [hm] at h; exact h
    | ok => rw [hm] at h; exact h.elim
  | ok v =>
    rw [hop] at h
    obtain ⟨s, h1, h2⟩ := h.ok_right
    rw [h1]
    exact ⟨h2, h2.2.1.symm.trans hx.2.1⟩

/-- **C36** add-with-carry. -/
theorem C36_adc {e : Env} {x : SBV} {X : BVal} {o c : SObj} {O C : Obj} (h : Den e x X)
    (ho : DenObj e o O) (hc : DenObj e c C) (hn : 0 < x.size) (hof : o.Fits x.size) (hcf : c.Fits 1) :
    RelM (fun r R => Den e r.1 R.1 ∧ DenBit e r.2 R.2) (x.adc S o c) (X.adc O C) := by
  have hX : X.size = x.size := h.2.1
  unfold SBV.adc BVal.adc
  rw [hX]
  refine (scoerce_rel hn h.1 ho hof).bind fun y Y hy => ?_
  refine (scoerce_rel (by omega) h.1 hc hcf).bind fun z Z hz => ?_
  have hys : Y.size = x.size := hy.1.2.1.trans hy.2
  have hzs : Z.size = 1 := hz.1.2.1.trans hz.2
  refine (zext_size h 1 (by omega)).bind fun a A ha => ?_
  refine (zext_size hy.1 1 (by omega)).bind fun b B hb => ?_
  refine (zext_size hz.1 x.size (by omega)).bind fun d D hd => ?_
  refine (bvadd_size ha.1 hb.1 (by omega)).bind fun s V hs => ?_
  refine (bvadd_size hs.1 hd.1 (by omega)).bind fun r R hr => ?_
  have hsl := getSlice_rel (S := S) hr.1 (some 0) (some (-1))
  have hrs : r.size = x.size + 1 := by rw [hr.2, hs.2, ha.2]; rfl
  rw [if_pos (by simp [normStart, normStop, hrs]; omega)] at hsl
  refine hsl.bind fun lo LO hlo => ?_
  refine (getIdx_rel hr.1 (-1)).bind fun t c ht => ?_
  exact ⟨hlo.1, ht⟩

/-- **C36** item assignment (an int index; the object after the assignment). -/
theorem C36_setitem {e : Env} {x : SBV} {X : BVal} {o : SObj} {O : Obj} (h : Den e x X) (i : Int)
    (ho : DenObj e o O) : RelM (Den e) (x.setitem S i o) (X.setitem (.int i) O) := by
  have hX : X.size = x.size := h.2.1
  have hbl : SBV.isBitLike o = BVal.isBitLike O := by cases ho <;> rfl
  unfold SBV.setitem BVal.setitem
  rw [hbl, hX]
  by_cases hb : BVal.isBitLike O = true
  · simp only [hb, not_true, if_false]
    generalize hj : (if i < 0 then (x.size : Int) + i else i) = j
    by_cases hr : 0 ≤ j ∧ j < x.size
    · simp only [hr, and_self, not_true, if_false]
      have hn : 0 < x.size := by omega
      have e1 : pyShl 1 j = .ok (2 ^ j.toNat) := by simp [pyShl]; omega
      simp only [e1, ok_bind]
      have hbit : RelM (DenBit e) (mkSBit S o) (mkBit O) := by
        cases ho with
        | @int v =>
          simp only [mkSBit, mkBit]
          split
          · exact S.eval _ _ _ rfl
          · split
            · exact S.eval _ _ _ rfl
            · rfl
        | bool => exact S.eval _ _ _ rfl
        | bit h => exact S.eval _ _ _ h
        | bv => simp [BVal.isBitLike] at hb
        | seq => simp [BVal.isBitLike] at hb
        | other => simp [BVal.isBitLike] at hb
      have hmask : RelM (fun m M => Den e m M ∧ m.size = x.size) (mkSBV S x.kind x.size (.int (2 ^ j.toNat)))
          (X.mk' (2 ^ j.toNat)) := by
        have := mkSBV_rel (S := S) (O := .int (2 ^ j.toNat)) hn h.1 .int trivial
        rw [mkBV_int] at this
        rw [mk'_eq, hX]
        obtain ⟨s, g1, g2⟩ := this.ok_right
        rw [g1]
        exact ⟨g2, g2.2.1.symm⟩
      refine hmask.bind fun m M hm => ?_
      refine hbit.bind fun b B hb => ?_
      refine ((C34_bvor S e x X (.bv m) (.bv M) h (.bv hm.1) hn trivial).with_left
        fun _ => bin_size).bind fun t T ht => ?_
      refine (C34_bvnot S hm.1).bind fun nm NM hnm => ?_
      refine ((C34_bvand S e x X (.bv nm) (.bv NM) h (.bv hnm) hn trivial).with_left
        fun _ => bin_size).bind fun f F hf => ?_
      rw [mkBV_eq, ← hX]
      simp only [Obj.denotes]
      obtain ⟨k, K, n, tt, a, rfl, rfl, hkK, htt⟩ := h.cases
      obtain ⟨k1, K1, n1, t1, a1, rfl, rfl, hkK1, ht1⟩ := ht.1.cases
      obtain ⟨k2, K2, n2, t2, a2, rfl, rfl, hkK2, ht2⟩ := hf.1.cases
      have q1 := ht.2
      have q2 := hf.2
      dsimp only at q1 q2 ⊢
      subst q1 q2
      have hev : (Term.ite b t1 t2).eval e = some (.bv n2 (if B then a1 else a2)) := by
        have hb' : b.eval e = some (.bool B) := hb
        cases B <;> simp [Term.eval, hb', ht1, ht2, Val.ty]
      obtain ⟨s, g1, g2, g3, g4⟩ := bvF_den (S := S) hkK hev
      simp only [node_ok hev, ok_bind, g1, pure, Except.pure, RelM]
      have hv : (if B then (⟨K1, n2, toI a1⟩ : BVal) else ⟨K2, n2, toI a2⟩).value % 2 ^ n2 = toI (if B then a1 else a2) := by
        cases B
        · exact toI_mod a2
        · exact toI_mod a1
      rw [hv]
      obtain ⟨sk, sn, st⟩ := s
      dsimp only at g2 g3
      subst g2 g3
      exact g4
    · simp [hr, RelM]
  · simp [hb, RelM]

/-! ## C37 repetition -/

/-- **C37 (partial)**: full claim: `x.repeat(r)` denotes the concrete repetition for every `r ≥ 1`.
Proved for `r ≤ 1`: one copy, and the `ValueError` for `r ≤ 0`. -/
theorem C37_repeat_partial {e : Env} {x : SBV} {X : BVal} (h : Den e x X) (r : Int) (hr : r ≤ 1) :
    RelM (Den e) (x.repeat_ S r) (X.repeat_ r) := by
  obtain ⟨k, K, n, t, a, rfl, rfl, hkK, ht⟩ := h.cases
  unfold SBV.repeat_ bvRepeat SBV.mk'
  simp only [eval_ty ht, Val.ty]
  by_cases h0 : r ≤ 0
  · have := C19_repeat ⟨K, n, toI a⟩ r
    rw [if_pos h0] at this
    rw [this, if_neg (by omega)]
    rfl
  · have h1 : r = 1 := by omega
    subst h1
    have hev : (Term.un (.rep (1 : Int).toNat) t).eval e = some (.bv n (a.cast (by simp))) := by
      rw [Term.eval, ht]
      simp only [Option.bind_some, UOp.eval]
      have : ∀ {w w' : Nat} (h : w = w') (v : BitVec w), some (Val.bv w v) = some (Val.bv w' (v.cast h)) := by
        intro w w' h v; subst h; rfl
      rw [this (show n * (1 : Int).toNat = n by simp)]
      congr 2
      apply BitVec.eq_of_toNat_eq
      simp
    have hc := C19_repeat ⟨K, n, toI a⟩ 1
    rw [if_neg (by omega)] at hc
    obtain ⟨Y, h1, h2, h3, h4, h5⟩ := hc
    have : Y = ⟨K, n, toI a⟩ := by
      refine C06_bits_determine h4 (toI_bounds a) h2 (by rw [h3]; simp) fun i hi => ?_
      rw [h5 i hi, Nat.mod_eq_of_lt]
      rw [h3] at hi; simpa using hi
    rw [h1, this, if_pos (by omega)]
    exact bvF_rel hkK hev rfl

/-- **C37 refuted**: every other repetition raises `TypeError`, whatever the vector. -/
theorem C37_refuted {e : Env} {x : SBV} {X : BVal} (h : Den e x X) (hn : 0 < x.size) (r : Int) (hr : 2 ≤ r) :
    x.repeat_ S r = .error .typeError ∧ ∃ Y, X.repeat_ r = .ok Y := by
  constructor
  · obtain ⟨k, K, n, t, a, rfl, rfl, hkK, ht⟩ := h.cases
    unfold SBV.repeat_ bvRepeat SBV.mk'
    simp only [eval_ty ht, Val.ty]
    rw [if_pos (by omega)]
    have hty : (Term.un (.rep r.toNat) t).ty? = some (.bv (n * r.toNat)) := by
      simp [Term.ty?, eval_ty ht, Val.ty, UOp.ty?]
    simp only [ok_bind, bvF, hty]
    rw [if_neg]
    intro heq
    injection heq with heq
    injection heq with heq
    dsimp only at hn
    have : 2 ≤ r.toNat := by omega
    nlinarith
  · have hc := C19_repeat X r
    rw [if_neg (by omega)] at hc
    obtain ⟨Y, h1, _⟩ := hc
    exact ⟨Y, h1⟩

example : symX.repeat_ noSimp 2 = .error .typeError ∧ symX.repeat_ noSimp 1 =
    .ok ⟨.root .bv, 8, .un (.rep 1) (.sym ['x'] (.bv 8))⟩ := by decide

/-! ## C73 rotation -/

/-- **C73** rotation by an int `0 ≤ k ≤ n` denotes the concrete rotation; other amounts raise
`ValueError`. -/
theorem C73_rotate_int {e : Env} {x : SBV} {X : BVal} (h : Den e x X) (hn : 0 < x.size) (k : Int) :
    if 0 ≤ k ∧ k ≤ x.size then
      RelM (Den e) (x.bvrol S (.int k)) (X.bvrol (.int k)) ∧ RelM (Den e) (x.bvror S (.int k)) (X.bvror (.int k))
    else x.bvrol S (.int k) = .error .valueError ∧ x.bvror S (.int k) = .error .valueError := by
  obtain ⟨kk, K, n, t, a, rfl, rfl, hkK, ht⟩ := h.cases
  dsimp only at hn ⊢
  unfold SBV.bvrol SBV.bvror bvRot SBV.mk' SBV.intArg
  simp only [ok_bind, eval_ty ht, Val.ty]
  split
  · rename_i hk
    have hlt : (k : Int) < 2 ^ n := by
      have : n < 2 ^ n := Nat.lt_two_pow_self
      have : (n : Int) < 2 ^ n := by exact_mod_cast this
      omega
    have hop : operand n (.int k) = .ok k := by simp [operand, Obj.denotes, wrap, Int.emod_eq_of_lt hk.1 hlt]
    have hkn : k.toNat ≤ n := by omega
    constructor
    · have hev : (Term.un (.rol k.toNat) t).eval e = some (.bv n (a.rotateLeft k.toNat)) := by
        rw [Term.eval, ht]; simp [UOp.eval]; omega
      obtain ⟨Y, h1, h2, h3, h4, h5⟩ := C08_bvrol ⟨K, n, toI a⟩ hn (o := .int k) trivial hop
      dsimp only at h2 h3 h5
      rw [h1]
      obtain ⟨KY, NY, VY⟩ := Y
      dsimp only at h2 h3 h5
      subst h2 h3
      refine bvF_rel hkK hev ?_
      apply ibit_ext; intro i
      by_cases hi : i < NY
      · obtain ⟨m, hm, hmi⟩ : ∃ m, m < NY ∧ (m + k.toNat) % NY = i := by
          by_cases hc : k.toNat ≤ i
          · exact ⟨i - k.toNat, by omega, by rw [Nat.sub_add_cancel hc, Nat.mod_eq_of_lt hi]⟩
          · refine ⟨i + NY - k.toNat, by omega, ?_⟩
            rw [Nat.sub_add_cancel (by omega), Nat.add_mod_right, Nat.mod_eq_of_lt hi]
        have := h5 m hm
        rw [hmi] at this
        rw [this, ibit_toI, ibit_toI, BitVec.testBit_toNat, BitVec.testBit_toNat, BitVec.getLsbD_rotateLeft]
        rcases Nat.lt_or_ge k.toNat NY with hc | hc
        · rw [Nat.mod_eq_of_lt hc]
          by_cases hik : i < k.toNat
          · simp only [hik, decide_true, cond_true]
            congr 1
            rcases Nat.lt_or_ge (m + k.toNat) NY with hq | hq
            · rw [Nat.mod_eq_of_lt hq] at hmi; omega
            · rw [Nat.mod_eq_sub_mod hq, Nat.mod_eq_of_lt (by omega)] at hmi; omega
          · simp only [hik, decide_false, cond_false, hi, decide_true, Bool.true_and]
            congr 1
            rcases Nat.lt_or_ge (m + k.toNat) NY with hq | hq
            · rw [Nat.mod_eq_of_lt hq] at hmi; omega
            · rw [Nat.mod_eq_sub_mod hq, Nat.mod_eq_of_lt (by omega)] at hmi; omega
        · have hkn' : k.toNat = NY := by omega
          rw [hkn', Nat.mod_self]
          rw [hkn', Nat.add_mod_right, Nat.mod_eq_of_lt hm] at hmi
          simp [hi, hmi]
      · rw [ibit_lt (toI_bounds _).1 (toI_bounds _).2 (by omega), ibit_lt h4.1 h4.2 (by dsimp only; omega)]
    · have hev : (Term.un (.ror k.toNat) t).eval e = some (.bv n (a.rotateRight k.toNat)) := by
        rw [Term.eval, ht]; simp [UOp.eval]; omega
      obtain ⟨Y, h1, h2, h3, h4, h5⟩ := C08_bvror ⟨K, n, toI a⟩ hn (o := .int k) trivial hop
      dsimp only at h2 h3 h5
      rw [h1]
      obtain ⟨KY, NY, VY⟩ := Y
      dsimp only at h2 h3 h5
      subst h2 h3
      refine bvF_rel hkK hev ?_
      apply ibit_ext; intro i
      by_cases hi : i < NY
      · rw [h5 i hi, ibit_toI, ibit_toI, BitVec.testBit_toNat, BitVec.testBit_toNat, BitVec.getLsbD_rotateRight]
        rcases Nat.lt_or_ge k.toNat NY with hc | hc
        · rw [Nat.mod_eq_of_lt hc]
          by_cases hik : i < NY - k.toNat
          · simp only [hik, decide_true, cond_true]
            rw [Nat.mod_eq_of_lt (by omega), Nat.add_comm]
          · simp only [hik, decide_false, cond_false, hi, decide_true, Bool.true_and]
            rw [Nat.mod_eq_sub_mod (by omega), Nat.mod_eq_of_lt (by omega)]
            congr 1; omega
        · have hkn' : k.toNat = NY := by omega
          rw [hkn', Nat.mod_self, Nat.add_mod_right, Nat.mod_eq_of_lt hi]
          simp [hi]
      · rw [ibit_lt (toI_bounds _).1 (toI_bounds _).2 (by omega), ibit_lt h4.1 h4.2 (by dsimp only; omega)]
  · exact ⟨rfl, rfl⟩

/-- **C73** rotation by a bool or by another object with `__int__` is rotation by that int. -/
theorem C73_rotate_object {e : Env} {x : SBV} {X : BVal} (h : Den e x X) (hn : 0 < x.size) (k : Int) (tb : Option Bool) :
    if 0 ≤ k ∧ k ≤ x.size then
      RelM (Den e) (x.bvrol S (.other (some k) tb)) (X.bvrol (.other (some k) tb)) ∧
      RelM (Den e) (x.bvror S (.other (some k) tb)) (X.bvror (.other (some k) tb))
    else x.bvrol S (.other (some k) tb) = .error .valueError ∧ x.bvror S (.other (some k) tb) = .error .valueError :=
  C73_rotate_int S h hn k

theorem C73_rotate_bool {e : Env} {x : SBV} {X : BVal} (h : Den e x X) (hn : 0 < x.size) (b : Bool) :
    RelM (Den e) (x.bvrol S (.bool b)) (X.bvrol (.bool b)) ∧ RelM (Den e) (x.bvror S (.bool b)) (X.bvror (.bool b)) := by
  have := C73_rotate_int S h hn (b2i b)
  rw [if_pos (by cases b <;> simp [b2i]; omega)] at this
  exact this

/-- **C73** what has no `__int__` raises `TypeError`. -/
theorem C73_rotate_raises (x : SBV) (tb : Option Bool) :
    x.bvrol S (.other none tb) = .error .typeError ∧ x.bvror S (.other none tb) = .error .typeError := ⟨rfl, rfl⟩

/-- **C73** rotation by a vector, which the concrete family supports, is a `TypeError`. -/
theorem C73_rotate_vector_refuted (x y : SBV) :
    x.bvrol S (.bv y) = .error .typeError ∧ x.bvror S (.bv y) = .error .typeError := ⟨rfl, rfl⟩

example : symX.bvrol noSimp (.int 3) = .ok ⟨.root .bv, 8, .un (.rol 3) (.sym ['x'] (.bv 8))⟩ := by decide

end HW
