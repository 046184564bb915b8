import Verif.Spec.Z3
import Verif.Props.SmtStruct

/-! The operations of the z3 family and the concrete ones. -/

namespace HW.Z3
open HW.Spec
open HW.Smt (toI toI_bounds toI_mod toI_inj toI_ofInt toI_ofNat toI_extract normStart normStop getSlice_concrete)

variable {e : Env}

theorem RelE.bind {α β α' β' : Type} {R : α → β → Prop} {R' : α' → β' → Prop} {m : PyM α} {M : PyM β}
    {f : α → PyM α'} {F : β → PyM β'} (h : RelE R m M) (hf : ∀ a b, R a b → RelE R' (f a) (F b)) :
    RelE R' (m >>= f) (M >>= F) := by
  cases m <;> cases M <;> simp only [RelE] at h
  · exact h
  · exact hf _ _ h

theorem RelE.mono {α β : Type} {R R' : α → β → Prop} {m : PyM α} {M : PyM β}
    (h : RelE R m M) (hf : ∀ a b, R a b → R' a b) : RelE R' m M := by
  cases m <;> cases M <;> simp only [RelE] at h ⊢
  · exact h
  · exact hf _ _ h

theorem RelE.ok_right {α β : Type} {R : α → β → Prop} {m : PyM α} {b : β} (h : RelE R m (.ok b)) :
    ∃ a, m = .ok a ∧ R a b := by
  cases m with
  | error => exact h.elim
  | ok a => exact ⟨a, rfl, h⟩

theorem RelE.with_left {α β : Type} {R : α → β → Prop} {P : α → Prop} {m : PyM α} {M : PyM β}
    (h : RelE R m M) (hP : ∀ a, m = .ok a → P a) : RelE (fun a b => R a b ∧ P a) m M := by
  cases m <;> cases M <;> simp only [RelE] at h ⊢
  · exact h
  · exact ⟨h, hP _ rfl⟩

theorem RelE.error_right {α β : Type} {R : α → β → Prop} {m : PyM α} {er : PyErr} (h : RelE R m (.error er)) :
    ∃ er', m = .error er' ∧ (er' = er ∨ (er' = .typeError ∧ er = .inconsistentSize)) := by
  cases m with
  | error er' => exact ⟨er', rfl, h⟩
  | ok => exact h.elim

theorem Den.cases {x : ZBV} {X : BVal} (h : Den e x X) :
    ∃ r n, ∃ d : Env → BitVec n, x = ⟨r, n, ⟨n, d⟩⟩ ∧ X = ⟨.root r, n, toI (d e)⟩ ∧ 0 < n := by
  obtain ⟨r, n, t⟩ := x
  obtain ⟨K, N, v⟩ := X
  obtain ⟨h1, h2, h3, d, h4, h5⟩ := h
  dsimp only at h1 h2 h3 d h4 h5
  subst h1 h4
  subst h2
  exact ⟨r, N, d, rfl, by rw [h5]; rfl, h3⟩

theorem Den.intro (r : Root) {n : Nat} (d : Env → BitVec n) (hn : 0 < n) {v : Int} (hv : toI (d e) = v) :
    Den e ⟨r, n, ⟨n, d⟩⟩ ⟨.root r, n, v⟩ := ⟨rfl, rfl, hn, d, rfl, hv.symm⟩

theorem Den.WF {x : ZBV} {X : BVal} (h : Den e x X) : X.WF := by
  obtain ⟨r, n, d, rfl, rfl, _⟩ := h.cases
  exact toI_bounds _

theorem DenObj.WF {o : ZObj} {O : Obj} (h : DenObj e o O) : O.WF := by
  cases h with
  | bv h => exact h.WF
  | _ => trivial

theorem Den.size_eq {x : ZBV} {X : BVal} (h : Den e x X) : X.size = x.size := h.2.1
theorem Den.pos {x : ZBV} {X : BVal} (h : Den e x X) : 0 < x.size := h.2.2.1
theorem Den.kind_eq {x : ZBV} {X : BVal} (h : Den e x X) : X.kind = .root x.root := h.1

theorem sort_ok {n : Nat} (hn : 0 < n) : bitVecSort n = .ok () := by
  unfold bitVecSort; rw [if_neg (by omega)]

theorem bvF_ok (r : Root) {n : Nat} (d : Env → BitVec n) (hn : 0 < n) : bvF r n ⟨n, d⟩ = .ok ⟨r, n, ⟨n, d⟩⟩ := by
  simp [bvF, sort_ok hn, bind, Except.bind, pure, Except.pure]

theorem bvF_rel (r : Root) {n : Nat} (d : Env → BitVec n) (hn : 0 < n) {v : Int} (hv : toI (d e) = v) :
    RelE (Den e) (bvF r n ⟨n, d⟩) (.ok ⟨.root r, n, v⟩) := by
  rw [bvF_ok r d hn]; exact Den.intro r d hn hv

/-- Another presentation of the same width. -/
theorem bvF_rel' (r : Root) {n m : Nat} (d : Env → BitVec m) (hn : 0 < n) (h : m = n) {v : Int}
    (hv : toI (d e) = v) : RelE (Den e) (bvF r n ⟨m, d⟩) (.ok ⟨.root r, n, v⟩) := by
  subst h; exact bvF_rel r d hn hv

theorem bitVecVal_ok (v : Int) {n : Nat} (hn : 0 < n) : bitVecVal v n = .ok ⟨n, fun _ => BitVec.ofInt n v⟩ := by
  simp [bitVecVal, sort_ok hn, bind, Except.bind, pure, Except.pure]

theorem zBin_ok (f : (w : Nat) → BitVec w → BitVec w → BitVec w) {n : Nat} (a b : Env → BitVec n) :
    zBin f ⟨n, a⟩ ⟨n, b⟩ = .ok ⟨n, fun e => f n (a e) (b e)⟩ := by simp [zBin]

theorem zRel_ok (f : (w : Nat) → BitVec w → BitVec w → Bool) {n : Nat} (a b : Env → BitVec n) :
    zRel f ⟨n, a⟩ ⟨n, b⟩ = .ok fun e => f n (a e) (b e) := by simp [zRel]

theorem zIf_ok (c : BoolE) {n : Nat} (a b : Env → BitVec n) :
    zIf c ⟨n, a⟩ ⟨n, b⟩ = .ok ⟨n, fun e => if c e then a e else b e⟩ := by simp [zIf]

theorem intF_rel (r : Root) {n : Nat} (hn : 0 < n) (v : Int) :
    RelE (Den e) (intF r n v) (.ok ⟨.root r, n, v % 2 ^ n⟩) := by
  simp only [intF, sort_ok hn, bitVecVal_ok v hn, bind, Except.bind, pure, Except.pure]
  exact Den.intro r _ hn (toI_ofInt v)

theorem b2i_mod (b : Bool) {n : Nat} (hn : 0 < n) : b2i b % 2 ^ n = b2i b := Smt.bit_lt b hn

theorem boolF_rel (r : Root) {n : Nat} (hn : 0 < n) {b : BoolE} {B : Bool} (h : DenBit e b B) :
    RelE (Den e) (boolF r n b) (.ok ⟨.root r, n, b2i B⟩) := by
  simp only [boolF, sort_ok hn, bitVecVal_ok _ hn, zIf_ok, bind, Except.bind, pure, Except.pure]
  refine Den.intro r _ hn ?_
  have h : b e = B := h
  rw [h]
  cases B
  · simpa [b2i] using toI_ofInt (w := n) 0
  · have h1 := b2i_mod true hn
    simp only [b2i, if_true] at h1 ⊢
    rw [toI_ofInt, h1]

theorem bvF_attrs {r : Root} {n : Nat} {t : BVE} {s : ZBV} (h : bvF r n t = .ok s) :
    s.root = r ∧ s.size = n := by
  unfold bvF at h
  simp only [bind, Except.bind] at h
  split at h
  · cases h
  · split at h <;> cases h; exact ⟨rfl, rfl⟩

theorem Den.attrs {s : ZBV} {K : Kind} {n : Nat} {v : Int} {r : Root} (h : Den e s ⟨K, n, v⟩) (hr : K = .root r) :
    s.root = r ∧ s.size = n := by
  have h1 := h.1
  have h2 := h.2.1
  dsimp only at h1 h2
  rw [hr] at h1
  injection h1 with h1
  exact ⟨h1.symm, h2.symm⟩

theorem toI_append {m n : Nat} (c : BitVec m) (b : BitVec n) : toI (c ++ b) = toI b + toI c * 2 ^ n := by
  unfold toI
  rw [BitVec.toNat_append, Nat.shiftLeft_eq, Nat.or_comm]
  have h1 := pyOr_add (x := (b.toNat : Int)) (y := (c.toNat : Int)) (n := n) (by omega) (by exact_mod_cast b.isLt)
  have h2 : ((c.toNat : Int) * 2 ^ n) = ((c.toNat * 2 ^ n : Nat) : Int) := by push_cast; rfl
  rw [h2] at h1 ⊢
  rw [← h1]
  apply ibit_ext; intro i
  rw [ibit_pyOr]
  simp only [← Int.ofNat_eq_natCast, ibit_ofNat, Nat.testBit_or]

theorem concat_rel' {x y : ZBV} {X Y : BVal} (hx : Den e x X) (hy : Den e y Y)
    (hk : y.root.isSub x.root = true) :
    RelE (Den e) (x.concat y) (.ok ⟨X.kind, X.size + Y.size, X.value + Y.value * 2 ^ X.size⟩) := by
  obtain ⟨r, n, d, rfl, rfl, hn⟩ := hx.cases
  obtain ⟨r', m, d', rfl, rfl, hm⟩ := hy.cases
  simp only [ZBV.concat, hk, not_true, if_false, zConcat]
  exact bvF_rel' r _ (by omega) (by omega) (toI_append _ _)

theorem mkElem_rel (r : Root) {el : ZElem} {c : Bool} (h : DenElem e el c)
    (hf : ∀ v, el = .int v → v = 0 ∨ v = 1) : RelE (Den e) (mkElem r el) (.ok ⟨.root r, 1, b2i c⟩) := by
  cases h with
  | bit h => exact boolF_rel r (by omega) h
  | bool =>
    have := intF_rel (e := e) r (n := 1) (by omega) (b2i c)
    rwa [b2i_mod c (by omega)] at this
  | @int v =>
    have := intF_rel (e := e) r (n := 1) (by omega) v
    rcases hf v rfl with rfl | rfl <;> exact this

theorem concatElems_rel (r : Root) : ∀ {l : List ZElem} {L : List Bool},
    List.Forall₂ (DenElem e) l L → (∀ v, ZElem.int v ∈ l → v = 0 ∨ v = 1) →
    ∀ {x : ZBV} {m : Nat} {v : Int}, Den e x ⟨.root r, m, v⟩ →
    RelE (Den e) (concatElems r x l) (.ok ⟨.root r, m + L.length, v + ofBits L * 2 ^ m⟩)
  | [], [], _, _, x, m, v, hx => by simpa [concatElems, RelE, ofBits] using hx
  | el :: l, c :: L, .cons h1 h2, hf, x, m, v, hx => by
    obtain ⟨y, hm, hy⟩ := (mkElem_rel r h1 (fun v hv => hf v (by simp [hv]))).ok_right
    have hxr := (hx.attrs rfl).1
    have hyr := (hy.attrs rfl).1
    obtain ⟨z, hc, hz⟩ := (concat_rel' hx hy (by rw [hxr, hyr]; exact Root.isSub_refl _)).ok_right
    have := concatElems_rel r h2 (fun v hv => hf v (by simp [hv])) hz
    simp only [concatElems, bind, Except.bind, hm, hc, List.length_cons, ofBits]
    have e1 : m + (L.length + 1) = m + 1 + L.length := by omega
    have e2 : v + ((if c then 1 else 0) + 2 * ofBits L) * 2 ^ m = v + b2i c * 2 ^ m + ofBits L * 2 ^ (m + 1) := by
      rw [Int.pow_succ, b2i]; ring
    dsimp only at this
    rw [e1, e2]
    exact this

theorem zext_rel {x : ZBV} {X : BVal} (h : Den e x X) (k : Int) :
    RelE (Den e) (x.zext k) (X.zext k) := by
  rw [C17_zext h.WF]
  unfold ZBV.zext
  split
  · exact .inl rfl
  · obtain ⟨r, n, d, rfl, rfl, hn⟩ := h.cases
    refine bvF_rel r _ (by dsimp only; omega) ?_
    dsimp only
    unfold toI
    rw [BitVec.toNat_setWidth, Nat.mod_eq_of_lt]
    exact lt_of_lt_of_le (d e).isLt (Nat.pow_le_pow_right (by omega) (by omega))

theorem getSlice_def (x : ZBV) (sa sb : Option Int) :
    x.getSlice ⟨sa, sb, none⟩ = (zExtract (normStop x.size sb - 1) (normStart x.size sa) x.expr >>= fun v =>
      bvF x.root v.w v) := by
  cases sa <;> cases sb <;> rfl

theorem getSlice_rel {x : ZBV} {X : BVal} (h : Den e x X) (sa sb : Option Int) :
    if 0 ≤ normStart x.size sa ∧ normStart x.size sa < normStop x.size sb then
      RelE (Den e) (x.getSlice ⟨sa, sb, none⟩) (X.getSlice ⟨sa, sb, none⟩)
    else x.getSlice ⟨sa, sb, none⟩ = .error .z3Exception := by
  obtain ⟨r, n, d, rfl, rfl, hn⟩ := h.cases
  rw [getSlice_def]
  dsimp only
  have hb : normStop n sb ≤ n := by unfold normStop; omega
  split
  · rename_i hc
    rw [getSlice_concrete _ _ _ hc.1 hc.2, zExtract, if_pos (by dsimp only; omega)]
    simp only [bind, Except.bind]
    have e3 : (normStop n sb - 1).toNat - (normStart n sa).toNat + 1 = (normStop n sb - normStart n sa).toNat := by
      omega
    rw [← e3]
    exact bvF_rel r _ (by omega) (toI_extract _)
  · rename_i hc
    rw [zExtract, if_neg (by omega)]
    rfl

theorem getIdx_rel {x : ZBV} {X : BVal} (h : Den e x X) (i : Int) :
    RelE (DenBit e) (x.getIdx i) (X.getIdx i) := by
  obtain ⟨r, n, d, rfl, rfl, hn⟩ := h.cases
  unfold ZBV.getIdx
  rw [getIdx_eq]
  dsimp only
  generalize hj : (if i < 0 then (n : Int) + i else i) = j
  by_cases hr : 0 ≤ j ∧ j < n
  · have hp : pyIndex? n i = some j.toNat := by
      unfold pyIndex?; split at hj
      · rw [if_neg (by omega), if_pos (by omega)]; congr 1; omega
      · rw [if_pos (by omega)]; congr 1; omega
    rw [hp]
    have hw : (1 : Nat) = j.toNat - j.toNat + 1 := by omega
    simp only [hr, and_self, not_true, if_false, zExtract, le_refl, if_true, bind, Except.bind,
      bitVecVal_ok 1 (show 0 < 1 by omega)]
    rw [zEq, zRel, dif_pos hw]
    show _ = _
    have hA := toI_extract (lo := j.toNat) (hi := j.toNat) (d e)
    rw [Bool.eq_iff_iff, beq_iff_eq, ← toI_inj, hA, ibit, decide_eq_true_eq]
    simp [toI]
  · have hp : pyIndex? n i = none := by
      unfold pyIndex?; split at hj
      · rw [if_neg (by omega), if_neg (by omega)]
      · rw [if_neg (by omega), if_neg (by omega)]
    rw [hp]
    simp [hr, RelE]

/-- `T[n](o)` -/
theorem mkZBV_rel (r : Root) {n : Nat} {o : ZObj} {O : Obj} (hn : 0 < n) (h : DenObj e o O) (hf : o.Fits n) :
    RelE (Den e) (mkZBV r n o) (HW.mkBV (.root r) n O) := by
  rw [mkBV_eq]
  unfold mkZBV
  simp only [sort_ok hn]
  cases h with
  | @int v => exact intF_rel r hn v
  | @bool b => exact intF_rel r hn (b2i b)
  | @bit b B h =>
    have := boolF_rel r hn h
    simp only [Obj.denotes]
    rw [show (if B then (1 : Int) else 0) % 2 ^ n = b2i B from b2i_mod B hn]
    exact this
  | @bv x X h =>
    simp only [Obj.denotes]
    have hs := h.size_eq
    by_cases h1 : (n : Int) - x.size < 0
    · have ns : normStart x.size none = 0 := rfl
      have nt : normStop x.size (some (n : Int)) = n := by
        simp only [normStop]; rw [if_neg (by omega)]; omega
      have hsl := getSlice_rel h none (some (n : Int))
      rw [if_pos (by omega), getSlice_concrete _ _ _ (by rw [hs]; omega) (by rw [hs]; omega), hs, ns, nt] at hsl
      obtain ⟨y, hy, hd⟩ := hsl.ok_right
      obtain ⟨r', m, d, rfl, h2, hm⟩ := hd.cases
      injection h2 with h2 h3 h4
      have hm' : m = n := by omega
      subst hm'
      simp only [h1, if_true, hy, Smt.ok_bind, pure, Except.pure]
      refine Den.intro r d hm ?_
      simp only [sub_zero, Int.toNat_natCast, Int.toNat_zero, pow_zero, Int.ediv_one] at h4
      exact h4.symm
    · by_cases h2 : (n : Int) - x.size > 0
      · have hz := zext_rel h ((n : Int) - x.size)
        rw [C17_zext h.WF, if_neg h1] at hz
        obtain ⟨y, hy, hyd⟩ := hz.ok_right
        obtain ⟨r', m, d, rfl, h3, hm⟩ := hyd.cases
        injection h3 with h3 h4 h5
        have hm' : m = n := by omega
        subst hm'
        simp only [h1, if_false, h2, if_true, hy, Smt.ok_bind, pure, Except.pure]
        refine Den.intro r d hm ?_
        rw [← h5, Int.emod_eq_of_lt h.WF.1]
        exact lt_of_lt_of_le h.WF.2 (pow_le_pow_right₀ (by omega) (by omega))
      · obtain ⟨r', m, d, rfl, rfl, hm⟩ := h.cases
        have hm' : m = n := by dsimp only at h1 h2; omega
        subst hm'
        simp only [h1, if_false, h2]
        exact Den.intro r d hm (toI_mod _).symm
  | @seq l L h =>
    obtain ⟨hl, hf⟩ := hf
    subst hl
    simp only [Obj.denotes, ne_eq, not_true, if_false]
    have e1 := ofBits_bounds L
    have e2 := h.length_eq
    rw [e2, Int.emod_eq_of_lt e1.1 e1.2]
    cases h with
    | nil => simp at hn
    | @cons el c l L h1 h2 =>
      obtain ⟨x, hx, hxd⟩ := (mkElem_rel r h1 (fun v hv => hf v (by simp [hv]))).ok_right
      obtain ⟨y, hy, hyd⟩ := (concatElems_rel r h2 (fun v hv => hf v (by simp [hv])) hxd).ok_right
      obtain ⟨r', m, d, rfl, h3, hm⟩ := hyd.cases
      injection h3 with h3 h4 h5
      have hm' : m = (c :: L).length := by simp; omega
      subst hm'
      simp only [hx, hy, bind, Except.bind]
      refine Den.intro r d hm ?_
      rw [← h5]
      simp only [ofBits, b2i]; ring
  | @other i b =>
    cases i with
    | none => exact .inl rfl
    | some v => exact intF_rel r hn v

/-- `_coerce` -/
theorem zcoerce_rel (r : Root) {n : Nat} {o : ZObj} {O : Obj} (hn : 0 < n) (h : DenObj e o O) (hf : o.Fits n) :
    RelE (fun y Y => Den e y Y ∧ y.size = n) (zcoerce r n o) (coerce (.root r) n O) := by
  have key : RelE (fun y Y => Den e y Y ∧ y.size = n) (mkZBV r n o) (HW.mkBV (.root r) n O) := by
    have := mkZBV_rel r hn h hf
    rw [mkBV_eq] at this ⊢
    cases hd : O.denotes with
    | none =>
      rw [hd] at this
      obtain ⟨er, h1, h2⟩ := this.error_right
      rw [h1]; exact h2
    | some v =>
      rw [hd] at this
      obtain ⟨s, h1, h2⟩ := this.ok_right
      rw [h1]
      exact ⟨h2, h2.2.1.symm⟩
  cases h with
  | @bv x X h =>
    have hs := h.size_eq
    simp only [zcoerce, coerce, hs]
    split
    · exact .inr ⟨rfl, rfl⟩
    · rename_i hc
      exact ⟨h, by simpa using hc⟩
  | int => exact key
  | bool => exact key
  | bit => exact key
  | seq => exact key
  | other => exact key

/-- The right operand and the number it contributes. -/
theorem zoperand_rel (r : Root) {n : Nat} {o : ZObj} {O : Obj} (hn : 0 < n) (h : DenObj e o O) (hf : o.Fits n) :
    RelE (fun y v => ∃ d : Env → BitVec n, y.expr = ⟨n, d⟩ ∧ toI (d e) = v) (zcoerce r n o) (operand n O) := by
  have h1 := zcoerce_rel r hn h hf
  rcases coerce_eq (.root r) n O with ⟨Y, h2, h3, h4, _⟩ | ⟨er, h2, h3⟩
  · rw [h2] at h1
    obtain ⟨y, hy, hd, hs⟩ := h1.ok_right
    rw [hy, h3]
    obtain ⟨r', m, d, rfl, rfl, hm⟩ := hd.cases
    dsimp only at hs
    subst hs
    exact ⟨d, rfl, rfl⟩
  · rw [h2] at h1; rw [h3]
    obtain ⟨er', h4, h5⟩ := h1.error_right
    rw [h4]; exact h5

theorem cast_rel {α β : Type} {R : α → β → Prop} {x : ZBV} {X : BVal} {o : ZObj} {O : Obj}
    {f : ZBV → PyM α} {g : Int → PyM β} (hx : Den e x X) (ho : DenObj e o O) (hf : o.Fits x.size)
    (h : ∀ (y : ZBV) (d : Env → BitVec x.size), y.expr = ⟨x.size, d⟩ → RelE R (f y) (g (toI (d e)))) :
    RelE R (x.cast o f) ((operand X.size O).bind g) := by
  rw [hx.size_eq]
  refine (zoperand_rel x.root hx.pos ho hf).bind ?_
  rintro y v ⟨d, hd, rfl⟩
  exact h y d hd

theorem bin_rel {f : (w : Nat) → BitVec w → BitVec w → BitVec w} {x : ZBV} {X : BVal} {o : ZObj} {O : Obj}
    {g : Int → Int} (hx : Den e x X) (ho : DenObj e o O) (hf : o.Fits x.size)
    (hg : ∀ a b : BitVec x.size, X.value = toI a → toI (f x.size a b) = g (toI b)) :
    RelE (Den e) (x.bin (zBin f) o) ((operand X.size O).bind fun v => .ok ⟨X.kind, X.size, g v⟩) := by
  obtain ⟨r, n, a, rfl, rfl, hn⟩ := hx.cases
  refine cast_rel hx ho hf fun y d hd => ?_
  simp only [hd, zBin_ok, bind, Except.bind]
  exact bvF_rel r _ hn (hg (a e) (d e) rfl)

theorem nbin_rel {f : (w : Nat) → BitVec w → BitVec w → BitVec w} {x : ZBV} {X : BVal} {o : ZObj} {O : Obj}
    {g : Int → Int} (hx : Den e x X) (ho : DenObj e o O) (hf : o.Fits x.size)
    (hg : ∀ a b : BitVec x.size, X.value = toI a → toI (~~~ f x.size a b) = g (toI b)) :
    RelE (Den e) (x.nbin (zBin f) o) ((operand X.size O).bind fun v => .ok ⟨X.kind, X.size, g v⟩) := by
  obtain ⟨r, n, a, rfl, rfl, hn⟩ := hx.cases
  refine cast_rel hx ho hf fun y d hd => ?_
  simp only [hd, zBin_ok, bind, Except.bind]
  exact bvF_rel r _ hn (hg (a e) (d e) rfl)

theorem rel_rel {f : (w : Nat) → BitVec w → BitVec w → Bool} {x : ZBV} {X : BVal} {o : ZObj} {O : Obj}
    {g : Int → Bool} (hx : Den e x X) (ho : DenObj e o O) (hf : o.Fits x.size)
    (hg : ∀ a b : BitVec x.size, X.value = toI a → f x.size a b = g (toI b)) :
    RelE (DenBit e) (x.rel (zRel f) o) ((operand X.size O).bind fun v => .ok (g v)) := by
  obtain ⟨r, n, a, rfl, rfl, hn⟩ := hx.cases
  refine cast_rel hx ho hf fun y d hd => ?_
  simp only [hd, zRel_ok]
  exact hg (a e) (d e) rfl

theorem bin_size {op : BVE → BVE → PyM BVE} {x s : ZBV} {o : ZObj} (h : x.bin op o = .ok s) :
    s.root = x.root ∧ s.size = x.size := by
  unfold ZBV.bin ZBV.cast at h
  simp only [bind, Except.bind] at h
  split at h
  · cases h
  · split at h
    · cases h
    · exact bvF_attrs h

end HW.Z3
