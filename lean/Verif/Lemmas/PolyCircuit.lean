import Verif.Model.PolyCircuit
import Verif.Lemmas.CircuitFamilies
import Verif.Props.SmtPoly
import Verif.Props.PolyOperators

/-! The two families of polymorphic circuits are related. -/

namespace HW.Circuit
open HW Smt

section
variable {e : Smt.Env} {S : Simplifier}

/-- The class is a predefined one, or one made earlier; `D` tells which class has which number. -/
def Known (D : Nat → SKind) (i : Nat) : SKind → Prop
  | .root _ => True
  | .poly id t f sel => id < i ∧ D id = .poly id t f sel ∧ Known D i t ∧ Known D i f

theorem At_inj {D : Nat → SKind} {i : Nat} {k l : SKind} {K : Kind} (hk : Known D i k) (hl : Known D i l) (h1 : k.At e K)
    (h2 : l.At e K) : k = l := by
  cases k with
  | root r =>
    cases h1
    exact (At_root h2).symm
  | poly id t f sel =>
    obtain ⟨T, F, b, -, -, -, rfl⟩ := h1
    cases l with
    | root q => cases h2
    | poly id' t' f' sel' =>
      obtain ⟨T', F', b', -, -, -, h⟩ := h2
      cases h
      exact hk.2.1.symm.trans hl.2.1

theorem At_eq_iff {D : Nat → SKind} {i : Nat} {k l : SKind} {K L : Kind} (hk : Known D i k) (hl : Known D i l) (h1 : k.At e K)
    (h2 : l.At e L) : k = l ↔ K = L := by
  constructor
  · rintro rfl; exact h1.unique h2
  · rintro rfl; exact At_inj hk hl h1 h2

theorem At_isSub {D : Nat → SKind} {i : Nat} {k l : SKind} {K L : Kind} (hk : Known D i k) (hl : Known D i l) (h1 : k.At e K)
    (h2 : l.At e L) : k.isSub l = K.isSub L := by
  have he := At_eq_iff hk hl h1 h2
  cases l with
  | root r => cases h2; simp only [SKind.isSub, Kind.isSub, h1.base]
  | poly id t f sel =>
    obtain ⟨T, F, b, -, -, -, rfl⟩ := h2
    simp only [SKind.isSub, Kind.isSub]
    by_cases h : K = .poly id T F b
    · rw [he.2 h, h]; simp
    · have : ¬ k = .poly id t f sel := fun h' => h (he.1 h')
      simp [h, this]

theorem At_maybe : ∀ {k : SKind} {K : Kind}, k.At e K → k.maybeSigned = K.maybeSigned
  | .root r, _, h => by cases h; rfl
  | .poly id t f sel, _, h => by
    obtain ⟨T, F, b, ht, hf, -, rfl⟩ := h
    simp only [SKind.maybeSigned, Kind.maybeSigned, At_maybe ht, At_maybe hf]

theorem maybe_reads : ∀ {K : Kind}, K.maybeSigned = false → Spec.readsSigned K = false
  | .root r, h => by cases r <;> first | rfl | cases h
  | .poly id t f sel, h => by
    simp only [Kind.maybeSigned, Bool.or_eq_false_iff] at h
    cases sel
    · exact maybe_reads (K := f) h.2
    · exact maybe_reads (K := t) h.1

/-- The vector `x` denotes `X`; its class is known. -/
def PVec (e : Smt.Env) (D : Nat → SKind) (i : Nat) (x : SBV) (X : BVal) : Prop :=
  Smt.Den e x X ∧ 0 < x.size ∧ Known D i x.kind

theorem PVec.sub {D : Nat → SKind} {i : Nat} {x y : SBV} {X Y : BVal} (hx : PVec e D i x X) (hy : PVec e D i y Y) :
    y.properSub x = Y.properSub X := by
  have he := At_eq_iff hx.2.2 hy.2.2 hx.1.1 hy.1.1
  simp only [SBV.properSub, SBV.sameType, BVal.properSub, BVal.sameType, At_isSub hy.2.2 hx.2.2 hy.1.1 hx.1.1, ← hx.1.2.1,
    ← hy.1.2.1]
  by_cases h : x.kind = y.kind
  · simp [h, he.1 h]
  · have : ¬ X.kind = Y.kind := fun h' => h (he.2 h')
    rw [beq_eq_false_iff_ne.2 h, beq_eq_false_iff_ne.2 this]

variable {D : Nat → SKind} {i : Nat}

theorem toPVec {m : PyM SBV} {M : PyM BVal} (h : RelM (Smt.Den e) m M) {k : SKind} (hD : Known D i k)
    (hk : ∀ y, m = .ok y → y.kind = k ∧ 0 < y.size) : RelP (· = ·) (PVec e D i) m M :=
  (smtP (h.with_left hk)).mono fun _ _ h => ⟨h.1, h.2.2, h.2.1 ▸ hD⟩

theorem pOpnd {o : Opnd SBV Term} {p : Opnd BVal Bool} (h : OpndRel (PVec e D i) (Smt.DenBit e) o p) :
    Smt.DenObj e (sObj o) (cObj p) ∧ ∀ n, SObj.Fits n (sObj o) := by
  cases h with
  | vec h => exact ⟨.bv h.1, fun _ => trivial⟩
  | bit h => exact ⟨.bit h, fun _ => trivial⟩
  | int => exact ⟨.int, fun _ => trivial⟩

/-- The methods that do not depend on the class. -/
theorem basic_sim (e : Smt.Env) (S : Simplifier) (D : Nat → SKind) (i : Nat) :
    Sim (basic (smt S)) (basic concrete) (· = ·) (PVec e D i) (Smt.DenBit e) where
  refl _ := rfl
  size h := h.1.2.1.symm
  sameClass := by
    intro x X y Y hx hy
    change decide (x.kind = y.kind ∧ x.size = y.size) = decide (X.kind = Y.kind ∧ X.size = Y.size)
    rw [hx.1.2.1, hy.1.2.1]
    exact decide_eq_decide.2 (and_congr_left' (At_eq_iff hx.2.2 hy.2.2 hx.1.1 hy.1.1))
  const := by
    intro r n v hn
    refine toPVec (k := .root r) (C36_construct S hn (k := .root r) (K := .root r) rfl (.int (v := v)) trivial) trivial ?_
    intro y hy
    change (do bvF S (.root r) n (← Smt.mkBV (v % 2 ^ n) n)) = .ok y at hy
    obtain ⟨t, -, h⟩ := bind_ok hy
    obtain ⟨h1, h2⟩ := bvF_inv h
    exact ⟨h1, by omega⟩
  un := by
    intro op x X hx
    have hn := hx.2.1
    cases op
    · refine toPVec (C34_bvnot S hx.1) hx.2.2 fun y hy => ?_
      obtain ⟨t, -, h⟩ := bind_ok hy
      obtain ⟨h1, h2⟩ := bvF_inv h
      exact ⟨h1, by omega⟩
    · refine toPVec (C34_bvneg S hx.1) hx.2.2 fun y hy => ?_
      obtain ⟨t, -, h⟩ := bind_ok hy
      obtain ⟨h1, h2⟩ := bvF_inv h
      exact ⟨h1, by omega⟩
  bin := by
    intro op x X o p hx ho
    obtain ⟨h1, h2⟩ := pOpnd ho
    exact toPVec (sBin_hom op e _ _ _ _ hx.1 h1 hx.2.1 (h2 _)) hx.2.2 fun y hy => sBin_inv hy hx.2.1
  cmp := by
    intro op x X o p hx ho
    obtain ⟨h1, h2⟩ := pOpnd ho
    exact smtP (sCmp_hom op e _ _ _ _ hx.1 h1 hx.2.1 (h2 _))
  rol := by
    intro x X k hx h0 h1
    have hn := hx.2.1
    have := C73_rotate_int S hx.1 hn k
    rw [if_pos ⟨h0, by have := hx.1.2.1; change k ≤ (X.size : Int) at h1; omega⟩] at this
    refine toPVec this.1 hx.2.2 fun y hy => ?_
    obtain ⟨t, -, h⟩ := bind_ok hy
    obtain ⟨t, -, h⟩ := bind_ok h
    obtain ⟨h1, h2⟩ := bvF_inv h
    exact ⟨h1, by omega⟩
  ror := by
    intro x X k hx h0 h1
    have hn := hx.2.1
    have := C73_rotate_int S hx.1 hn k
    rw [if_pos ⟨h0, by have := hx.1.2.1; change k ≤ (X.size : Int) at h1; omega⟩] at this
    refine toPVec this.2 hx.2.2 fun y hy => ?_
    obtain ⟨t, -, h⟩ := bind_ok hy
    obtain ⟨t, -, h⟩ := bind_ok h
    obtain ⟨h1, h2⟩ := bvF_inv h
    exact ⟨h1, by omega⟩
  zext := by
    intro x X k hx
    have hn := hx.2.1
    refine toPVec (C36_zext S hx.1 k) hx.2.2 fun y hy => ?_
    change SBV.zext S x k = _ at hy
    unfold SBV.zext at hy
    split at hy
    · cases hy
    · obtain ⟨t, -, h⟩ := bind_ok hy
      obtain ⟨h1, h2⟩ := bvF_inv h
      exact ⟨h1, by omega⟩
  sext := by
    intro x X k hx hk
    have hn := hx.2.1
    refine toPVec (C36_sext S hx.1 hn k hk) hx.2.2 fun y hy => ?_
    change SBV.sext S x k = _ at hy
    unfold SBV.sext at hy
    split at hy
    · cases hy
    · obtain ⟨t, -, h⟩ := bind_ok hy
      obtain ⟨h1, h2⟩ := bvF_inv h
      exact ⟨h1, by omega⟩
  slice := by
    intro x X lo hi hx h0 h1 h2
    have hs := hx.1.2.1
    change hi ≤ (X.size : Int) at h2
    have := C36_slice S hx.1 (some lo) (some hi)
    rw [if_pos (by
      simp only [sliceFrom, sliceTo]
      rw [if_neg (by omega), if_neg (by omega)]
      omega)] at this
    exact toPVec this hx.2.2 fun y hy => getSlice_inv (S := S) (s := ⟨some lo, some hi, none⟩) hy
  index := by
    intro x X i hx
    exact smtP (C36_index S hx.1 i)
  concat := by
    intro x X y Y hx hy
    have hn := hx.2.1
    refine toPVec (C36_concat S hx.1 hy.1 fun h => ?_) hx.2.2 fun z hz => ?_
    · exact (At_eq_iff hy.2.2 hx.2.2 hy.1.1 hx.1.1).2 h
    · change SBV.concat S x y = _ at hz
      unfold SBV.concat at hz
      split at hz
      · cases hz
      · obtain ⟨t, -, h⟩ := bind_ok hz
        obtain ⟨h1, h2⟩ := bvF_inv h
        exact ⟨h1, by omega⟩
  adc := by
    intro x X o p c d hx ho hc
    have hn := hx.2.1
    obtain ⟨h1, h2⟩ := pOpnd ho
    obtain ⟨g1, g2⟩ := pOpnd hc
    refine (smtP ((C36_adc S hx.1 h1 g1 hn (h2 _) (g2 _)).with_left (P := fun z => z.1.kind = x.kind ∧ 0 < z.1.size) ?_)).mono
      fun _ _ h => ⟨⟨h.1.1, h.2.2, h.2.1 ▸ hx.2.2⟩, h.1.2⟩
    intro z hz
    obtain ⟨o, -, hz⟩ := bind_ok hz
    obtain ⟨c, -, hz⟩ := bind_ok hz
    obtain ⟨a, ha, hz⟩ := bind_ok hz
    obtain ⟨b, -, hz⟩ := bind_ok hz
    obtain ⟨c', -, hz⟩ := bind_ok hz
    obtain ⟨s, hs, hz⟩ := bind_ok hz
    obtain ⟨t, ht, hz⟩ := bind_ok hz
    obtain ⟨u, hu, hz⟩ := bind_ok hz
    obtain ⟨v, -, hz⟩ := bind_ok hz
    cases hz
    have ka : a.kind = x.kind ∧ 0 < a.size := by
      unfold SBV.zext at ha
      rw [if_neg (by decide)] at ha
      obtain ⟨t, -, h⟩ := bind_ok ha
      obtain ⟨h1, h2⟩ := bvF_inv h
      exact ⟨h1, by omega⟩
    have ks := sBin_inv (op := .add) hs ka.2
    have kt := sBin_inv (op := .add) ht ks.2
    have ku := getSlice_inv hu
    exact ⟨by rw [ku.1, kt.1, ks.1, ka.1], ku.2⟩
  signed := by
    intro x X hx
    change decide (x.kind = .root .sint) = decide (X.kind = .root .sint)
    exact decide_eq_decide.2 (At_eq_iff (l := .root .sint) hx.2.2 trivial hx.1.1 rfl)
  opA _ _ _ _ _ _ _ _ _ := rfl
  opC _ _ _ _ _ _ _ _ := rfl
  bit op _ _ _ _ ha hb := sBit_rel op ha hb
  bitNot := by
    intro a A ha
    obtain ⟨t, h1, h2⟩ := C74_invert S ha
    change RelP _ _ (bitInvert S a) (.ok (BVal.bitNot A))
    rw [h1]
    exact h2
  mux _ _ _ _ := rfl

/-! ### The methods that depend on the class -/

/-- Results: related vectors, possibly of a class made meanwhile; the same number of classes. -/
def PRes (e : Smt.Env) (D : Nat → SKind) (i : Nat) (r : SBV × Nat) (R : BVal × Nat) : Prop :=
  r.2 = R.2 ∧ i ≤ r.2 ∧ ∃ D', PVec e D' r.2 r.1 R.1 ∧ ∀ j < i, D' j = D j

theorem PRes.same {x : SBV} {X : BVal} (h : PVec e D i x X) : PRes e D i (x, i) (X, i) :=
  ⟨rfl, Nat.le_refl _, D, h, fun _ _ => rfl⟩

theorem iteBV_all (c : Bool) {X Y : BVal} (hX : X.WF) (hY : Y.WF) (i : Nat) :
    iteBV c X Y i = if X.size = Y.size then
      .ok (⟨if X.kind = Y.kind then X.kind else .poly i X.kind Y.kind c, X.size, if c then X.value else Y.value⟩,
        if X.kind = Y.kind then i else i + 1)
    else .error .inconsistentSize := by
  have e1 := hX.mod_eq
  have e2 := hY.mod_eq
  by_cases hs : X.size = Y.size
  · rw [if_pos hs]
    by_cases hk : X.kind = Y.kind
    · rw [if_pos hk, if_pos hk]
      have hr : returnType c (.bv X) (.bv Y) i = .ok (.vec X.kind X.size, i) := by
        simp only [returnType, hk, hs, and_self, if_true]; rfl
      cases c
      · simp [iteBV, ite, bind, StateT.bind, hr, Except.bind, pushIte, coerceBranch, pyLift, Except.map, Branch.toObj, mkBV_bv,
          pure, Except.pure, StateT.pure, hs, e2]
      · simp [iteBV, ite, bind, StateT.bind, hr, Except.bind, pushIte, coerceBranch, pyLift, Except.map, Branch.toObj, mkBV_bv,
          pure, Except.pure, StateT.pure, e1]
    · rw [if_neg hk, if_neg hk]
      have hr : returnType c (.bv X) (.bv Y) i = .ok (.vec (.poly i X.kind Y.kind c) X.size, i + 1) := by
        simp [returnType, hk, hs, polyVector, bind, StateT.bind, Except.bind, pure, StateT.pure, Except.pure]
      cases c
      · simp [iteBV, ite, bind, StateT.bind, hr, Except.bind, pushIte, coerceBranch, pyLift, Except.map, Branch.toObj, mkBV_bv,
          pure, Except.pure, StateT.pure, hs, e2]
      · simp [iteBV, ite, bind, StateT.bind, hr, Except.bind, pushIte, coerceBranch, pyLift, Except.map, Branch.toObj, mkBV_bv,
          pure, Except.pure, StateT.pure, e1]
  · rw [if_neg hs]
    have hr : returnType c (.bv X) (.bv Y) i = .error .inconsistentSize := by
      simp only [returnType, hs, and_false, if_false, bind, StateT.bind, polyVector, ne_eq, not_false_iff, if_true, Except.bind]
    simp only [iteBV, ite, bind, StateT.bind, hr, Except.bind]

theorem siteBV_all {c : Term} {C : Bool} {x y : SBV} {X Y : BVal} (hc : Smt.DenBit e c C) (hx : Smt.Den e x X)
    (hy : Smt.Den e y Y) (i : Nat) :
    if x.size = y.size then ∃ v, siteBV S c x y i = .ok (v, if x.kind = y.kind then i else i + 1) ∧
        v.kind = (if x.kind = y.kind then x.kind else .poly i x.kind y.kind c) ∧ v.size = x.size ∧
        ∀ K, v.kind.At e K → Smt.Den e v ⟨K, X.size, if C then X.value else Y.value⟩
    else siteBV S c x y i = .error .inconsistentSize := by
  have sx : X.size = x.size := hx.2.1
  by_cases hz : x.size = y.size
  · rw [if_pos hz]
    by_cases hk : x.kind = y.kind
    · rw [if_pos hk, if_pos hk]
      obtain ⟨t, o, h1, h2, h3, h4⟩ := bv_ite (S := S) hc hx hy hz hx.1
      obtain ⟨k1, k2⟩ := bvF_kind h2
      refine ⟨o, ?_, k1, h4, fun K hK => ?_⟩
      · have hr : sreturnType c (.bv x) (.bv y) i = .ok (.vec x.kind x.size, i) := by
          simp only [sreturnType, hk, hz, and_self, if_true]; rfl
        have hp : spushIte c (.bv x) (.bv y) = .ok (.term t) := by simp only [spushIte, smtIte, h1, ok_bind]; rfl
        have hb : scoerceBranch S (.vec x.kind x.size) (.term t) = .ok (.bv o) := by
          simp only [scoerceBranch, h2, ok_bind]; rfl
        simp only [siteBV, sIte, bind, StateT.bind, hr, Except.bind, pyLift, hp, Except.map, hb]; rfl
      · rw [h3.1.unique hK] at h3
        rw [sx]
        cases C <;> exact h3
    · rw [if_neg hk, if_neg hk]
      have hP : (SKind.poly i x.kind y.kind c).At e (.poly i X.kind Y.kind C) := ⟨_, _, C, hx.1, hy.1, hc, rfl⟩
      obtain ⟨t, o, h1, h2, h3, h4⟩ := bv_ite (S := S) hc hx hy hz hP
      obtain ⟨k1, k2⟩ := bvF_kind h2
      refine ⟨o, ?_, k1, h4, fun K hK => ?_⟩
      · have hr : sreturnType c (.bv x) (.bv y) i = .ok (.vec (.poly i x.kind y.kind c) x.size, i + 1) := by
          simp only [sreturnType, hk, false_and, if_false, bind, StateT.bind, spolyVector, hz, ne_eq, not_true]; rfl
        have hp : spushIte c (.bv x) (.bv y) = .ok (.term t) := by simp only [spushIte, smtIte, h1, ok_bind]; rfl
        have hb : scoerceBranch S (.vec (.poly i x.kind y.kind c) x.size) (.term t) = .ok (.bv o) := by
          simp only [scoerceBranch, h2, ok_bind]; rfl
        simp only [siteBV, sIte, bind, StateT.bind, hr, Except.bind, pyLift, hp, Except.map, hb]; rfl
      · rw [k1] at hK
        cases hP.unique hK
        rw [sx]
        cases C <;> exact h3
  · rw [if_neg hz]
    have hr : sreturnType c (.bv x) (.bv y) i = .error .inconsistentSize := by
      simp only [sreturnType, hz, and_false, if_false, bind, StateT.bind, spolyVector, ne_eq, not_false_iff, if_true, Except.bind]
    simp only [siteBV, sIte, bind, StateT.bind, hr, Except.bind]

theorem Known.mono {D D' : Nat → SKind} {i j : Nat} (hij : i ≤ j) (hD : ∀ m < i, D' m = D m) :
    ∀ {k : SKind}, Known D i k → Known D' j k
  | .root _, _ => trivial
  | .poly id t f sel, ⟨h1, h2, h3, h4⟩ => ⟨by omega, (hD id h1).trans h2, h3.mono hij hD, h4.mono hij hD⟩

theorem siteBV_rel {c : Term} {C : Bool} {x y : SBV} {X Y : BVal} (hc : Smt.DenBit e c C) (hx : PVec e D i x X)
    (hy : PVec e D i y Y) : RelP (· = ·) (PRes e D i) (siteBV S c x y i) (iteBV C X Y i) := by
  have hn := hx.2.1
  have he := At_eq_iff hx.2.2 hy.2.2 hx.1.1 hy.1.1
  have h := siteBV_all (S := S) hc hx.1 hy.1 i
  rw [iteBV_all C hx.1.WF hy.1.WF i, hx.1.2.1, hy.1.2.1]
  by_cases hz : x.size = y.size
  · rw [if_pos hz] at h ⊢
    obtain ⟨v, h1, h2, h3, h4⟩ := h
    rw [h1]
    by_cases hk : x.kind = y.kind
    · have hK := he.1 hk
      rw [if_pos hk, if_pos hK, if_pos hK]
      rw [if_pos hk] at h2
      have h5 := h4 X.kind (h2 ▸ hx.1.1)
      rw [hx.1.2.1] at h5
      exact ⟨rfl, Nat.le_refl _, D, ⟨h5, by dsimp only; omega, h2 ▸ hx.2.2⟩, fun _ _ => rfl⟩
    · have hK : ¬ X.kind = Y.kind := fun h => hk (he.2 h)
      rw [if_neg hk, if_neg hK, if_neg hK]
      rw [if_neg hk] at h2
      have h5 := h4 (.poly i X.kind Y.kind C) (h2 ▸ ⟨_, _, C, hx.1.1, hy.1.1, hc, rfl⟩)
      rw [hx.1.2.1] at h5
      have hD : ∀ m < i, (fun m => if m = i then SKind.poly i x.kind y.kind c else D m) m = D m :=
        fun m hm => if_neg (by omega)
      refine ⟨rfl, Nat.le_succ _, fun m => if m = i then .poly i x.kind y.kind c else D m, ⟨h5, by dsimp only; omega, ?_⟩, hD⟩
      dsimp only
      rw [h2]
      exact ⟨Nat.lt_succ_self _, if_pos rfl, hx.2.2.mono (Nat.le_succ _) hD, hy.2.2.mono (Nat.le_succ _) hD⟩
  · rw [if_neg hz] at h ⊢
    rw [h]
    exact rfl

theorem refSmt_eq {s : Bool} {op : AOp} (h : ¬ (s = true ∧ (op = .fdiv ∨ op = .mod))) (n : Nat) (a b : Int) :
    Spec.refSmt s op n a b = Spec.refA s op n a b := by
  unfold Spec.refSmt
  rw [if_neg (fun g => h ⟨g.1, .inl g.2⟩), if_neg (fun g => h ⟨g.1, .inr g.2⟩)]

/-! `>>` with a right operand of a proper subclass. -/

/-- The function a symbolic class finds under a name denotes that of the concrete class. -/
def ImplRel (e : Smt.Env) : SImpl → Impl → Prop
  | .uns, .uns => True
  | .sgn, .sgn => True
  | .vcall id sel a b, .vcall id' C A B => id = id' ∧ Smt.DenBit e sel C ∧ ImplRel e a A ∧ ImplRel e b B
  | _, _ => False

theorem ImplRel.fun : ∀ {a : SImpl} {A B : Impl}, ImplRel e a A → ImplRel e a B → A = B
  | .uns, .uns, .uns, _, _ => rfl
  | .sgn, .sgn, .sgn, _, _ => rfl
  | .vcall _ _ _ _, .vcall _ _ _ _, .vcall _ _ _ _, ⟨h1, h2, h3, h4⟩, ⟨g1, g2, g3, g4⟩ => by
    cases h1.symm.trans g1
    have := h2.symm.trans g2
    cases this
    rw [h3.fun g3, h4.fun g4]

/-- The functions come from classes known. -/
def KnownI (D : Nat → SKind) : SImpl → Prop
  | .vcall id sel a b => ∃ t f, D id = .poly id t f sel ∧ a = t.slot ∧ b = f.slot
  | _ => True

theorem slot_known : ∀ {k : SKind}, Known D i k → KnownI D k.slot
  | .root r, _ => by cases r <;> trivial
  | .poly id t f sel, ⟨_, h2, h3, h4⟩ => by
    unfold SKind.slot
    split
    · exact slot_known h3
    · exact ⟨t, f, h2, rfl, rfl⟩

theorem ImplRel.inj {a b : SImpl} {A : Impl} (ha : KnownI D a) (hb : KnownI D b) (h1 : ImplRel e a A) (h2 : ImplRel e b A) :
    a = b := by
  cases a <;> cases b <;> cases A <;> first | rfl | exact h1.elim | exact h2.elim | skip
  obtain ⟨t, f, g1, g2, g3⟩ := ha
  obtain ⟨t', f', g1', g2', g3'⟩ := hb
  obtain ⟨rfl, -⟩ := h1
  obtain ⟨rfl, -⟩ := h2
  rw [g1] at g1'
  cases g1'
  rw [g2, g3, g2', g3']

theorem slot_rel : ∀ {k : SKind} {K : Kind}, Known D i k → k.At e K → ImplRel e k.slot K.slot
  | .root r, _, _, h => by cases h; cases r <;> trivial
  | .poly id t f sel, _, ⟨h1, h2, h3, h4⟩, h => by
    obtain ⟨T, F, b, ht, hf, hb, rfl⟩ := h
    have r1 := slot_rel h3 ht
    have r2 := slot_rel h4 hf
    unfold SKind.slot Kind.slot
    by_cases hs : t.slot = f.slot
    · have hS : T.slot = F.slot := r1.fun (hs ▸ r2)
      rw [if_pos hs, if_pos hS]
      exact r1
    · have hS : ¬ T.slot = F.slot := fun h => hs (r1.inj (slot_known h3) (slot_known h4) (h ▸ r2))
      rw [if_neg hs, if_neg hS]
      exact ⟨rfl, hb, r1, r2⟩

theorem PVec.mono {D D' : Nat → SKind} {i j : Nat} (hij : i ≤ j) (hD : ∀ m < i, D' m = D m) {x : SBV} {X : BVal}
    (h : PVec e D i x X) : PVec e D' j x X := ⟨h.1, h.2.1, h.2.2.mono hij hD⟩

theorem srev_shr_rel {x y : SBV} {X Y : BVal} (hz : y.size = x.size) : ∀ {im : SImpl} {Im : Impl}, ImplRel e im Im →
    ∀ {D : Nat → SKind} {i : Nat}, PVec e D i x X → PVec e D i y Y →
    ∃ v V j, AOp.srev S .shr im y (.bv x) i = .ok (some v, j) ∧ AOp.rev .shr Im Y (.bv X) i = .ok (some V, j) ∧
      v.size = x.size ∧ PRes e D i (v, j) (V, j) := by
  intro im
  induction im with
  | uns =>
    intro Im h D i hx hy
    cases Im <;> first | exact h.elim | skip
    have hn := hy.2.1
    have sx : X.size = x.size := hx.1.2.1
    have sy : Y.size = y.size := hy.1.2.1
    have hop : Spec.operand Y.size (.bv X) = .ok X.value := by simp [Spec.operand]; omega
    obtain ⟨v, h1, h2, h3, h4⟩ := sfwd_ref (S := S) .shr hy.1 hn (.bv hx.1) trivial hop i (im := .uns) (s := false) rfl
    have g := fwd_ref .shr .uns hy.1.WF (by omega) (o := .bv X) hx.1.WF hop i
    rw [refSmt_eq (by simp)] at h2
    exact ⟨v, _, i, by simp only [AOp.srev, if_true]; exact h1, by simp only [AOp.rev, if_true]; exact g, h4.trans hz,
      .same ⟨h2, by omega, h3 ▸ hy.2.2⟩⟩
  | sgn =>
    intro Im h D i hx hy
    cases Im <;> first | exact h.elim | skip
    have hn := hx.2.1
    have sx : X.size = x.size := hx.1.2.1
    have sy : Y.size = y.size := hy.1.2.1
    have hop : Spec.operand X.size (.bv Y) = .ok Y.value := by simp [Spec.operand]; omega
    obtain ⟨v, h1, h2, h3, h4⟩ := sfwd_ref (S := S) .shr hx.1 hn (.bv hy.1) trivial hop i (im := .sgn) (s := true) rfl
    have g := fwd_ref .shr .sgn hx.1.WF (by omega) (o := .bv Y) hy.1.WF hop i
    have c1 : scoerce S y.kind y.size (.bv x) = .ok x := by simp [scoerce]; omega
    have c2 : coerce Y.kind Y.size (.bv X) = .ok X := by simp [coerce]; omega
    rw [refSmt_eq (by simp)] at h2
    exact ⟨v, _, i, by simp only [AOp.srev, c1]; exact h1, by simp only [AOp.rev, c2]; exact g, h4,
      .same ⟨h2, by omega, h3 ▸ hx.2.2⟩⟩
  | vcall id sel a b iha ihb =>
    intro Im h D i hx hy
    cases Im <;> first | exact h.elim | skip
    obtain ⟨-, hc, ha, hb⟩ := h
    obtain ⟨v0, V0, j0, a1, a2, a3, -, a4, D0, a5, a6⟩ := iha ha hx hy
    obtain ⟨v1, V1, j1, b1, b2, b3, -, b4, D1, b5, b6⟩ := ihb hb (hx.mono a4 a6) (hy.mono a4 a6)
    have p0 := a5.mono b4 b6
    have hr := siteBV_rel (S := S) hc p0 b5
    have hs := siteBV_all (S := S) hc p0.1 b5.1 j1
    rw [if_pos (a3.trans b3.symm)] at hs
    obtain ⟨v, c1, -, c2, -⟩ := hs
    obtain ⟨R, d1, d2, d3, D2, d4, d5⟩ := hr.ok_left c1
    dsimp only at a4 b4 a6 b6 d2 d3 d4
    refine ⟨v, R.1, R.2, ?_, ?_, c2.trans a3, rfl, ?_, D2, ?_, ?_⟩
    · simp only [AOp.srev, bind, StateT.bind, a1, b1, Except.bind, c1, ← d2]; rfl
    · simp only [AOp.rev, bind, StateT.bind, a2, b2, Except.bind, d1]; rfl
    · dsimp only; omega
    · dsimp only; rw [← d2]; exact d4
    · intro m hm
      rw [d5 m (by omega), b6 m (by omega), a6 m hm]


/-- Bits and ints as right operands. -/
theorem foreign_A {x : BVal} (hx : x.WF) (hn : 0 < x.size) {o : Obj} (ho : o.WF) {b : Int}
    (hb : Spec.operand x.size o = .ok b) (hno : ∀ y, o ≠ .bv y) (i : Nat) :
    (∀ op, binA op (.bv x) o i =
      .ok (.bv ⟨x.kind, x.size, Spec.refA (Spec.readsSigned x.kind) op x.size x.value b⟩, i)) ∧
    (∀ op, binC op (.bv x) o = .ok (.bit (Spec.refC (Spec.readsSigned x.kind) op x.size x.value b))) := by
  have hf (op : AOp) := fwd_ref op (op.slot x.kind) hx hn ho hb i
  have hc (op : COp) := cfwd_ref op (op.slot x.kind) hx hn ho hb
  simp only [slot_signed_ref] at hf
  simp only [cslot_signed_ref] at hc
  exact ⟨fun op => binA_fwd (fun y h => (hno y h).elim) (hf op), fun op => binC_fwd (fun y h => (hno y h).elim) (hc op)⟩

theorem opA_rel (op : AOp) {x : SBV} {X : BVal} {o : Opnd SBV Term} {p : Opnd BVal Bool} (hx : PVec e D i x X)
    (ho : OpndRel (PVec e D i) (Smt.DenBit e) o p) (hok : okA concretePF op X p = true) :
    RelP (· = ·) (PRes e D i) (sbinA S op x (sObj o) i) (cOpAP op X (cObj p) i) := by
  have hn := hx.2.1
  have sx : X.size = x.size := hx.1.2.1
  have foreign : ∀ {o : SObj} {O : Obj} {b : Int}, Smt.DenObj e o O → o.Fits x.size → (∀ y, o ≠ .bv y) → (∀ y, O ≠ .bv y) →
      Spec.operand X.size O = .ok b → ¬ (Spec.readsSigned X.kind = true ∧ (op = .fdiv ∨ op = .mod)) →
      RelP (· = ·) (PRes e D i) (sbinA S op x o i) (cOpAP op X O i) := by
    intro o O b hd hf hno hnO hb hs
    obtain ⟨v, h1, h2, h3⟩ := (C115_operators S hx.1 hn hd hf hno hb i).1 op
    have g := (foreign_A hx.1.WF (by omega) hd.WF hb hnO i).1 op
    rw [h1]
    simp only [cOpAP, g, bind, Except.bind]
    rw [refSmt_eq hs] at h3
    exact .same ⟨h3, by have : X.size = v.size := h3.2.1; exact this ▸ sx ▸ hn, h2 ▸ hx.2.2⟩
  cases ho with
  | @vec y Y hy =>
    have sy : Y.size = y.size := hy.1.2.1
    by_cases hz : y.size = x.size
    · have hps := hx.sub hy
      simp only [okA, concretePF, Bool.and_eq_true, Bool.or_eq_true, Bool.not_eq_true'] at hok
      have hdiv := hok
      by_cases hshr : y.properSub x = true ∧ op = .shr
      · obtain ⟨hp, rfl⟩ := hshr
        have r1 := slot_rel hx.2.2 hx.1.1
        have r2 := slot_rel hy.2.2 hy.1.1
        have hP : Y.properSub X = true := hps ▸ hp
        by_cases hsl : y.kind.slot = x.kind.slot
        · have hSl : Y.kind.slot = X.kind.slot := (hsl ▸ r2).fun r1
          have hop : Spec.operand X.size (.bv Y) = .ok Y.value := by simp [Spec.operand]; omega
          obtain ⟨v, h1, h2, h3, h4⟩ := sfwd_ref (S := S) .shr hx.1 hn (.bv hy.1) trivial hop i (slot_reads hx.1.1)
          have g := fwd_ref .shr X.kind.slot hx.1.WF (by omega) (o := .bv Y) hy.1.WF hop i
          have e1 := sbinA_fwd (S := S) (op := .shr) (x := x) (v := v) (i := i) (j := i) (o := .bv y) (by rintro _ ⟨⟩; simp [AOp.sslot, AOp.signDep, hsl])
            (by simpa [AOp.sslot, AOp.signDep] using h1)
          have e2 := binA_fwd (op := .shr) (x := X) (o := .bv Y) (by rintro _ ⟨⟩; simp [AOp.slot, AOp.signDep, hSl])
            (by simpa [AOp.slot, AOp.signDep] using g)
          rw [show sbinA S .shr x (sObj (.vec y)) i = _ from e1]
          simp only [cOpAP, cObj, e2, bind, Except.bind]
          rw [refSmt_eq (by simp), ← slot_signed] at h2
          exact .same ⟨h2, by omega, h3 ▸ hx.2.2⟩
        · have hSl : ¬ Y.kind.slot = X.kind.slot := fun h => hsl (r2.inj (slot_known hy.2.2) (slot_known hx.2.2) (h ▸ r1))
          obtain ⟨v, V, j, h1, h2, -, h3⟩ := srev_shr_rel (S := S) hz r2 hx hy
          have e1 : sbinA S .shr x (.bv y) i = .ok (v, j) := by
            have : (SBV.properSub y x && AOp.sslot .shr y.kind != AOp.sslot .shr x.kind) = true := by
              simp [hp, AOp.sslot, AOp.signDep, hsl]
            simp only [sbinA, this, if_true, bind, StateT.bind]
            simp only [AOp.sslot, AOp.signDep, if_true, h1, Except.bind]; rfl
          have e2 := binA_rev_first (op := .shr) (x := X) (y := Y) (by simp [hP, AOp.slot, AOp.signDep, hSl])
            (by simpa [AOp.slot, AOp.signDep] using h2)
          rw [show sbinA S .shr x (sObj (.vec y)) i = _ from e1]
          simp only [cOpAP, cObj, e2, bind, Except.bind]
          exact h3
      have hsh : SBV.properSub y x = true → op ≠ .shr := fun h h' => hshr ⟨h, h'⟩
      obtain ⟨v, h1, h2, h3⟩ := (svectors_ref S hx.1 hy.1 hn hz i).1 op hsh
      have g := (vectors_ref hx.1.WF hy.1.WF (by omega) (by omega) i).1 op (by rw [← hps]; exact hsh)
      rw [show sbinA S op x (sObj (.vec y)) i = .ok (v, i) from h1]
      simp only [cOpAP, cObj, g, bind, Except.bind]
      rw [hps, refSmt_eq] at h3
      · exact .same ⟨h3, by have : X.size = v.size := h3.2.1; exact this ▸ sx ▸ hn, h2 ▸ hx.2.2⟩
      · rintro ⟨hs, hop⟩
        rcases hdiv with h' | ⟨h', h''⟩
        · rcases hop with rfl | rfl <;> simp at h'
        · rw [maybe_reads h', maybe_reads h''] at hs
          simp at hs
    · have h1 := (C115_widths S hx.1 hy.1 hn hz i).1 op
      have g := (C29_widths hx.1.WF hy.1.WF (by omega) (by omega) i).1 op
      rw [show sbinA S op x (sObj (.vec y)) i = _ from h1]
      simp only [cOpAP, cObj, g, bind, Except.bind]
      exact rfl
  | @bit b B hb =>
    have hs : ¬ (Spec.readsSigned X.kind = true ∧ (op = .fdiv ∨ op = .mod)) := by
      rintro ⟨hs, hop⟩
      simp only [okA, concretePF, Bool.or_eq_true, Bool.not_eq_true'] at hok
      rcases hok with h | h
      · rcases hop with rfl | rfl <;> simp at h
      · rw [maybe_reads h] at hs; cases hs
    exact foreign (O := .bit B) (.bit hb) trivial nofun nofun rfl hs
  | @int v =>
    have hs : ¬ (Spec.readsSigned X.kind = true ∧ (op = .fdiv ∨ op = .mod)) := by
      rintro ⟨hs, hop⟩
      simp only [okA, concretePF, Bool.or_eq_true, Bool.not_eq_true'] at hok
      rcases hok with h | h
      · rcases hop with rfl | rfl <;> simp at h
      · rw [maybe_reads h] at hs; cases hs
    exact foreign (O := .int v) .int trivial nofun nofun rfl hs

theorem opC_rel (op : COp) {x : SBV} {X : BVal} {o : Opnd SBV Term} {p : Opnd BVal Bool} (hx : PVec e D i x X)
    (ho : OpndRel (PVec e D i) (Smt.DenBit e) o p) :
    RelP (· = ·) (Smt.DenBit e) (sbinC S op x (sObj o) >>= iBit) (cOpC op X (cObj p)) := by
  have hn := hx.2.1
  have sx : X.size = x.size := hx.1.2.1
  have foreign : ∀ {o : SObj} {O : Obj} {b : Int}, Smt.DenObj e o O → o.Fits x.size → (∀ y, o ≠ .bv y) → (∀ y, O ≠ .bv y) →
      Spec.operand X.size O = .ok b → RelP (· = ·) (Smt.DenBit e) (sbinC S op x o >>= iBit) (cOpC op X O) := by
    intro o O b hd hf hno hnO hb
    obtain ⟨v, h1, h2⟩ := (C115_operators S hx.1 hn hd hf hno hb i).2 op
    have g := (foreign_A hx.1.WF (by omega) hd.WF hb hnO i).2 op
    rw [h1]
    simp only [cOpC, g, bind, Except.bind]
    exact h2
  cases ho with
  | @vec y Y hy =>
    have sy : Y.size = y.size := hy.1.2.1
    by_cases hz : y.size = x.size
    · obtain ⟨v, h1, h2⟩ := (svectors_ref S hx.1 hy.1 hn hz i).2 op
      have g := (vectors_ref hx.1.WF hy.1.WF (by omega) (by omega) i).2 op
      rw [show sbinC S op x (sObj (.vec y)) = .ok (.sym v) from h1]
      simp only [cOpC, cObj, g, bind, Except.bind]
      rw [hx.sub hy] at h2
      exact h2
    · have h1 := (C115_widths S hx.1 hy.1 hn hz i).2 op
      have g := (C29_widths hx.1.WF hy.1.WF (by omega) (by omega) i).2 op
      rw [show sbinC S op x (sObj (.vec y)) = _ from h1]
      simp only [cOpC, cObj, g, bind, Except.bind]
      exact rfl
  | @bit b B hb => exact foreign (O := .bit B) (.bit hb) trivial nofun nofun rfl
  | @int v => exact foreign (O := .int v) .int trivial nofun nofun rfl

theorem ext_rel {x : SBV} {X : BVal} {k : Int} (hx : PVec e D i x X) (hk : 1 ≤ k) :
    RelP (· = ·) (PRes e D i) (x.ext S k i) (X.ext k i) := by
  have hn := hx.2.1
  have sx : X.size = x.size := hx.1.2.1
  have h := C115_ext S hx.1 k i
  rw [if_pos (by omega)] at h
  obtain ⟨v, h1, h2, h3⟩ := h
  obtain ⟨Y, g1, g2⟩ := C29_ext_partial hx.1.WF (by omega) k hk i
  rw [h1, g2]
  have : Y = ⟨X.kind, X.size + k.toNat,
      if Spec.readsSigned X.kind then Spec.wrap (X.size + k.toNat) (Spec.signed X.size X.value) else X.value⟩ := by
    cases hs : Spec.readsSigned X.kind with
    | false =>
      rw [hs, if_neg (by decide), C17_zext hx.1.WF, if_neg (by omega)] at g1
      cases g1; rfl
    | true =>
      rw [hs, if_pos rfl] at g1
      obtain ⟨s, s1, s2, s3, s4, s5⟩ := C18_sext_partial hx.1.WF (by omega) k hk
      rw [s1] at g1
      cases g1
      obtain ⟨s6, s7⟩ := s5
      rw [s7, asSint_eq s4, if_neg (by omega)] at s6
      have s6 := Except.ok.inj s6
      have hv : Y.value = Spec.wrap Y.size (Spec.signed Y.size Y.value) := by
        have := s4.1
        have := s4.2
        unfold Spec.wrap Spec.signed
        split
        · rw [Int.emod_eq_of_lt] <;> assumption
        · rw [Int.sub_emod_right, Int.emod_eq_of_lt] <;> assumption
      rw [s6, s3] at hv
      rw [if_pos rfl, ← hv, ← s2, ← s3]
  subst this
  exact .same ⟨h3, by have : X.size + k.toNat = v.size := h3.2.1; omega, h2 ▸ hx.2.2⟩

/-! ### Runs -/

/-- Related values, and the same number of classes made. -/
def PSt (e : Smt.Env) (S : Simplifier) (s : PState (smtPF S)) (t : PState concretePF) : Prop :=
  s.2 = t.2 ∧ ∃ D, List.Forall₂ (RegRel (PVec e D s.2) (Smt.DenBit e)) s.1 t.1

theorem regs_mono {D D' : Nat → SKind} {i j : Nat} (hij : i ≤ j) (hD : ∀ m < i, D' m = D m)
    {s : List (Reg SBV Term)} {t : List (Reg BVal Bool)} (h : List.Forall₂ (RegRel (PVec e D i) (Smt.DenBit e)) s t) :
    List.Forall₂ (RegRel (PVec e D' j) (Smt.DenBit e)) s t := by
  refine h.imp fun a b hab => ?_
  cases hab with
  | vec h => exact .vec ⟨h.1, h.2.1, h.2.2.mono hij hD⟩
  | bit h => exact .bit h

theorem okA_rel (op : AOp) {x : SBV} {X : BVal} {o : Opnd SBV Term} {p : Opnd BVal Bool} (hx : PVec e D i x X)
    (ho : OpndRel (PVec e D i) (Smt.DenBit e) o p) : okA (smtPF S) op x o = okA concretePF op X p := by
  have h1 := At_maybe hx.1.1
  cases ho with
  | vec hy => simp only [okA, smtPF, concretePF, h1, At_maybe hy.1.1]
  | bit => simp only [okA, smtPF, concretePF, h1]
  | int => simp only [okA, smtPF, concretePF, h1]

theorem pstep_rel {s : PState (smtPF S)} {t : PState concretePF} (h : PSt e S s t) (j : PInstr) :
    RelP (· = ·) (PSt e S) (pstep (smtPF S) s j) (pstep concretePF t j) := by
  obtain ⟨s, i⟩ := s
  obtain ⟨t, i'⟩ := t
  obtain ⟨h0, D, h⟩ := h
  cases h0
  have H := basic_sim e S D i
  have okV : ∀ {m : PyM (SBV × Nat)} {M : PyM (BVal × Nat)}, RelP (· = ·) (PRes e D i) m M →
      RelP (· = ·) (PSt e S) (do let r ← m; return (putV (smtPF S).base s r.1, r.2))
        (do let r ← M; return (putV concretePF.base t r.1, r.2)) := by
    intro m M hm
    refine hm.bind fun a b hab => ?_
    obtain ⟨a, n⟩ := a
    obtain ⟨b, n'⟩ := b
    obtain ⟨h1, h2, D', h3, h4⟩ := hab
    dsimp only at h1 h2 h3
    subst h1
    exact ⟨rfl, D', Sim.putV_rel (F := basic (smt S)) (G := basic concrete) (regs_mono h2 h4 h) h3⟩
  cases j with
  | op k => exact (H.step_rel h k).bind fun a b hab => ⟨rfl, D, hab⟩
  | opA op x y =>
    refine (H.readV_rel h x).bind fun a b hx => (H.readArg_rel h y).bind fun o p ho => ?_
    exact H.check_rel (by rw [okA_rel op hx ho]) fun hc => okV (opA_rel op hx ho hc)
  | opC op x y =>
    refine (H.readV_rel h x).bind fun a b hx => (H.readArg_rel h y).bind fun o p ho => ?_
    exact (opC_rel op hx ho).bind fun u v huv => ⟨rfl, D, Sim.putB_rel (F := basic (smt S)) (G := basic concrete) h huv⟩
  | ext x k =>
    exact (H.readV_rel h x).bind fun a b hx => H.check_rel Iff.rfl fun hk => okV (ext_rel hx hk)
  | ite c x y =>
    refine (H.readB_rel h c).bind fun c d hc => (H.readV_rel h x).bind fun a b hx => (H.readV_rel h y).bind fun a' b' hy => ?_
    exact okV (siteBV_rel hc hx hy)

theorem prun_rel (p : List PInstr) : ∀ {s : PState (smtPF S)} {t : PState concretePF}, PSt e S s t →
    RelP (· = ·) (PSt e S) (prun (smtPF S) s p) (prun concretePF t p) := by
  induction p with
  | nil => intro s t h; exact h
  | cons j p ih => intro s t h; exact (pstep_rel h j).bind fun a b hab => ih hab

end
end HW.Circuit
