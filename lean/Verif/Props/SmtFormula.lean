import Verif.Model.Smt.Formula
import Verif.Props.SmtStruct
import Verif.Props.SmtBit
import Verif.Lemmas.CircuitFamilies

/-!
# Property C139: pysmt formulas as values and operands

`Term.eval` is the meaning of a formula.  The statements hold for every simplifier that preserves sort and meaning.
-/

namespace HW
open Spec Smt

section
variable (S : Simplifier)

/-- **C139** a vector class takes the formulas of its sort, and the vector means what the formula means. -/
theorem C139_construct (k : SKind) (n : Nat) (t : Term) (h : t.ty? = some (.bv n)) :
    ∃ x, mkN S k n (.formula t) = .ok x ∧ x.kind = k ∧ x.size = n ∧ x.value.ty? = some (.bv n) ∧
      ∀ e, x.value.eval e = t.eval e := by
  refine ⟨⟨k, n, S.run t⟩, by simp [mkN, bvF, h], rfl, rfl, S.ty _ _ h, fun e => ?_⟩
  obtain ⟨v, hv, _⟩ := ty_eval e h
  rw [hv]; exact S.eval _ _ _ hv

/-- **C139** ... and no others. -/
theorem C139_construct_raises (k : SKind) (n : Nat) (t : Term) (h : t.ty? ≠ some (.bv n)) :
    mkN S k n (.formula t) = .error .typeError := by simp [mkN, bvF, h]

example : mkN (k := .root .bv) S 8 (.formula (.sym ['x'] (.bv 4))) = .error .typeError :=
  C139_construct_raises S _ _ _ (by decide)

/-- **C139** `SMTBit` takes the Boolean formulas. -/
theorem C139_bit (t : Term) :
    (t.ty? = some .bool → ∃ b, mkBitN S (.formula t) = .ok b ∧ ∀ e, b.eval e = t.eval e) ∧
    (t.ty? ≠ some .bool → mkBitN S (.formula t) = .error .typeError) := by
  refine ⟨fun h => ⟨S.run t, by simp [mkBitN, bitF, h], fun e => ?_⟩, fun h => by simp [mkBitN, bitF, h]⟩
  obtain ⟨v, hv, _⟩ := ty_eval e h
  rw [hv]; exact S.eval _ _ _ hv

/-- **C139** `T(x.value)` and, for another class of the same width, `U(x.value)` denote what `x` denotes. -/
theorem C139_roundtrip {e : Env} {x : SBV} {X : BVal} (r : Root) (h : Den e x X) :
    ∃ y, mkN S (.root r) x.size (.formula x.value) = .ok y ∧ Den e y ⟨.root r, X.size, X.value⟩ := by
  obtain ⟨_, h2, b, h3, h4⟩ := h
  obtain ⟨y, h5, _, _, h6⟩ := bvF_den (S := S) (k := .root r) (K := .root r) (e := e) rfl h3
  refine ⟨y, h5, ?_⟩
  rw [h2, h4]; exact h6

/-! ## Operands -/

/-- The formula `t` is a vector of `n` bits with the value `v` under `e`. -/
def IsVec (e : Env) (t : Term) (n : Nat) (v : Int) : Prop := ∃ b : BitVec n, t.eval e = some (.bv n b) ∧ v = b.toNat

variable {S}
theorem coerceN_den {e : Env} {k : SKind} {K : Kind} {n : Nat} {t : Term} {v : Int} (hk : k.At e K) (ht : IsVec e t n v) :
    ∃ y, coerceN S k n (.formula t) = .ok y ∧ y.size = n ∧ Den e y ⟨K, n, v⟩ := by
  obtain ⟨b, h1, rfl⟩ := ht
  obtain ⟨y, h2, h3, _, h4⟩ := bvF_den (S := S) hk h1
  exact ⟨y, h2, h3, h4⟩

theorem methodN_rel {α β : Type} {R : α → β → Prop} {m : SBV → SObj → PyM α} {M : BVal → Obj → PyM β} {e : Env} {x : SBV}
    {X : BVal} {t : Term} {v : Int} (hx : Den e x X) (ht : IsVec e t x.size v)
    (h : ∀ y, y.size = x.size → Den e y ⟨X.kind, X.size, v⟩ → RelM R (m x (.bv y)) (M X (.bv ⟨X.kind, X.size, v⟩))) :
    RelM R (x.methodN S m (.formula t)) (M X (.bv ⟨X.kind, X.size, v⟩)) := by
  obtain ⟨y, h1, h2, h3⟩ := coerceN_den (S := S) hx.1 ht
  simp only [SBV.methodN, h1, bind, Except.bind]
  exact h y h2 (by rw [hx.2.1]; exact h3)
variable (S)

/-- **C139** a method with a formula as operand computes what the concrete method computes from its value. -/
theorem C139_methods (op : Circuit.Bin) {e : Env} {x : SBV} {X : BVal} {t : Term} {v : Int} (hx : Den e x X)
    (hn : 0 < x.size) (ht : IsVec e t x.size v) :
    RelM (Den e) (x.methodN S (Circuit.sBin S op) (.formula t)) (Circuit.cBin op X (.bv ⟨X.kind, X.size, v⟩)) :=
  methodN_rel hx ht fun _ _ hy => Circuit.sBin_hom op e _ _ _ _ hx (.bv hy) hn trivial

/-- **C139** ... so do comparisons. -/
theorem C139_comparisons (op : Circuit.Cmp) {e : Env} {x : SBV} {X : BVal} {t : Term} {v : Int} (hx : Den e x X)
    (hn : 0 < x.size) (ht : IsVec e t x.size v) :
    RelM (DenBit e) (x.methodN S (Circuit.sCmp S op) (.formula t)) (Circuit.cCmp op X (.bv ⟨X.kind, X.size, v⟩)) :=
  methodN_rel hx ht fun _ _ hy => Circuit.sCmp_hom op e _ _ _ _ hx (.bv hy) hn trivial

/-- **C139** `x op t`; the operator of the vector does it, pysmt is not asked. -/
theorem C139_operators_partial (op : AOp) {e : Env} {r : Root} {x : SBV} {X : BVal} {t : Term} {v : Int}
    (hop : ¬ (r = .sint ∧ (op = .fdiv ∨ op = .mod))) (hk : x.kind = .root r) (hx : Den e x X) (hn : 0 < x.size)
    (ht : IsVec e t x.size v) (i : Nat) :
    ∃ z Z, opN S op r x (.formula t) = .ok (some z) ∧ Den e z Z ∧
      binA op (.bv X) (.bv ⟨X.kind, X.size, v⟩) i = .ok (.bv Z, i) := by
  obtain ⟨y, h1, h2, h3⟩ := coerceN_den (S := S) hx.1 ht
  rw [← hx.2.1] at h3
  have hyk : y.kind = .root r := by
    have := h1; rw [hk] at this; exact (bvF_ty this).1
  have hop' : ¬ ((r = .sint ∨ r = .sint) ∧ (op = .fdiv ∨ op = .mod)) := fun h => hop ⟨h.1.elim id id, h.2⟩
  have hv := C75_vectors S op i hop' hk hyk hx h3 hn (by omega)
  have hr := fwd_ref op (AOp.slot op (.root r)) hx.WF (hx.2.1 ▸ hn) (o := .bv ⟨X.kind, X.size, v⟩) h3.WF
    (b := v) (by simp [operand]) i
  rcases fwd_rel S op i hop hx hn (.bv h3) trivial with ⟨a, b, g1, g2, g3⟩ | ⟨g1, g2⟩ | ⟨err, g1, g2⟩
  · have : svecVec S op r r x y = .ok a := by
      unfold svecVec
      rw [if_neg (fun h => h.1 ⟨rfl, h2.symm⟩)]
      simp only [g1, ok_bind]; rfl
    rw [this] at hv
    cases hb : binA op (.bv X) (.bv ⟨X.kind, X.size, v⟩) i with
    | error => rw [hb] at hv; exact hv.elim
    | ok p =>
      rw [hb] at hv
      obtain ⟨V, rfl, hV⟩ := hv
      refine ⟨a, V, ?_, hV, rfl⟩
      simp only [opN, SBV.methodN, h1, ok_bind]
      exact g1
  · rw [hr] at g2; cases g2
  · rw [hr] at g2; cases g2

/-- **C139** comparison operators with a formula. -/
theorem C139_compare (op : COp) {e : Env} {r : Root} {x : SBV} {X : BVal} {t : Term} {v : Int}
    (hk : x.kind = .root r) (hx : Den e x X) (hn : 0 < x.size) (ht : IsVec e t x.size v) :
    ∃ z b, cmpN S op r x (.formula t) = .ok (some z) ∧ DenBit e z b ∧
      binC op (.bv X) (.bv ⟨X.kind, X.size, v⟩) = .ok (.bit b) := by
  obtain ⟨y, h1, h2, h3⟩ := coerceN_den (S := S) hx.1 ht
  rw [← hx.2.1] at h3
  have hyk : y.kind = .root r := by
    have := h1; rw [hk] at this; exact (bvF_ty this).1
  have hv := C75_compare_vectors S op hk hyk hx h3 hn (by omega)
  have hr := cfwd_ref op (COp.slot op (.root r)) hx.WF (hx.2.1 ▸ hn) (o := .bv ⟨X.kind, X.size, v⟩) h3.WF
    (b := v) (by simp [operand])
  rcases fwdC_rel S (r := r) op hx hn (.bv h3) trivial with ⟨a, b, g1, g2, g3⟩ | ⟨g1, g2⟩ | ⟨err, g1, g2⟩
  · have : scmpVec S op r r x y = .ok (.sym a) := by
      unfold scmpVec
      rw [if_neg (fun h => h.1 ⟨rfl, h2.symm⟩)]
      simp only [g1, ok_bind]; rfl
    rw [this] at hv
    cases hb : binC op (.bv X) (.bv ⟨X.kind, X.size, v⟩) with
    | error => rw [hb] at hv; exact hv.elim
    | ok p =>
      rw [hb] at hv
      cases p with
      | bit c =>
        refine ⟨a, c, ?_, hv, rfl⟩
        simp only [cmpN, SBV.methodN, h1, ok_bind]
        exact g1
      | _ => exact hv.elim
  · rw [hr] at g2; cases g2
  · rw [hr] at g2; cases g2

/-- **C139** a formula of another sort: methods raise `TypeError`, operators return `NotImplemented`. -/
theorem C139_operand_raises (x : SBV) (t : Term) (h : t.ty? ≠ some (.bv x.size)) :
    (∀ op, x.methodN S (Circuit.sBin S op) (.formula t) = .error .typeError) ∧
    (∀ op, x.methodN S (Circuit.sCmp S op) (.formula t) = .error .typeError) ∧
    (∀ op r, opN S op r x (.formula t) = .ok none) ∧
    (∀ op r, cmpN S op r x (.formula t) = .ok none) := by
  have hc : coerceN S x.kind x.size (.formula t) = .error .typeError := C139_construct_raises S _ _ _ h
  have hm : ∀ {α : Type} (m : SBV → SObj → PyM α), x.methodN S m (.formula t) = .error .typeError := fun m => by
    simp only [SBV.methodN, hc]; rfl
  exact ⟨fun _ => hm _, fun _ => hm _, fun _ _ => by simp only [opN, hm]; rfl, fun _ _ => by simp only [cmpN, hm]; rfl⟩

/-- **C139** bits: a Boolean formula as the right operand. -/
theorem C139_bit_operators (op : BitOp) {e : Env} {a t : Term} {A B : Bool} (ha : DenBit e a A) (ht : t.eval e = some (.bool B)) :
    ∃ z, op.fwdN S a (.formula t) = .ok (some z) ∧ DenBit e z (op.meaning A B) := by
  obtain ⟨b, h1, h2⟩ := (bitF_rel (S := S) ht).ok_right
  obtain ⟨z, h3, h4⟩ := bitFwd_den (S := S) ha (o := .bit b) (.bit h2) op
  refine ⟨z, ?_, h4⟩
  simp only [BitOp.fwdN, mkBitN, h1]
  exact h3

/-- **C139** ... and a formula that is not Boolean gives `NotImplemented`. -/
theorem C139_bit_operand_raises (op : BitOp) (a t : Term) (h : t.ty? ≠ some .bool) :
    op.fwdN S a (.formula t) = .ok none := by
  simp only [BitOp.fwdN, (C139_bit S t).2 h]; rfl

/-- The carry: a formula of one bit, or an `SMTBit`. -/
inductive CarryIs (e : Env) : FObj → Bool → Prop
  | formula {t : Term} {b : Bool} : IsVec e t 1 (b2i b) → CarryIs e (.formula t) b
  | bit {t : Term} {b : Bool} : DenBit e t b → CarryIs e (.obj (.bit t)) b

/-- **C139** `adc` with a formula for the operand. -/
theorem C139_adc {e : Env} {x : SBV} {X : BVal} {t : Term} {c : FObj} {v : Int} {cin : Bool} (hx : Den e x X) (hn : 0 < x.size)
    (ht : IsVec e t x.size v) (hc : CarryIs e c cin) :
    ∃ s co R CO, x.adcN S (.formula t) c = .ok (s, co) ∧ Den e s R ∧ DenBit e co CO ∧ R.kind = X.kind ∧ R.size = X.size ∧
      R.value + (if CO then 2 ^ X.size else 0) = X.value + v + (if cin then 1 else 0) := by
  obtain ⟨y, h1, h2, h3⟩ := coerceN_den (S := S) hx.1 ht
  have hz : ∃ z, coerceN S x.kind 1 c = .ok z ∧ Den e z ⟨X.kind, 1, b2i cin⟩ := by
    cases hc with
    | formula h => obtain ⟨z, g1, g2, g3⟩ := coerceN_den (S := S) hx.1 h; exact ⟨z, g1, g3⟩
    | @bit u _ h =>
      have := scoerce_rel (S := S) (n := 1) (by omega) hx.1 (.bit h) (o := .bit u) trivial
      rw [show HW.coerce X.kind 1 (.bit cin) = .ok ⟨X.kind, 1, b2i cin⟩ by cases cin <;> rfl] at this
      obtain ⟨z, g1, g2, _⟩ := this.ok_right
      exact ⟨z, g1, g2⟩
  obtain ⟨z, g1, g3⟩ := hz
  rw [← hx.2.1] at h3
  have hrel := C36_adc S hx (.bv h3) (.bv g3) hn trivial trivial
  obtain ⟨R, CO, k1, k2, k3, k4, k5⟩ := C20_adc hx.WF (o := .bv ⟨X.kind, X.size, v⟩) (c := .bv ⟨X.kind, 1, b2i cin⟩) h3.WF g3.WF
    (b := v) (cin := b2i cin) (by simp [operand]) (by simp [operand])
  rw [k1] at hrel
  obtain ⟨⟨s, co⟩, j1, j2, j3⟩ := hrel.ok_right
  refine ⟨s, co, R, CO, ?_, j2, j3, k2, k3, by rw [k5]; cases cin <;> rfl⟩
  simp only [SBV.adcN, h1, g1, ok_bind]
  exact j1

/-- **C139** ... but it does not take a Boolean formula for the carry. -/
theorem C139_adc_bool_refuted {e : Env} {x : SBV} {X : BVal} {t c : Term} {v : Int} (hx : Den e x X)
    (ht : IsVec e t x.size v) (hc : c.ty? = some .bool) :
    x.adcN S (.formula t) (.formula c) = .error .typeError := by
  obtain ⟨y, h1, h2, h3⟩ := coerceN_den (S := S) hx.1 ht
  have : coerceN S x.kind 1 (.formula c) = .error .typeError := C139_construct_raises S _ _ _ (by rw [hc]; nofun)
  simp only [SBV.adcN, h1, this, ok_bind]
  rfl

/-! ## Sequences -/

/-- What an element of a sequence stands for. -/
def ElemIs (e : Env) : FElem → Bool → Prop
  | .formula t, b => IsVec e t 1 (b2i b)
  | .elem el, b => DenElem e el b ∧ ∀ v, el = .int v → v = 0 ∨ v = 1

theorem mkElemN_rel {e : Env} {k : SKind} {K : Kind} {el : FElem} {c : Bool} (hk : k.At e K) (h : ElemIs e el c) :
    ∃ s, mkElemN S k el = .ok s ∧ Den e s ⟨K, 1, b2i c⟩ ∧ s.kind = k ∧ s.size = 1 := by
  cases el with
  | formula t =>
    obtain ⟨y, h1, h2, h3⟩ := coerceN_den (S := S) hk h
    exact ⟨y, h1, h3, (bvF_ty h1).1, h2⟩
  | elem el =>
    obtain ⟨s, h1, h2⟩ := (mkElem_rel (S := S) hk h.1 h.2).ok_right
    exact ⟨s, h1, h2⟩

theorem concatElemsN_rel {e : Env} {k : SKind} {K : Kind} (hk : k.At e K) : ∀ {l : List FElem} {L : List Bool},
    List.Forall₂ (ElemIs e) l L → ∀ {x : SBV} {m : Nat} {v : Int}, Den e x ⟨K, m, v⟩ → x.kind = k →
    ∃ y, concatElemsN S k x l = .ok y ∧ Den e y ⟨K, m + L.length, v + ofBits L * 2 ^ m⟩
  | [], [], _, x, m, v, hx, _ => ⟨x, rfl, by simpa [ofBits] using hx⟩
  | el :: l, c :: L, .cons h1 h2, x, m, v, hx, hxk => by
    obtain ⟨y, hm, hy, hyk, hys⟩ := mkElemN_rel S hk h1
    obtain ⟨z, hcc, hz, hzk, hzs⟩ := (concat_rel' (S := S) hx hy hxk (by rw [hyk]; exact SKind.isSub_refl _)).ok_right
    obtain ⟨w, hw, hwd⟩ := concatElemsN_rel hk h2 hz hzk
    refine ⟨w, ?_, ?_⟩
    · rw [concatElemsN]; simp only [hm, hcc, ok_bind]; exact hw
    · simp only [List.length_cons, ofBits]
      have e1 : m + (L.length + 1) = m + 1 + L.length := by omega
      have e2 : v + ((if c then 1 else 0) + 2 * ofBits L) * 2 ^ m = v + b2i c * 2 ^ m + ofBits L * 2 ^ (m + 1) := by
        rw [Int.pow_succ, b2i]; ring
      dsimp only at hwd
      convert hwd using 2

/-- **C139** a list of bits, bools, ints and formulas of one bit each, least significant first. -/
theorem C139_sequence {e : Env} {k : SKind} {K : Kind} {l : List FElem} {L : List Bool} (hk : k.At e K)
    (h : List.Forall₂ (ElemIs e) l L) (hl : l ≠ []) :
    ∃ x, mkN S k l.length (.seq l) = .ok x ∧ Den e x ⟨K, L.length, ofBits L⟩ := by
  cases h with
  | nil => exact (hl rfl).elim
  | @cons el c l L h1 h2 =>
    obtain ⟨x, hx, hxd, hxk, hxs⟩ := mkElemN_rel S hk h1
    obtain ⟨y, hy, hyd⟩ := concatElemsN_rel S hk h2 hxd hxk
    have hlen := h2.length_eq
    obtain ⟨_, h2', b, h3, h4⟩ := hyd
    dsimp only at h2' h4
    have e1 : y.size = (el :: l).length := by simp; omega
    have e2 : (c :: L).length = (el :: l).length := by simp [hlen]
    have hb : y.term.eval e = some (.bv (el :: l).length (e1 ▸ b)) := by
      rw [h3]
      have : ∀ {w w' : Nat} (h : w = w') (v : BitVec w), some (Val.bv w v) = some (Val.bv w' (h ▸ v)) := by
        intro w w' h v; subst h; rfl
      exact this _ _
    have hv : toI (e1 ▸ b : BitVec (el :: l).length) = ofBits (c :: L) := by
      rw [toI_cast]; unfold toI; rw [← h4]; simp only [ofBits, b2i]; ring
    obtain ⟨z, hz, hzd⟩ := (bvF_rel (S := S) hk hb hv).ok_right
    refine ⟨z, ?_, by rw [e2]; exact hzd⟩
    simp only [mkN, ne_eq, not_true, if_false, hx, hy, ok_bind]
    exact hz

/-- **C139** a Boolean formula is no element: it raises `TypeError` wherever it stands, though an `SMTBit` would do. -/
theorem C139_sequence_refuted {e : Env} {k : SKind} {K : Kind} {l l' : List FElem} {L : List Bool} {t : Term} (hk : k.At e K)
    (h : List.Forall₂ (ElemIs e) l L) (ht : t.ty? = some .bool) :
    mkN S k (l ++ .formula t :: l').length (.seq (l ++ .formula t :: l')) = .error .typeError := by
  have hbad : mkElemN S k (.formula t) = .error .typeError := by simp [mkElemN, bvF, ht]
  have hfold : ∀ {l : List FElem} {L : List Bool}, List.Forall₂ (ElemIs e) l L → ∀ {x : SBV} {m : Nat} {v : Int},
      Den e x ⟨K, m, v⟩ → x.kind = k → concatElemsN S k x (l ++ .formula t :: l') = .error .typeError := by
    intro l L h
    induction h with
    | nil =>
      intro x m v _ _
      rw [List.nil_append, concatElemsN]; simp only [hbad]; rfl
    | cons h1 _ ih =>
      intro x m v hx hxk
      obtain ⟨y, hm, hy, hyk, hys⟩ := mkElemN_rel S hk h1
      obtain ⟨z, hcc, hz, hzk, hzs⟩ := (concat_rel' (S := S) hx hy hxk (by rw [hyk]; exact SKind.isSub_refl _)).ok_right
      rw [List.cons_append, concatElemsN]
      simp only [hm, hcc, ok_bind]
      exact ih hz hzk
  cases h with
  | nil =>
    simp only [mkN, List.nil_append, ne_eq, not_true, if_false, hbad]; rfl
  | cons h1 h2 =>
    obtain ⟨x, hx, hxd, hxk, hxs⟩ := mkElemN_rel S hk h1
    simp only [mkN, List.cons_append, ne_eq, not_true, if_false, hx, hfold h2 hxd hxk, ok_bind]; rfl

/-! ## Where formulas are not taken -/

/-- **C139** `concat` and item assignment take no formulas, of whatever sort. -/
theorem C139_rejected (x : SBV) (i : Int) (t : Term) :
    x.concatN S (.formula t) = .error .typeError ∧ x.setitemN S i (.formula t) = .error .valueError := ⟨rfl, rfl⟩

/-- **C139** the z3 vectors differ: they take Boolean formulas, for 0 and 1, which the pysmt vectors do not. -/
theorem C139_families_refuted (k : SKind) (r : Root) (n : Nat) (hn : 0 < n) (t : Term) (b : Z3.BoolE) (ht : t.ty? = some .bool) :
    mkN S k n (.formula t) = .error .typeError ∧
    ∃ x, Z3.mkZBV r n (.boolRef b) = .ok x ∧ ∀ e, Z3.Den e x ⟨.root r, n, if b e then 1 else 0⟩ := by
  refine ⟨C139_construct_raises S _ _ _ (by rw [ht]; nofun), ?_⟩
  have h : ∀ e, Z3.RelE (Z3.Den e) (Z3.boolF r n b) (.ok ⟨.root r, n, b2i (b e)⟩) := fun e => Z3.boolF_rel r hn rfl
  have hm : Z3.mkZBV r n (.boolRef b) = Z3.boolF r n b := by
    unfold Z3.mkZBV; simp only [Z3.sort_ok hn]; rfl
  rw [hm]
  simp only [Z3.boolF, Z3.sort_ok hn, Z3.bitVecVal_ok _ hn, Z3.zIf_ok, ok_bind] at h ⊢
  exact ⟨_, rfl, fun e => by have := h e; cases hb : b e <;> rw [hb] at this <;> exact this⟩

end

/-! ## Examples -/

section
open Smt

/-- `a + 1` where `a` is a symbol. -/
private def aPlus1 : Term := .bin .bvadd (.sym ['a'] (.bv 8)) (.bvC 1 8)
private def xs : SBV := ⟨.root .uint, 8, .sym ['x'] (.bv 8)⟩

/-- `x * f`, `x < f`, `T(f)` for the pysmt formula `f = a + 1`. -/
example : mkN noSimp (.root .uint) 8 (.formula aPlus1) = .ok ⟨.root .uint, 8, aPlus1⟩ := rfl
example : opN noSimp .mul .uint xs (.formula aPlus1) = .ok (some ⟨.root .uint, 8, .bin .bvmul xs.term aPlus1⟩) := by rfl
example : cmpN noSimp .lt .uint xs (.formula aPlus1) = .ok (some (.bin .bvult xs.term aPlus1)) := by rfl
example (e : Env) : IsVec e aPlus1 8 (e.bv ['a'] 8 + 1).toNat := ⟨_, rfl, rfl⟩
example (e : Env) : Den e xs ⟨.root .uint, 8, (e.bv ['x'] 8).toNat⟩ := ⟨rfl, rfl, _, rfl, rfl⟩
/-- `T([f, True, bit])` where `f` is one bit of a formula. -/
example (e : Env) (b c : Bool) (t u : Term) (h : IsVec e t 1 (b2i b)) (g : DenBit e u c) :
    List.Forall₂ (ElemIs e) [.formula t, .elem (.bool true), .elem (.bit u)] [b, true, c] :=
  .cons h (.cons ⟨.bool, nofun⟩ (.cons ⟨.bit g, nofun⟩ .nil))
example (e : Env) : IsVec e (.un (.extract 3 3) aPlus1) 1 (b2i ((e.bv ['a'] 8 + 1).getLsbD 3)) := by
  refine ⟨(e.bv ['a'] 8 + 1).extractLsb 3 3, rfl, ?_⟩
  generalize e.bv ['a'] 8 + 1 = x
  have : (x.extractLsb 3 3).toNat = (x.toNat >>> 3) % 2 := by simp [BitVec.extractLsb]
  rw [this, BitVec.getLsbD, Nat.testBit]
  rcases Nat.mod_two_eq_zero_or_one (x.toNat >>> 3) with h | h <;> simp [h, b2i]
/-- A Boolean formula where a vector is wanted. -/
example : opN noSimp .add .uint xs (.formula (.sym ['p'] .bool)) = .ok none :=
  (C139_operand_raises noSimp xs _ (by decide)).2.2.1 _ _

end

end HW
