import Verif.Model.Z3.Expr
import Verif.Props.Z3Ops
import Verif.Props.Z3Ite
import Verif.Lemmas.CircuitFamilies

/-!
# Property C140: z3 expressions as values and operands

A z3 expression is given by its meaning: `t.den e` for a bit-vector expression of `t.w` bits, `b e` for a Boolean one.
-/

namespace HW
open Spec Z3
open Smt (toI toI_bounds ok_bind)

/-! ## Values -/

/-- **C140** a vector class takes the expressions of its width, and the vector means what the expression means. -/
theorem C140_construct (r : Root) (t : BVE) (h : 0 < t.w) :
    ∃ x, mkZBV r t.w (.bvRef t) = .ok x ∧ ∀ e, Z3.Den e x ⟨.root r, t.w, (t.den e).toNat⟩ := by
  obtain ⟨n, d⟩ := t
  refine ⟨⟨r, n, ⟨n, d⟩⟩, ?_, fun e => Den.intro r d h rfl⟩
  unfold mkZBV; simp only [sort_ok h]; exact bvF_ok r d h

/-- **C140** ... and raises `TypeError` for those of another width. -/
theorem C140_construct_raises (r : Root) {n : Nat} (t : BVE) (hn : 0 < n) (h : t.w ≠ n) :
    mkZBV r n (.bvRef t) = .error .typeError := by
  unfold mkZBV; simp only [sort_ok hn, bvF, h]; rfl

/-- **C140** a Boolean expression gives 0 or 1. -/
theorem C140_construct_bool (r : Root) {n : Nat} (b : BoolE) (hn : 0 < n) :
    ∃ x, mkZBV r n (.boolRef b) = .ok x ∧ ∀ e, Z3.Den e x ⟨.root r, n, if b e then 1 else 0⟩ := by
  have h : ∀ e, RelE (Z3.Den e) (boolF r n b) (.ok ⟨.root r, n, b2i (b e)⟩) := fun e => boolF_rel r hn rfl
  have hm : mkZBV r n (.boolRef b) = boolF r n b := by
    unfold mkZBV; simp only [sort_ok hn]; rfl
  rw [hm]
  simp only [boolF, sort_ok hn, bitVecVal_ok _ hn, zIf_ok, ok_bind] at h ⊢
  exact ⟨_, rfl, fun e => by have := h e; cases hb : b e <;> rw [hb] at this <;> exact this⟩

/-- **C140** a bit takes the Boolean expressions. -/
theorem C140_bit (b : BoolE) : ∃ c, mkZBit (.boolRef b) = .ok c ∧ ∀ e, c e = b e := ⟨b, rfl, fun _ => rfl⟩

/-- **C140** `z3Bit` of a bit-vector expression raises, but z3's own exception, no `TypeError`. -/
theorem C140_bit_raises (t : BVE) : mkZBit (.bvRef t) = .error .z3Exception := rfl

/-- **C140** `T(x.value)` and, for another class of the same width, `U(x.value)` denote what `x` denotes. -/
theorem C140_roundtrip {e : Env} {x : ZBV} {X : BVal} (r : Root) (h : Z3.Den e x X) :
    ∃ y, mkZBV r x.size (.bvRef x.expr) = .ok y ∧ Z3.Den e y ⟨.root r, X.size, X.value⟩ := by
  obtain ⟨r', n, d, rfl, rfl, hn⟩ := h.cases
  obtain ⟨y, h1, h2⟩ := C140_construct r ⟨n, d⟩ hn
  exact ⟨y, h1, h2 e⟩

/-! ## Operands -/

/-- What an expression stands for beside a vector of class `K` and width `n`. -/
inductive Stands (e : Env) (K : Kind) (n : Nat) : ZObj → Obj → Prop
  | bv (d : Env → BitVec n) : Stands e K n (.bvRef ⟨n, d⟩) (.bv ⟨K, n, (d e).toNat⟩)
  | bool (b : BoolE) : Stands e K n (.boolRef b) (.bit (b e))

/-- The same operand, wrapped. -/
theorem Stands.wrapped {e : Env} {r : Root} {n : Nat} {o : ZObj} {O : Obj} (hn : 0 < n) (h : Stands e (.root r) n o O) :
    ∃ o', Z3.DenObj e o' O ∧ o'.Fits n ∧ zcoerce r n o = zcoerce r n o' ∧
      (∀ y, o' = .bv y → y.root = r ∧ y.size = n) := by
  cases h with
  | bv d =>
    refine ⟨.bv ⟨r, n, ⟨n, d⟩⟩, .bv (Den.intro r d hn rfl), trivial, ?_, ?_⟩
    · simp only [zcoerce, ne_eq, not_true, if_false]
      unfold mkZBV; simp only [sort_ok hn]; exact bvF_ok r d hn
    · rintro y h; cases h; exact ⟨rfl, rfl⟩
  | bool b =>
    exact ⟨.bit b, .bit rfl, trivial, rfl, nofun⟩

theorem cast_congr {α : Type} {x : ZBV} {o o' : ZObj} (h : zcoerce x.root x.size o = zcoerce x.root x.size o')
    (fn : ZBV → PyM α) : x.cast o fn = x.cast o' fn := by simp only [ZBV.cast, h]

theorem zBin_congr (op : Circuit.Bin) {x : ZBV} {o o' : ZObj} (h : zcoerce x.root x.size o = zcoerce x.root x.size o') :
    Circuit.zBin op x o = Circuit.zBin op x o' := by cases op <;> exact cast_congr h _

theorem zCmp_congr (op : Circuit.Cmp) {x : ZBV} {o o' : ZObj} (h : zcoerce x.root x.size o = zcoerce x.root x.size o') :
    Circuit.zCmp op x o = Circuit.zCmp op x o' := by cases op <;> exact cast_congr h _

theorem zA_congr (op : AOp) (r : Root) {x : ZBV} {o o' : ZObj} (h : zcoerce x.root x.size o = zcoerce x.root x.size o') :
    zA op r x o = zA op r x o' := by cases op <;> cases r <;> exact cast_congr h _

theorem zC_congr (op : COp) (r : Root) {x : ZBV} {o o' : ZObj} (h : zcoerce x.root x.size o = zcoerce x.root x.size o') :
    zC op r x o = zC op r x o' := by cases op <;> cases r <;> exact cast_congr h _

/-- **C140** a method with an expression as operand computes what the concrete method computes from its value. -/
theorem C140_methods (op : Circuit.Bin) {e : Env} {x : ZBV} {X : BVal} {o : ZObj} {O : Obj} (hx : Z3.Den e x X)
    (ho : Stands e X.kind X.size o O) : RelE (Z3.Den e) (Circuit.zBin op x o) (Circuit.cBin op X O) := by
  rw [hx.kind_eq, hx.size_eq] at ho
  obtain ⟨o', h1, h2, h3, _⟩ := ho.wrapped hx.pos
  rw [zBin_congr op h3]
  exact Circuit.zBin_hom op e _ _ _ _ hx h1 h2

/-- **C140** ... so do comparisons. -/
theorem C140_comparisons (op : Circuit.Cmp) {e : Env} {x : ZBV} {X : BVal} {o : ZObj} {O : Obj} (hx : Z3.Den e x X)
    (ho : Stands e X.kind X.size o O) : RelE (Z3.DenBit e) (Circuit.zCmp op x o) (Circuit.cCmp op X O) := by
  rw [hx.kind_eq, hx.size_eq] at ho
  obtain ⟨o', h1, h2, h3, _⟩ := ho.wrapped hx.pos
  rw [zCmp_congr op h3]
  exact Circuit.zCmp_hom op e _ _ _ _ hx h1 h2

/-- **C140 (partial)** `x op t`.  Full claim: without `hop`; signed `//` differs between the families whatever the
operand (C93). -/
theorem C140_operators_partial (op : AOp) {e : Env} {x : ZBV} {X : BVal} {o : ZObj} {O : Obj} (hx : Z3.Den e x X)
    (ho : Stands e X.kind X.size o O) (hop : ¬ (x.root = .sint ∧ op = .fdiv)) (i : Nat) :
    RelE (ZDenRes e i) (zBinA op (.bv x) o) (binA op (.bv X) O i) := by
  rw [hx.kind_eq, hx.size_eq] at ho
  obtain ⟨o', h1, h2, h3, h4⟩ := ho.wrapped hx.pos
  have hz : zBinA op (.bv x) o = zBinA op (.bv x) o' := by
    simp only [zBinA, zA_congr op x.root h3]
  rw [hz]
  cases h1 with
  | bv hy =>
    obtain ⟨hr, -⟩ := h4 _ rfl
    refine C95_vectors_partial op i hx hy hop fun _ => ?_
    rw [hr]; unfold sameReading
    cases x.root <;> simp
  | int => exact C95_right op i hx .int h2 nofun hop
  | bool => exact C95_right op i hx .bool h2 nofun hop
  | bit h => exact C95_right op i hx (.bit h) h2 nofun hop
  | seq h => exact C95_right op i hx (.seq h) h2 nofun hop
  | other => exact C95_right op i hx .other h2 nofun hop

/-- **C140** `x < t` and the other comparison operators. -/
theorem C140_compare (op : COp) {e : Env} {x : ZBV} {X : BVal} {o : ZObj} {O : Obj} (hx : Z3.Den e x X)
    (ho : Stands e X.kind X.size o O) : RelE (ZDenCmp e) (zBinC op (.bv x) o) (binC op (.bv X) O) := by
  rw [hx.kind_eq, hx.size_eq] at ho
  obtain ⟨o', h1, h2, h3, h4⟩ := ho.wrapped hx.pos
  have hs : zBinC op (.bv x) o = zC op x.root x o := by cases ho <;> rfl
  rw [hs, zC_congr op x.root h3]
  cases ho with
  | bv d =>
    cases h1 with
    | @bv y _ hy =>
      obtain ⟨hr, hsz⟩ := h4 _ rfl
      have hp : y.properSub x = false := by simp [ZBV.properSub, hr, hsz]
      have hc := C95_compare op hx hy
      simp only [zBinC, hp] at hc
      exact hc
  | bool b =>
    cases h1 with
    | bit h => exact C95_compare_right op hx (.bit h) trivial nofun (by simp [Obj.denotes])

/-- **C140** an expression of another width raises `TypeError` in every method, operator and comparison. -/
theorem C140_operand_raises (x : ZBV) (t : BVE) (hn : 0 < x.size) (h : t.w ≠ x.size) :
    (∀ op, Circuit.zBin op x (.bvRef t) = .error .typeError) ∧
    (∀ op, Circuit.zCmp op x (.bvRef t) = .error .typeError) ∧
    (∀ op, zBinA op (.bv x) (.bvRef t) = .error .typeError) ∧
    (∀ op, zBinC op (.bv x) (.bvRef t) = .error .typeError) := by
  have hc : zcoerce x.root x.size (.bvRef t) = .error .typeError := C140_construct_raises _ t hn h
  have hm : ∀ {α : Type} (fn : ZBV → PyM α), x.cast (.bvRef t) fn = .error .typeError := fun fn => by
    simp only [ZBV.cast, hc]; rfl
  have hA : ∀ op r, zA op r x (.bvRef t) = .error .typeError := fun op r => by cases op <;> cases r <;> exact hm _
  have hC : ∀ op r, zC op r x (.bvRef t) = .error .typeError := fun op r => by cases op <;> cases r <;> exact hm _
  refine ⟨fun op => by cases op <;> exact hm _, fun op => by cases op <;> exact hm _, fun op => ?_, fun op => hC op _⟩
  simp only [zBinA, hA]; rfl

/-- **C140** bits with a Boolean expression on the right. -/
theorem C140_bit_operators {e : Env} {a : BoolE} {A : Bool} (b : BoolE) (ha : Z3.DenBit e a A) (i : Nat) :
    (∀ op ∈ [AOp.and, .or, .xor], RelE (ZDenRes e i) (zBinA op (.bit a) (.boolRef b)) (binA op (.bit A) (.bit (b e)) i)) ∧
    (∀ op ∈ [COp.eq, .ne], RelE (ZDenCmp e) (zBinC op (.bit a) (.boolRef b)) (binC op (.bit A) (.bit (b e)))) := by
  have h := C95_bits (o := .bit b) ha (.bit rfl) (B := b e) rfl i
  refine ⟨fun op hop => h.1 op hop, fun op hop => ?_⟩
  have := h.2.1 op hop
  simp only [List.mem_cons, List.not_mem_nil, or_false] at hop
  rcases hop with rfl | rfl <;> exact this

/-- **C140** `adc` takes expressions for the operand and for the carry, which may be Boolean or one bit wide. -/
theorem C140_adc {e : Env} {x : ZBV} {X : BVal} {o c : ZObj} {O C : Obj} (hx : Z3.Den e x X)
    (ho : Stands e X.kind X.size o O) (hc : Stands e X.kind 1 c C) :
    RelE (fun r R => Z3.Den e r.1 R.1 ∧ Z3.DenBit e r.2 R.2) (x.adc o c) (X.adc O C) := by
  rw [hx.kind_eq, hx.size_eq] at ho
  rw [hx.kind_eq] at hc
  obtain ⟨o', h1, h2, h3, -⟩ := ho.wrapped hx.pos
  obtain ⟨c', g1, g2, g3, -⟩ := hc.wrapped (by omega)
  have : x.adc o c = x.adc o' c' := by simp only [ZBV.adc, h3, g3]
  rw [this]
  exact C94_adc hx h1 g1 h2 g2

/-! ## `ite` -/

/-- **C140** one branch a vector, the other an expression of its width. -/
theorem C140_ite {e : Env} {c : BoolE} {x : ZBV} {X : BVal} (d : Env → BitVec x.size) (hx : Z3.Den e x X) :
    (∃ z, zIte c (.bv x) (.bvRef ⟨_, d⟩) = .ok z ∧
      Z3.Den e z ⟨X.kind, X.size, if c e then X.value else (d e).toNat⟩) ∧
    (∃ z, zIte c (.bvRef ⟨_, d⟩) (.bv x) = .ok z ∧
      Z3.Den e z ⟨X.kind, X.size, if c e then (d e).toNat else X.value⟩) := by
  obtain ⟨r, n, d', rfl, rfl, hn⟩ := hx.cases
  have hm : mkZBV r n (.bvRef ⟨n, d⟩) = .ok ⟨r, n, ⟨n, d⟩⟩ := by
    unfold mkZBV; simp only [sort_ok hn]; exact bvF_ok r d hn
  constructor
  · simp only [zIte, hm, ok_bind, iteF, zIf_ok, bvF_ok _ _ hn]
    exact ⟨_, rfl, Den.intro r _ hn (by cases c e <;> rfl)⟩
  · simp only [zIte, hm, ok_bind, iteF, zIf_ok, bvF_ok _ _ hn]
    exact ⟨_, rfl, Den.intro r _ hn (by cases c e <;> rfl)⟩

/-- **C140** ... but `ite` of two expressions raises `TypeError`, whatever they are, though it takes two bits and even
two ints. -/
theorem C140_ite_refuted (c : BoolE) (s t : BVE) (a b : BoolE) :
    zIte c (.bvRef s) (.bvRef t) = .error .typeError ∧ zIte c (.boolRef a) (.boolRef b) = .error .typeError ∧
    zIte c (.bvRef s) (.boolRef a) = .error .typeError ∧ zIte c (.boolRef a) (.bvRef s) = .error .typeError ∧
    ∃ z, zIte c (.bit a) (.bit b) = .ok z := ⟨rfl, rfl, rfl, rfl, _, rfl⟩

/-! ## Sequences -/

/-- What an element of a sequence stands for: an expression of one bit, a Boolean one, a bit, a bool, 0 or 1, or a
vector of one bit. -/
inductive ElemZ (e : Env) : ZObj → Bool → Prop
  | bv (d : Env → BitVec 1) : ElemZ e (.bvRef ⟨1, d⟩) ((d e) == 1)
  | bool (b : BoolE) : ElemZ e (.boolRef b) (b e)
  | bit (b : BoolE) : ElemZ e (.bit b) (b e)
  | lit (b : Bool) : ElemZ e (.bool b) b
  | int (b : Bool) : ElemZ e (.int (b2i b)) b
  | vec {x : ZBV} {K : Kind} {b : Bool} : Z3.Den e x ⟨K, 1, b2i b⟩ → ElemZ e (.bv x) b

theorem toI_one (v : BitVec 1) : toI v = b2i (v == 1) := by
  have := v.isLt
  rcases BitVec.eq_zero_or_eq_one v with rfl | rfl <;> rfl

theorem mkElemZ {e : Env} (r : Root) {o : ZObj} {b : Bool} (h : ElemZ e o b) :
    ∃ z, mkZBV r 1 o = .ok z ∧ Z3.Den e z ⟨.root r, 1, b2i b⟩ := by
  cases h with
  | bv d =>
    obtain ⟨x, h1, h2⟩ := C140_construct r ⟨1, d⟩ (by simp)
    refine ⟨x, h1, ?_⟩
    have := h2 e
    dsimp only at this
    rw [← toI_one]; exact this
  | bool b =>
    obtain ⟨x, h1, h2⟩ := C140_construct_bool r (n := 1) b (by omega)
    exact ⟨x, h1, h2 e⟩
  | bit b =>
    obtain ⟨x, h1, h2⟩ := C140_construct_bool r (n := 1) b (by omega)
    exact ⟨x, h1, h2 e⟩
  | lit b =>
    obtain ⟨z, h1, h2⟩ := (intF_rel (e := e) r (n := 1) (by omega) (b2i b)).ok_right
    exact ⟨z, h1, by cases b <;> exact h2⟩
  | int b =>
    obtain ⟨z, h1, h2⟩ := (intF_rel (e := e) r (n := 1) (by omega) (b2i b)).ok_right
    exact ⟨z, h1, by cases b <;> exact h2⟩
  | vec h =>
    obtain ⟨r', n, d, rfl, h2, hn⟩ := h.cases
    injection h2 with h2 h3 h4
    subst h3
    exact ⟨⟨r, 1, ⟨1, d⟩⟩, rfl, Den.intro r d hn h4.symm⟩

theorem concatObjs_rel {e : Env} (r : Root) : ∀ {l : List ZObj} {L : List Bool}, List.Forall₂ (ElemZ e) l L →
    ∀ {x : ZBV} {m : Nat} {v : Int}, Z3.Den e x ⟨.root r, m, v⟩ →
    ∃ y, concatObjs r x l = .ok y ∧ Z3.Den e y ⟨.root r, m + L.length, v + ofBits L * 2 ^ m⟩
  | [], [], _, x, m, v, hx => ⟨x, rfl, by simpa [ofBits] using hx⟩
  | o :: l, b :: L, .cons h1 h2, x, m, v, hx => by
    obtain ⟨y, hy1, hy2⟩ := mkElemZ r h1
    have hk : y.root.isSub x.root = true := by
      rw [(hx.attrs rfl).1, (hy2.attrs rfl).1]; cases r <;> rfl
    obtain ⟨z, hz1, hz2⟩ := (concat_rel' hx hy2 hk).ok_right
    obtain ⟨w, hw1, hw2⟩ := concatObjs_rel r h2 hz2
    refine ⟨w, ?_, ?_⟩
    · rw [concatObjs]; simp only [hy1, hz1, ok_bind]; exact hw1
    · simp only [List.length_cons, ofBits]
      have e1 : m + (L.length + 1) = m + 1 + L.length := by omega
      have e2 : v + ((if b then 1 else 0) + 2 * ofBits L) * 2 ^ m = v + b2i b * 2 ^ m + ofBits L * 2 ^ (m + 1) := by
        rw [Int.pow_succ, b2i]; ring
      dsimp only at hw2
      convert hw2 using 2

/-- **C140** a list of bits, bools, vectors of one bit and expressions, Boolean or of one bit, least significant first. -/
theorem C140_sequence {e : Env} (r : Root) {l : List ZObj} {L : List Bool} (h : List.Forall₂ (ElemZ e) l L) (hl : l ≠ []) :
    ∃ x, mkSeq r l.length l = .ok x ∧ Z3.Den e x ⟨.root r, L.length, ofBits L⟩ := by
  have hlen := h.length_eq
  have hn : 0 < l.length := by cases l with | nil => exact (hl rfl).elim | cons => simp
  cases h with
  | nil => exact (hl rfl).elim
  | @cons o b l L h1 h2 =>
    obtain ⟨x, hx1, hx2⟩ := mkElemZ r h1
    obtain ⟨y, hy1, hy2⟩ := concatObjs_rel r h2 hx2
    obtain ⟨r', n, d, rfl, h3, hn'⟩ := hy2.cases
    injection h3 with h3 h4 h5
    have hw : n = (o :: l).length := by rw [hlen, ← h4, List.length_cons]; omega
    refine ⟨⟨r, (o :: l).length, ⟨n, d⟩⟩, ?_, ?_⟩
    · unfold mkSeq
      simp only [sort_ok hn, ok_bind, ne_eq, not_true, if_false, hx1, hy1]
      rw [if_pos hw]; rfl
    · subst hw
      rw [← hlen]
      refine Den.intro r d hn ?_
      rw [← h5]; simp only [ofBits, b2i]; ring

/-- **C140** an expression of more than one bit is no element of a list: `TypeError` wherever it stands. -/
theorem C140_sequence_raises {e : Env} (r : Root) {l l' : List ZObj} {L : List Bool} {t : BVE}
    (h : List.Forall₂ (ElemZ e) l L) (ht : t.w ≠ 1) :
    mkSeq r (l ++ .bvRef t :: l').length (l ++ .bvRef t :: l') = .error .typeError := by
  have hbad : mkZBV r 1 (.bvRef t) = .error .typeError := C140_construct_raises r t (by omega) ht
  have hfold : ∀ {l : List ZObj} {L : List Bool}, List.Forall₂ (ElemZ e) l L → ∀ {x : ZBV} {m : Nat} {v : Int},
      Z3.Den e x ⟨.root r, m, v⟩ → concatObjs r x (l ++ .bvRef t :: l') = .error .typeError := by
    intro l L h
    induction h with
    | nil => intro x m v _; rw [List.nil_append, concatObjs]; simp only [hbad]; rfl
    | cons h1 _ ih =>
      intro x m v hx
      obtain ⟨y, hy1, hy2⟩ := mkElemZ r h1
      have hk : y.root.isSub x.root = true := by
        rw [(hx.attrs rfl).1, (hy2.attrs rfl).1]; cases r <;> rfl
      obtain ⟨z, hz1, hz2⟩ := (concat_rel' hx hy2 hk).ok_right
      rw [List.cons_append, concatObjs]; simp only [hy1, hz1, ok_bind]
      exact ih hz2
  have hn : 0 < (l ++ .bvRef t :: l').length := by simp
  cases h with
  | nil =>
    unfold mkSeq
    simp only [List.nil_append, ne_eq, not_true, if_false, hbad]; rfl
  | cons h1 h2 =>
    obtain ⟨x, hx1, hx2⟩ := mkElemZ r h1
    unfold mkSeq
    simp only [ok_bind, List.cons_append, ne_eq, not_true, if_false, hx1, hfold h2 hx2]; rfl

/-- An element as an object. -/
def elemObj : ZElem → ZObj
  | .bit b => .bit b
  | .bool b => .bool b
  | .int v => .int v

/-- **C140** on sequences without expressions this is the constructor of C94. -/
theorem C140_sequence_agrees (r : Root) {n : Nat} (l : List ZElem) :
    mkSeq r n (l.map elemObj) = mkZBV r n (.seq l) := by
  have hel : ∀ el : ZElem, mkZBV r 1 (elemObj el) = mkElem r el := by intro el; cases el <;> rfl
  have hc : ∀ (l : List ZElem) (x : ZBV), concatObjs r x (l.map elemObj) = concatElems r x l := by
    intro l
    induction l with
    | nil => intro x; rfl
    | cons el l ih =>
      intro x
      rw [List.map_cons, concatObjs, concatElems, hel]
      congr 1; funext y; congr 1; funext z; exact ih z
  rcases Nat.eq_zero_or_pos n with rfl | hn
  · rfl
  · have e1 : mkZBV r n (.seq l) = (if (l.length : Int) ≠ n then .error .valueError
        else match l with
          | [] => .error .typeError
          | e :: l => do
              let x ← mkElem r e
              let y ← concatElems r x l
              if y.expr.w = n then return ⟨r, n, y.expr⟩ else .error .assertionError) := by
      unfold mkZBV; simp only [sort_ok hn]; rfl
    rw [e1]
    unfold mkSeq
    simp only [sort_ok hn, ok_bind, List.length_map]
    by_cases h : l.length = n
    · rw [if_neg (not_not.2 h), if_neg (not_not.2 (by exact_mod_cast h))]
      cases l with
      | nil => rfl
      | cons el l => simp only [List.map_cons, hel, hc]
    · rw [if_pos h, if_pos (by exact_mod_cast h)]

/-! ## Where expressions are not taken -/

/-- **C140** item assignment takes no expressions: `ValueError`, even for a Boolean one. -/
theorem C140_setitem_refuted (x : ZBV) (i : Int) (b : BoolE) (t : BVE) :
    x.setitem i (.boolRef b) = .error .valueError ∧ x.setitem i (.bvRef t) = .error .valueError := ⟨rfl, rfl⟩

/-! ## Examples -/

/-- The expression `a + 1`. -/
private def aPlus1 : BVE := ⟨8, fun e => e.bv ['a'] 8 + 1⟩
private def xs : ZBV := ⟨.uint, 8, ⟨8, fun e => e.bv ['x'] 8⟩⟩
/-- The Boolean expression `a < 10`. -/
private def aSmall : BoolE := fun e => (e.bv ['a'] 8).ult 10

example (e : Env) : Stands e (.root .uint) 8 (.bvRef aPlus1) (.bv ⟨.root .uint, 8, (e.bv ['a'] 8 + 1).toNat⟩) := .bv _
example (e : Env) : Stands e (.root .uint) 8 (.boolRef aSmall) (.bit ((e.bv ['a'] 8).ult 10)) := .bool _
example (e : Env) : Z3.Den e xs ⟨.root .uint, 8, (e.bv ['x'] 8).toNat⟩ := Den.intro _ _ (by decide) rfl
/-- `x * (a + 1)` and `x + (a < 10)`. -/
example : zBinA .mul (.bv xs) (.bvRef aPlus1) = .ok (.bv ⟨.uint, 8, ⟨8, fun e => e.bv ['x'] 8 * (e.bv ['a'] 8 + 1)⟩⟩) := by rfl
example (e : Env) : ∃ z, zBinA .add (.bv xs) (.boolRef aSmall) = .ok (.bv z) ∧
    Z3.Den e z ⟨.root .uint, 8, toI (e.bv ['x'] 8 + if (e.bv ['a'] 8).ult 10 then 1 else 0)⟩ :=
  ⟨_, rfl, Den.intro _ _ (by decide) rfl⟩
/-- `T([a < 10, True, bit])`. -/
example (e : Env) (b : BoolE) : List.Forall₂ (ElemZ e) [.boolRef aSmall, .bool true, .bit b]
    [(e.bv ['a'] 8).ult 10, true, b e] := .cons (.bool _) (.cons (.lit _) (.cons (.bit _) .nil))
example : mkZBV .uint 4 (.bvRef aPlus1) = .error .typeError := C140_construct_raises _ _ (by decide) (by decide)

end HW
