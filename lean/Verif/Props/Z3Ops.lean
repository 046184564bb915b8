import Verif.Props.Z3Struct
import Verif.Props.SmtBit

/-!
# Property C95: Python operators on z3 objects

`zBinA`, `zBinC` are operator expressions with at least one z3 operand, `binA`, `binC` (Model/Operators.lean)
those of the concrete family.  Division of signed vectors is the subject of C93.
-/

namespace HW
open Spec Z3
open Smt (toI toI_bounds toI_mod ok_bind)

/-- The z3 result denotes the concrete one, which made no class. -/
def ZDenRes (e : Env) (i : Nat) : ZRes → Obj × Nat → Prop
  | .bv z, (.bv Z, j) => Z3.Den e z Z ∧ j = i
  | .bit b, (.bit B, j) => Z3.DenBit e b B ∧ j = i
  | _, _ => False

/-- The same for comparisons. -/
def ZDenCmp (e : Env) : BoolE → Obj → Prop
  | b, .bit B => Z3.DenBit e b B
  | _, _ => False

/-- What an arithmetic operator of class `r` computes. -/
theorem zA_ref {e : Env} {x : ZBV} {X : BVal} {o : ZObj} {O : Obj} (op : AOp) (hx : Z3.Den e x X)
    (ho : Z3.DenObj e o O) (hf : o.Fits x.size) (hop : ¬ (x.root = .sint ∧ op = .fdiv)) :
    RelE (Z3.Den e) (zA op x.root x o) ((operand X.size O).map fun b =>
      ⟨X.kind, X.size, refA (decide (x.root = .sint)) op X.size X.value b⟩) := by
  have hn : 0 < X.size := by rw [hx.size_eq]; exact hx.pos
  by_cases hr : x.root = .sint
  · rw [hr, show decide (Root.sint = Root.sint) = true from rfl, ← sMethod_ref op hx.WF hn ho.WF]
    cases op
    case fdiv => exact absurd ⟨hr, rfl⟩ hop
    case and => exact C92_bvand e x X o O hx ho hf
    case or => exact C92_bvor e x X o O hx ho hf
    case xor => exact C92_bvxor e x X o O hx ho hf
    case shl => exact C92_bvshl e x X o O hx ho hf
    case shr => exact C92_bvashr e x X o O hx ho hf
    case add => exact C92_bvadd e x X o O hx ho hf
    case sub => exact C92_bvsub e x X o O hx ho hf
    case mul => exact C92_bvmul e x X o O hx ho hf
    case mod => exact C92_bvsrem e x X o O hx ho hf
  · rw [decide_eq_false hr, ← uMethod_ref op hx.WF ho.WF]
    have hu : zA op x.root = zA op .bv := by
      cases hq : x.root <;> first | exact absurd hq hr | (cases op <;> rfl)
    rw [hu]
    cases op
    case and => exact C92_bvand e x X o O hx ho hf
    case or => exact C92_bvor e x X o O hx ho hf
    case xor => exact C92_bvxor e x X o O hx ho hf
    case shl => exact C92_bvshl e x X o O hx ho hf
    case shr => exact C92_bvlshr e x X o O hx ho hf
    case add => exact C92_bvadd e x X o O hx ho hf
    case sub => exact C92_bvsub e x X o O hx ho hf
    case mul => exact C92_bvmul e x X o O hx ho hf
    case fdiv => exact C92_bvudiv e x X o O hx ho hf
    case mod => exact C92_bvurem e x X o O hx ho hf

/-- What a comparison of class `r` computes. -/
theorem zC_ref {e : Env} {x : ZBV} {X : BVal} {o : ZObj} {O : Obj} (op : COp) (hx : Z3.Den e x X)
    (ho : Z3.DenObj e o O) (hf : o.Fits x.size) :
    RelE (Z3.DenBit e) (zC op x.root x o) ((operand X.size O).map fun b =>
      refC (decide (x.root = .sint)) op X.size X.value b) := by
  have hn : 0 < X.size := by rw [hx.size_eq]; exact hx.pos
  by_cases hr : x.root = .sint
  · rw [hr, show decide (Root.sint = Root.sint) = true from rfl, ← cS_ref op hx.WF hn ho.WF]
    cases op
    case eq => exact C92_bveq e x X o O hx ho hf
    case ne => exact C92_bvne e x X o O hx ho hf
    case ge => exact C92_bvsge e x X o O hx ho hf
    case gt => exact C92_bvsgt e x X o O hx ho hf
    case le => exact C92_bvsle e x X o O hx ho hf
    case lt => exact C92_bvslt e x X o O hx ho hf
  · rw [decide_eq_false hr, ← cU_ref op]
    have hu : zC op x.root = zC op .bv := by
      cases hq : x.root <;> first | exact absurd hq hr | (cases op <;> rfl)
    rw [hu]
    cases op
    case eq => exact C92_bveq e x X o O hx ho hf
    case ne => exact C92_bvne e x X o O hx ho hf
    case ge => exact C92_bvuge e x X o O hx ho hf
    case gt => exact C92_bvugt e x X o O hx ho hf
    case le => exact C92_bvule e x X o O hx ho hf
    case lt => exact C92_bvult e x X o O hx ho hf

theorem readsSigned_root (r : Root) : readsSigned (.root r) = decide (r = .sint) := by cases r <;> rfl

/-- The operand of a non-vector: a number, or a `TypeError`. -/
theorem operand_cases {o : ZObj} {O : Obj} {e : Env} (ho : Z3.DenObj e o O) (hno : ∀ y, o ≠ .bv y) (n : Nat) :
    (∃ b, operand n O = .ok b) ∨ (operand n O = .error .typeError ∧ O.denotes = none) := by
  cases ho with
  | bv h => exact absurd rfl (hno _)
  | @other i b =>
    cases i with
    | none => exact .inr ⟨by simp [operand, Obj.denotes], rfl⟩
    | some v => exact .inl ⟨_, rfl⟩
  | _ => exact .inl ⟨_, rfl⟩

/-- **C95** `x op o` for a vector `x` and anything but a vector on the right (signed `//` excepted, C93):
value, class and exception are those of the concrete expression. -/
theorem C95_right {e : Env} {x : ZBV} {X : BVal} {o : ZObj} {O : Obj} (op : AOp) (i : Nat) (hx : Z3.Den e x X)
    (ho : Z3.DenObj e o O) (hf : o.Fits x.size) (hno : ∀ y, o ≠ .bv y) (hop : ¬ (x.root = .sint ∧ op = .fdiv)) :
    RelE (ZDenRes e i) (zBinA op (.bv x) o) (binA op (.bv X) O i) := by
  have hn : 0 < X.size := by rw [hx.size_eq]; exact hx.pos
  have hnO : ∀ Y, O ≠ .bv Y := by rintro Y rfl; cases ho; exact hno _ rfl
  have key := zA_ref op hx ho hf hop
  rcases operand_cases ho hno X.size with ⟨b, hb⟩ | ⟨hb, hd⟩
  · rw [hb] at key
    obtain ⟨z, hz, hzd⟩ := key.ok_right
    rw [binA_fwd (fun y h => absurd h (hnO y)) (fwd_ref op _ hx.WF hn ho.WF hb i), slot_signed_ref, hx.kind_eq,
      readsSigned_root]
    rw [hx.kind_eq] at hzd
    simp only [zBinA, hz, ok_bind]
    exact ⟨hzd, rfl⟩
  · rw [hb] at key
    obtain ⟨er, hz, h3⟩ := key.error_right
    rw [(C24_right hx.WF hn hd i).1 op]
    simp only [zBinA, hz]
    exact h3

/-- The classes whose operators read both operands alike in both families. -/
def sameReading (l r : Root) : Prop := l = .sint ∨ l = .uint ∨ r ≠ .sint

theorem signedPair_left {l r : Root} (h : sameReading l r) : signedPair l r = decide (l = .sint) := by
  unfold sameReading at h
  cases l <;> cases r <;> first | rfl | (exfalso; revert h; decide)

theorem signedPair_sub {l r : Root} (h : l ≠ r) (hs : r.isSub l = true) : signedPair l r = decide (r = .sint) := by
  cases l <;> cases r <;> first | rfl | (exfalso; revert h hs; decide)

theorem signedPair_nosub {l r : Root} (h : ¬ (l ≠ r ∧ r.isSub l = true)) : signedPair l r = decide (l = .sint) := by
  cases l <;> cases r <;> first | rfl | (exfalso; revert h; decide)

/-- **C95 (partial)** two vectors of any classes and widths.  Full claim: without `hm`; refuted below:
`BitVector // SIntVector` is unsigned in the z3 family, because it has no reflected operators. -/
theorem C95_vectors_partial {e : Env} {x y : ZBV} {X Y : BVal} (op : AOp) (i : Nat) (hx : Z3.Den e x X)
    (hy : Z3.Den e y Y) (hop : ¬ (x.root = .sint ∧ op = .fdiv))
    (hm : op.signDep = true → sameReading x.root y.root) :
    RelE (ZDenRes e i) (zBinA op (.bv x) (.bv y)) (binA op (.bv X) (.bv Y) i) := by
  have hn : 0 < X.size := by rw [hx.size_eq]; exact hx.pos
  have key := zA_ref op hx (.bv hy) trivial hop
  by_cases hs : Y.size = X.size
  · have hb : operand X.size (.bv Y) = .ok Y.value := by simp [operand, hs]
    rw [hb] at key
    obtain ⟨z, hz, hzd⟩ := key.ok_right
    have hc := (C25_operators x.root y.root X.size hn (a := X.value) (b := Y.value) hx.WF (by
      have := hy.WF; unfold BVal.WF at this; rwa [hs] at this) i).1 op
    have e1 : X = ⟨.root x.root, X.size, X.value⟩ := by rw [← hx.kind_eq]
    have e2 : Y = ⟨.root y.root, X.size, Y.value⟩ := by rw [← hy.kind_eq, ← hs]
    rw [← e1, ← e2] at hc
    rw [hc]
    simp only [zBinA, hz, ok_bind]
    rw [hx.kind_eq] at hzd
    have hr : refA (signedPair x.root y.root) op X.size X.value Y.value =
        refA (decide (x.root = .sint)) op X.size X.value Y.value := by
      by_cases hsd : op.signDep = true
      · congr 1
        exact signedPair_left (hm hsd)
      · exact refA_sign_irrelevant op (by simpa using hsd) _ _ _ _ _
    exact ⟨by rw [hr]; exact hzd, rfl⟩
  · rw [(C22_operators hs i).1 op]
    have hb : operand X.size (.bv Y) = .error .inconsistentSize := by simp [operand, hs]
    rw [hb] at key
    obtain ⟨er, hz, h3⟩ := key.error_right
    simp only [zBinA, hz]
    exact h3

/-- **C95** comparisons of two vectors of any classes and widths agree, signedness included. -/
theorem C95_compare {e : Env} {x y : ZBV} {X Y : BVal} (op : COp) (hx : Z3.Den e x X) (hy : Z3.Den e y Y) :
    RelE (ZDenCmp e) (zBinC op (.bv x) (.bv y)) (binC op (.bv X) (.bv Y)) := by
  have hn : 0 < X.size := by rw [hx.size_eq]; exact hx.pos
  have hX := hx.size_eq
  have hY := hy.size_eq
  have k1 := zC_ref op hx (.bv hy) trivial
  have k2 := zC_ref op.swap hy (.bv hx) trivial
  by_cases hs : Y.size = X.size
  · have hb : operand X.size (.bv Y) = .ok Y.value := by simp [operand, hs]
    have hb' : operand Y.size (.bv X) = .ok X.value := by simp [operand, hs]
    rw [hb] at k1
    rw [hb'] at k2
    obtain ⟨z, hz, hzd⟩ := k1.ok_right
    obtain ⟨w, hw, hwd⟩ := k2.ok_right
    dsimp only at hwd
    rw [refC_swap, hs] at hwd
    have hc := (C25_operators x.root y.root X.size hn (a := X.value) (b := Y.value) hx.WF (by
      have := hy.WF; unfold BVal.WF at this; rwa [hs] at this) 0).2 op
    have e1 : X = ⟨.root x.root, X.size, X.value⟩ := by rw [← hx.kind_eq]
    have e2 : Y = ⟨.root y.root, X.size, Y.value⟩ := by rw [← hy.kind_eq, ← hs]
    rw [← e1, ← e2] at hc
    rw [hc]
    simp only [zBinC, hz, hw]
    have hss : y.size = x.size := by omega
    by_cases hp : y.properSub x = true
    · rw [if_pos hp]
      have : signedPair x.root y.root = decide (y.root = .sint) := by
        simp [ZBV.properSub, hss] at hp
        exact signedPair_sub hp.1 hp.2
      rw [this]
      exact hwd
    · rw [if_neg hp]
      have : signedPair x.root y.root = decide (x.root = .sint) := by
        refine signedPair_nosub fun h => hp ?_
        simp [ZBV.properSub, hss, h.1, h.2]
      rw [this]
      exact hzd
  · rw [(C22_operators hs 0).2 op]
    have hb : operand X.size (.bv Y) = .error .inconsistentSize := by simp [operand, hs]
    rw [hb] at k1
    obtain ⟨er, hz, h3⟩ := k1.error_right
    have hp : y.properSub x = false := by
      have : ¬ y.size = x.size := by omega
      simp [ZBV.properSub, this]
    simp only [zBinC, hp, hz, Bool.false_eq_true, if_false]
    exact h3

/-- **C95** comparisons with anything else that has an integer value, a bit included, on the right. -/
theorem C95_compare_right {e : Env} {x : ZBV} {X : BVal} {o : ZObj} {O : Obj} (op : COp) (hx : Z3.Den e x X)
    (ho : Z3.DenObj e o O) (hf : o.Fits x.size) (hno : ∀ y, o ≠ .bv y) (hd : O.denotes ≠ none) :
    RelE (ZDenCmp e) (zBinC op (.bv x) o) (binC op (.bv X) O) := by
  have hn : 0 < X.size := by rw [hx.size_eq]; exact hx.pos
  have hnO : ∀ Y, O ≠ .bv Y := by rintro Y rfl; cases ho; exact hno _ rfl
  have key := zC_ref op hx ho hf
  rcases operand_cases ho hno X.size with ⟨b, hb⟩ | ⟨hb, hd'⟩
  · rw [hb] at key
    obtain ⟨z, hz, hzd⟩ := key.ok_right
    rw [binC_fwd (fun y h => absurd h (hnO y)) (cfwd_ref op _ hx.WF hn ho.WF hb), cslot_signed_ref, hx.kind_eq,
      readsSigned_root]
    have e1 : zBinC op (.bv x) o = zC op x.root x o := by
      cases o <;> first | rfl | exact absurd rfl (hno _)
    rw [e1, hz]
    exact hzd
  · exact absurd hd' hd

/-- **C95** the same with an int, bool, sequence or other integer-like object on the left. -/
theorem C95_compare_left {e : Env} {x : ZBV} {X : BVal} {o : ZObj} {O : Obj} (op : COp) (hx : Z3.Den e x X)
    (ho : Z3.DenObj e o O) (hf : o.Fits x.size) (hF : O.foreign) (hd : O.denotes ≠ none) :
    RelE (ZDenCmp e) (zBinC op o (.bv x)) (binC op O (.bv X)) := by
  have hn : 0 < X.size := by rw [hx.size_eq]; exact hx.pos
  have hno : ∀ y, o ≠ .bv y := by rintro y rfl; cases ho; exact hF
  have hnb : ∀ b, o ≠ .bit b := by rintro b rfl; cases ho; exact hF
  have key := zC_ref op.swap hx ho hf
  rcases operand_cases ho hno X.size with ⟨b, hb⟩ | ⟨hb, hd'⟩
  · rw [hb] at key
    obtain ⟨z, hz, hzd⟩ := key.ok_right
    rw [binC_rev hF (cfwd_ref op.swap _ hx.WF hn ho.WF hb), cslot_signed_ref, hx.kind_eq, readsSigned_root]
    have e1 : zBinC op o (.bv x) = zC op.swap x.root x o := by
      cases o <;> first | rfl | exact absurd rfl (hno _) | exact absurd rfl (hnb _)
    rw [e1, hz]
    exact hzd
  · exact absurd hd' hd

/-- **C95** z3 bits: `&`, `|`, `^`, `==`, `!=` with bits, bools and the ints 0 and 1 on the right. -/
theorem C95_bits {e : Env} {a : BoolE} {A B : Bool} {o : ZObj} {O : Obj} (ha : Z3.DenBit e a A)
    (ho : Z3.DenObj e o O) (hb : bitLike? O = some B) (i : Nat) :
    (∀ op ∈ [AOp.and, .or, .xor], RelE (ZDenRes e i) (zBinA op (.bit a) o) (binA op (.bit A) O i)) ∧
    (∀ op ∈ [COp.eq, .ne], RelE (ZDenCmp e) (zBinC op (.bit a) o) (binC op (.bit A) O)) ∧
    (∀ op ∈ [COp.eq, .ne], RelE (ZDenCmp e) (zBinC op o (.bit a)) (binC op O (.bit A))) := by
  have hc := C30_right A hb i
  have hc' := C30_left A hb i
  have ha : a e = A := ha
  obtain ⟨b, hb1, hb2⟩ : ∃ b, mkZBit o = .ok b ∧ b e = B := by
    cases ho with
    | int =>
      rename_i v
      simp only [bitLike?] at hb
      split at hb
      · rename_i h; subst h; cases hb; exact ⟨_, rfl, rfl⟩
      · split at hb
        · rename_i h0 h; subst h; cases hb; exact ⟨_, rfl, rfl⟩
        · cases hb
    | bool => simp [bitLike?] at hb; exact ⟨_, rfl, hb⟩
    | bit h => simp [bitLike?] at hb; exact ⟨_, rfl, by rw [← hb]; exact h⟩
    | bv => simp [bitLike?] at hb
    | seq => simp [bitLike?] at hb
    | other => simp [bitLike?] at hb
  have hno : ∀ y, o ≠ .bv y := by rintro y rfl; cases ho; simp [bitLike?] at hb
  refine ⟨?_, ?_, ?_⟩
  · intro op hop
    simp only [List.mem_cons, List.not_mem_nil, or_false] at hop
    rcases hop with rfl | rfl | rfl
    · rw [hc.1]; simp only [zBinA, zBitOp, hb1, ok_bind]; exact ⟨by simp [Z3.DenBit, ha, hb2], rfl⟩
    · rw [hc.2.1]; simp only [zBinA, zBitOp, hb1, ok_bind]; exact ⟨by simp [Z3.DenBit, ha, hb2], rfl⟩
    · rw [hc.2.2.1]; simp only [zBinA, zBitOp, hb1, ok_bind]; exact ⟨by simp [Z3.DenBit, ha, hb2], rfl⟩
  · intro op hop
    simp only [List.mem_cons, List.not_mem_nil, or_false] at hop
    have e1 : ∀ op f, zBitC op a o = .ok (some f) → zBinC op (.bit a) o = .ok f := by
      intro op f h
      cases o <;> first | exact absurd rfl (hno _) | (simp only [zBinC, h]; rfl)
    rcases hop with rfl | rfl
    · rw [hc.2.2.2.1, e1 .eq _ (by simp only [zBitC, zBitOp, hb1]; rfl)]
      simp only [RelE, ZDenCmp, Z3.DenBit, ha, hb2]
      cases A <;> cases B <;> rfl
    · rw [hc.2.2.2.2, e1 .ne _ (by simp only [zBitC, zBitOp, hb1]; rfl)]
      simp only [RelE, ZDenCmp, Z3.DenBit, ha, hb2]
      cases A <;> cases B <;> rfl
  · intro op hop
    simp only [List.mem_cons, List.not_mem_nil, or_false] at hop
    cases ho with
    | @bit b' B' h' =>
      cases hb1
      rcases hop with rfl | rfl
      · rw [hc'.2.2.2.1]
        simp only [zBinC, zBitC, zBitOp, mkZBit, bind, Except.bind, pure, Except.pure, RelE, ZDenCmp, Z3.DenBit, ha, hb2]
        cases A <;> cases B <;> rfl
      · rw [hc'.2.2.2.2]
        simp only [zBinC, zBitC, zBitOp, mkZBit, bind, Except.bind, pure, Except.pure, RelE, ZDenCmp, Z3.DenBit, ha, hb2]
        cases A <;> cases B <;> rfl
    | bv => exact absurd rfl (hno _)
    | _ =>
      rcases hop with rfl | rfl
      · rw [hc'.2.2.2.1]
        simp only [zBinC, COp.swap, zBitC, zBitOp, hb1, bind, Except.bind, pure, Except.pure, RelE, ZDenCmp, Z3.DenBit, ha, hb2]
        cases A <;> cases B <;> rfl
      · rw [hc'.2.2.2.2]
        simp only [zBinC, COp.swap, zBitC, zBitOp, hb1, bind, Except.bind, pure, Except.pure, RelE, ZDenCmp, Z3.DenBit, ha, hb2]
        cases A <;> cases B <;> rfl

/-- **C95** `o op x` with an object that is no z3 object on the left raises `TypeError` for every
arithmetic operator and every z3 operand, where the concrete family computes (all operators, except that
`>>` computes something else, C23). -/
theorem C95_left_raises {e : Env} {x : ZBV} {X : BVal} {o : ZObj} {O : Obj} (op : AOp) (i : Nat) (hx : Z3.Den e x X)
    (ho : Z3.DenObj e o O) (hF : O.foreign) (hd : O.denotes ≠ none) :
    zBinA op o (.bv x) = .error .typeError ∧ (∀ b, zBinA op o (.bit b) = .error .typeError) ∧
    ∃ Z, binA op O (.bv X) i = .ok (.bv Z, i) := by
  have hn : 0 < X.size := by rw [hx.size_eq]; exact hx.pos
  refine ⟨?_, ?_, ?_⟩
  · cases ho <;> first | rfl | exact hF.elim
  · intro b; cases ho <;> first | rfl | exact hF.elim
  · obtain ⟨v, hv⟩ := Option.ne_none_iff_exists'.1 hd
    by_cases hs : op = .shr ∧ x.root ≠ .sint
    · obtain ⟨rfl, hr⟩ := hs
      have e1 : X = ⟨.root x.root, X.size, X.value⟩ := by rw [← hx.kind_eq]
      rw [e1]
      exact ⟨_, C23_rshift_swapped hr hx.WF hF hv i⟩
    · rw [C23_left_partial hx.WF hn hF hv op (fun h => by
        rw [hx.kind_eq]; congr 1; by_contra hne; exact hs ⟨h, hne⟩) i]
      exact ⟨_, binA_same op (mod_WF X.kind X.size v) hx.WF hn rfl rfl i⟩

/-- **C95** comparing with an object that has no integer value raises `TypeError`, on either side; in the
concrete family `==` is then `False` and `!=` is `True`. -/
theorem C95_eq_none (op : COp) (x : ZBV) (hn : 0 < x.size) (b : Option Bool) :
    zBinC op (.bv x) (.other none b) = .error .typeError ∧ zBinC op (.other none b) (.bv x) = .error .typeError := by
  have key : ∀ op : COp, zC op x.root x (.other none b) = .error .typeError := by
    intro op
    have h1 : zcoerce x.root x.size (.other none b) = .error .typeError := by
      simp only [zcoerce, mkZBV, sort_ok hn]; rfl
    have h2 : ∀ f, ZBV.rel f x (.other none b) = .error .typeError := by
      intro f; simp only [ZBV.rel, ZBV.cast, h1]; rfl
    cases op <;> cases x.root <;> exact h2 _
  exact ⟨key op, key op.swap⟩

/-- **C95** `bit & vector`, `bit | vector`, `bit ^ vector`, `bit == vector`, `bit != vector` raise
`TypeError`; in the concrete family they use the truth value of the vector. -/
theorem C95_bit_vector (a : BoolE) (y : ZBV) (A : Bool) {Y : BVal} (hY : Y.WF) (hn : 0 < Y.size) (i : Nat) :
    (∀ op, zBinA op (.bit a) (.bv y) = .error .typeError) ∧
    (∀ op ∈ [COp.eq, .ne], zBinC op (.bit a) (.bv y) = .error .typeError) ∧
    (∀ op ∈ [AOp.and, .or, .xor], ∃ B, binA op (.bit A) (.bv Y) i = .ok (.bit B, i)) ∧
    (∀ op ∈ [COp.eq, .ne], ∃ B, binC op (.bit A) (.bv Y) = .ok (.bit B)) := by
  have hm : mkBit (.bv Y) = .ok (decide (Y.value ≠ 0)) := by
    rw [C30_construct (o := .bv Y) hY]
    simp [bitOf, Nat.pos_iff_ne_zero.mp hn]
  refine ⟨?_, ?_, ?_, ?_⟩
  · intro op; cases op <;> rfl
  · intro op hop
    simp only [List.mem_cons, List.not_mem_nil, or_false] at hop
    rcases hop with rfl | rfl <;> rfl
  · intro op hop
    simp only [List.mem_cons, List.not_mem_nil, or_false] at hop
    rcases hop with rfl | rfl | rfl <;>
      exact ⟨_, by simp only [binA, fwdA, bitA, bitA.castBit, hm, bind, StateT.bind, Except.bind, pure, Except.pure, pyLift, Except.map, Option.map]; rfl⟩
  · intro op hop
    simp only [List.mem_cons, List.not_mem_nil, or_false] at hop
    rcases hop with rfl | rfl <;>
      exact ⟨_, by simp only [binC, fwdC, bitC, bitC.castBit, hm, Bool.false_eq_true, if_false, bind, Except.bind]; rfl⟩

/-- **C95** mixed classes: with a `BitVector` or `NumVector` on the left and a signed vector on the right,
`//`, `%` and `>>` are unsigned in the z3 family and signed in the concrete one. -/
theorem C95_mixed {e : Env} {x y : ZBV} {X Y : BVal} (op : AOp) (i : Nat) (hx : Z3.Den e x X) (hy : Z3.Den e y Y)
    (hs : y.size = x.size) (hl : x.root = .bv ∨ x.root = .num) (hr : y.root = .sint) :
    (∃ z, zBinA op (.bv x) (.bv y) = .ok (.bv z) ∧
      Z3.Den e z ⟨X.kind, X.size, refA false op X.size X.value Y.value⟩) ∧
    binA op (.bv X) (.bv Y) i = .ok (.bv ⟨X.kind, X.size, refA true op X.size X.value Y.value⟩, i) := by
  have hn : 0 < X.size := by rw [hx.size_eq]; exact hx.pos
  have hX := hx.size_eq
  have hY := hy.size_eq
  have hs' : Y.size = X.size := by omega
  have hnl : x.root ≠ .sint := by rcases hl with h | h <;> rw [h] <;> decide
  constructor
  · have key := zA_ref op hx (.bv hy) trivial (fun h => hnl h.1)
    have hb : operand X.size (.bv Y) = .ok Y.value := by simp [operand, hs']
    rw [hb, decide_eq_false hnl] at key
    obtain ⟨z, hz, hzd⟩ := key.ok_right
    exact ⟨z, by simp only [zBinA, hz]; rfl, hzd⟩
  · have hc := (C25_operators x.root y.root X.size hn (a := X.value) (b := Y.value) hx.WF (by
      have := hy.WF; unfold BVal.WF at this; rwa [hs'] at this) i).1 op
    have e1 : X = ⟨.root x.root, X.size, X.value⟩ := by rw [← hx.kind_eq]
    have e2 : Y = ⟨.root y.root, X.size, Y.value⟩ := by rw [← hy.kind_eq, ← hs']
    rw [← e1, ← e2] at hc
    have : signedPair x.root y.root = true := by
      rw [hr]; rcases hl with h | h <;> rw [h] <;> rfl
    rw [hc, this, hx.kind_eq]

/-- **C95 refuted**: z3 operators are not the concrete ones: `1 + x`, `x == None`, and
`BitVector % SIntVector`. -/
theorem C95_refuted :
    ¬ (∀ (e : Env) (x : ZBV) (X : BVal) (v : Int), Z3.Den e x X →
      RelE (ZDenRes e 0) (zBinA .add (.int v) (.bv x)) (binA .add (.int v) (.bv X) 0)) ∧
    ¬ (∀ (e : Env) (x : ZBV) (X : BVal), Z3.Den e x X →
      ∃ b, zBinC .eq (.bv x) (.other none none) = .ok b) ∧
    ¬ (∀ (e : Env) (x y : ZBV) (X Y : BVal), Z3.Den e x X → Z3.Den e y Y →
      RelE (ZDenRes e 0) (zBinA .mod (.bv x) (.bv y)) (binA .mod (.bv X) (.bv Y) 0)) := by
  have hx : Z3.Den zEnv9 (zSym .bv 4 'y') ⟨.root .bv, 4, 2⟩ := ⟨rfl, rfl, by decide, _, rfl, by decide⟩
  have hy : Z3.Den zEnv9 (zSym .sint 4 'x') ⟨.root .sint, 4, 9⟩ := ⟨rfl, rfl, by decide, _, rfl, by decide⟩
  refine ⟨fun h => ?_, fun h => ?_, fun h => ?_⟩
  · have h1 := h _ _ _ 1 hx
    obtain ⟨h2, -, Z, h3⟩ := C95_left_raises (o := .int 1) .add 0 hx .int trivial (by decide)
    rw [h2, h3] at h1
    exact h1
  · obtain ⟨b, hb⟩ := h _ _ _ hx
    rw [(C95_eq_none .eq _ (by decide) none).1] at hb
    cases hb
  · have h1 := h _ _ _ _ _ hx hy
    obtain ⟨⟨z, h2, h3⟩, h4⟩ := C95_mixed .mod 0 hx hy rfl (.inl rfl) rfl
    rw [h2, h4] at h1
    have := den_unique h3 h1.1
    revert this
    decide

example : Z3.Den zEnv9 (zSym .sint 4 'x') ⟨.root .sint, 4, 9⟩ ∧ sameReading .sint .bv ∧ (Obj.int 3).foreign ∧
    (Obj.int 3).denotes ≠ none ∧ bitLike? (.int 1) = some true :=
  ⟨⟨rfl, rfl, by decide, _, rfl, by decide⟩, .inl rfl, trivial, by decide, rfl⟩

end HW
