import Verif.Model.IntExpr
import Verif.Props.Operators

/-!
# Expressions on vectors and on Python ints (C128, C129)
-/

namespace HW
open Spec

/-! ## C128 the operators that commute with reduction modulo `2^n` -/

/-- The expression uses `+ - * & | ^ ~`, unary `-`, and `<<` by a literal in `[0, 2^n)` only. -/
def Expr.Modular (n : Nat) : Expr → Prop
  | .var _ => True
  | .lit _ => True
  | .neg a => a.Modular n
  | .inv a => a.Modular n
  | .op .shl a b => a.Modular n ∧ ∃ k, b = .lit k ∧ 0 ≤ k ∧ k < 2 ^ n
  | .op .shr _ _ => False
  | .op .fdiv _ _ => False
  | .op .mod _ _ => False
  | .op _ a b => a.Modular n ∧ b.Modular n

/-- A vector occurs in the expression. -/
def Expr.hasVar : Expr → Bool
  | .var _ => true
  | .lit _ => false
  | .neg a => a.hasVar
  | .inv a => a.hasVar
  | .op _ a b => a.hasVar || b.hasVar

/-- The arguments are canonical vectors of class `k` and width `n`. -/
def Args (k : Kind) (n : Nat) (x : Nat → BVal) : Prop :=
  ∀ i, (x i).kind = k ∧ (x i).size = n ∧ (x i).WF

theorem bitwise_wrap {f : Bool → Bool → Bool} {g : Int → Int → Int}
    (hg : ∀ a b i, ibit (g a b) i = f (ibit a i) (ibit b i)) (n : Nat) (a b : Int) :
    bitwise f n (a % 2 ^ n) (b % 2 ^ n) = g a b % 2 ^ n := by
  apply ibit_ext
  intro i
  rw [ibit_emod, hg]
  by_cases h : i < n
  · rw [ibit_bitwise _ _ _ _ _ h, ibit_emod, ibit_emod]; simp [h]
  · rw [ibit_lt (bitwise_bounds f n _ _).1 (bitwise_bounds f n _ _).2 (by omega)]; simp [h]

/-- The reference operators commute with the reduction. -/
theorem refA_wrap (s : Bool) (o : AOp) (n : Nat) (a b r : Int) (h : o.int a b = .ok r)
    (ho : o = .and ∨ o = .or ∨ o = .xor ∨ o = .add ∨ o = .sub ∨ o = .mul ∨ (o = .shl ∧ 0 ≤ b ∧ b < 2 ^ n)) :
    refA s o n (a % 2 ^ n) (b % 2 ^ n) = r % 2 ^ n := by
  rcases ho with rfl | rfl | rfl | rfl | rfl | rfl | ⟨rfl, h0, h1⟩ <;> simp only [AOp.int, Except.ok.injEq] at h
  · subst h; exact bitwise_wrap ibit_pyAnd n a b
  · subst h; exact bitwise_wrap ibit_pyOr n a b
  · subst h; exact bitwise_wrap ibit_pyXor n a b
  · subst h; exact (Int.add_emod _ _ _).symm
  · subst h; exact (Int.sub_emod _ _ _).symm
  · subst h; exact (Int.mul_emod _ _ _).symm
  · rw [pyShl, if_neg (by omega), Except.ok.injEq] at h
    subst h
    rw [Int.emod_eq_of_lt h0 h1]
    simp only [refA, wrap]
    rw [Int.mul_emod, Int.emod_emod_of_dvd _ (Int.dvd_refl _), ← Int.mul_emod]

/-- What an expression without `>> // %` may have computed: an int, or the vector it stands for. -/
def evalAs (k : Kind) (n : Nat) (isVec : Bool) (r : Int) : Obj := if isVec then .bv ⟨k, n, r % 2 ^ n⟩ else .int r

/-- An operator on two such values, if the reference agrees with Python's. -/
theorem opObj_as (k : Kind) (n : Nat) (hn : 0 < n) (o : AOp) (s t : Bool) {a b r : Int} (h : o.int a b = .ok r)
    (hr : refA (readsSigned k) o n (a % 2 ^ n) (b % 2 ^ n) = r % 2 ^ n)
    (hsw : o = .shr → s = false → t = true → k = .root .sint) :
    opObj o (evalAs k n s a) (evalAs k n t b) = .ok (evalAs k n (s || t) r) := by
  have wa : BVal.WF ⟨k, n, a % 2 ^ n⟩ := mod_WF k n a
  have wb : BVal.WF ⟨k, n, b % 2 ^ n⟩ := mod_WF k n b
  have key : binA o (.bv ⟨k, n, a % 2 ^ n⟩) (.bv ⟨k, n, b % 2 ^ n⟩) 0 = .ok (.bv ⟨k, n, r % 2 ^ n⟩, 0) := by
    rw [binA_same o wa wb hn rfl rfl, slot_signed_ref]
    dsimp only; rw [hr]
  cases s <;> cases t
  · simp [evalAs, opObj, h, bind, Except.bind, pure, Except.pure]
  · have := C23_left_partial wb hn (o := .int a) trivial rfl o (fun e => hsw e rfl rfl) 0
    simp only [evalAs, opObj, Bool.false_eq_true, if_false, if_true, Bool.or_true]
    rw [this]; dsimp only; rw [show wrap n a = a % 2 ^ n from rfl, key]; rfl
  · have := (C23_right wa hn (o := .int b) trivial rfl 0).1 o
    simp only [evalAs, opObj, Bool.false_eq_true, if_false, if_true, Bool.or_false]
    rw [this]; dsimp only; rw [show wrap n b = b % 2 ^ n from rfl, key]; rfl
  · simp only [evalAs, opObj, if_true, Bool.or_true]
    rw [key]; rfl

theorem negObj_as (k : Kind) (n : Nat) (s : Bool) (a : Int) :
    negObj (evalAs k n s a) = .ok (evalAs k n s (-a)) := by
  cases s
  · rfl
  · simp only [evalAs, if_true, negObj, unNeg, C05_bvneg]
    simp only [bind, Except.bind, pure, Except.pure, wrap]
    rw [show -(a % 2 ^ n) % 2 ^ n = -a % 2 ^ n by
      rw [← Int.zero_sub, ← Int.zero_sub a, Int.sub_emod, Int.emod_emod_of_dvd _ (Int.dvd_refl _), ← Int.sub_emod]]

theorem invObj_as (k : Kind) (n : Nat) (s : Bool) (a : Int) :
    invObj (evalAs k n s a) = .ok (evalAs k n s (pyNot a)) := by
  cases s
  · rfl
  · obtain ⟨r, h1, h2, h3, h4, h5⟩ := C06_bvnot ⟨k, n, a % 2 ^ n⟩
    simp only [evalAs, if_true, invObj, unInvert, h1]
    have : r = ⟨k, n, pyNot a % 2 ^ n⟩ := by
      refine C06_bits_determine h4 (mod_WF k n _) h2 h3 fun i hi => ?_
      rw [h3] at hi; dsimp only at hi
      rw [h5 i hi, ibit_emod, ibit_emod, ibit_pyNot]; simp [hi]
    rw [this]; rfl

/-- **C128** a function of `+ - * & | ^ ~`, unary `-` and `<<` by literals, run on vectors of one class, returns
what it returns on Python ints reduced modulo `2^n`.  The ints may be any numbers congruent to the arguments. -/
theorem C128_modular (k : Kind) {n : Nat} (hn : 0 < n) {x : Nat → BVal} (hx : Args k n x) (v : Nat → Int)
    (hv : ∀ i, v i % 2 ^ n = (x i).value) (e : Expr) (he : e.Modular n) :
    ∃ r, e.evalInt v = .ok r ∧
      e.evalObj x = .ok (if e.hasVar then .bv ⟨k, n, r % 2 ^ n⟩ else .int r) := by
  suffices H : ∃ r, e.evalInt v = .ok r ∧ e.evalObj x = .ok (evalAs k n e.hasVar r) from H
  induction e with
  | var i =>
    refine ⟨v i, rfl, ?_⟩
    obtain ⟨h1, h2, h3⟩ := hx i
    simp only [Expr.evalObj, evalAs, Expr.hasVar, if_true, hv i]
    subst h1; subst h2; rfl
  | lit c => exact ⟨c, rfl, rfl⟩
  | neg a ih =>
    obtain ⟨r, h1, h2⟩ := ih he
    exact ⟨-r, by rw [Expr.evalInt, h1]; rfl, by rw [Expr.evalObj, h2]; exact negObj_as k n _ r⟩
  | inv a ih =>
    obtain ⟨r, h1, h2⟩ := ih he
    exact ⟨pyNot r, by rw [Expr.evalInt, h1]; rfl, by rw [Expr.evalObj, h2]; exact invObj_as k n _ r⟩
  | op o a b iha ihb =>
    have go : ∀ (ra rb : Int), a.evalInt v = .ok ra → b.evalInt v = .ok rb →
        a.evalObj x = .ok (evalAs k n a.hasVar ra) → b.evalObj x = .ok (evalAs k n b.hasVar rb) →
        (o = .and ∨ o = .or ∨ o = .xor ∨ o = .add ∨ o = .sub ∨ o = .mul ∨ (o = .shl ∧ 0 ≤ rb ∧ rb < 2 ^ n)) →
        ∃ r, (Expr.op o a b).evalInt v = .ok r ∧
          (Expr.op o a b).evalObj x = .ok (evalAs k n (Expr.op o a b).hasVar r) := by
      intro ra rb h1 h2 g1 g2 ho
      have : ∃ r, o.int ra rb = .ok r := by
        rcases ho with rfl | rfl | rfl | rfl | rfl | rfl | ⟨rfl, h0, _⟩ <;>
          first | exact ⟨_, rfl⟩ | exact ⟨_, by rw [AOp.int, pyShl, if_neg (by omega)]⟩
      obtain ⟨r, hr⟩ := this
      refine ⟨r, by rw [Expr.evalInt, h1, h2]; exact hr, ?_⟩
      rw [Expr.evalObj, g1, g2]
      refine opObj_as k n hn o _ _ hr (refA_wrap _ o n ra rb r hr ho) fun e => ?_
      subst e; simp at ho
    cases o <;> simp only [Expr.Modular] at he
    case shl =>
      obtain ⟨ra, h1, g1⟩ := iha he.1
      obtain ⟨_, k', rfl, h0, hk⟩ := he
      exact go ra k' h1 rfl g1 rfl (by simp [h0, hk])
    all_goals
      obtain ⟨ra, h1, g1⟩ := iha he.1
      obtain ⟨rb, h2, g2⟩ := ihb he.2
      exact go ra rb h1 h2 g1 g2 (by simp)

/-- **C128** in terms of the constructor: convert the arguments to ints (signed or not), run the function there and
convert back. -/
theorem C128_reference (k : Kind) {n : Nat} (hn : 0 < n) {x : Nat → BVal} (hx : Args k n x) (e : Expr)
    (he : e.Modular n) (hvar : e.hasVar = true) :
    e.evalObj x = (do
      let r ← e.evalInt fun i => (x i).asUint
      return .bv (← mkBV k n (.int r))) ∧
    ∀ s : Nat → Int, (∀ i, (x i).asSint = .ok (s i)) →
      e.evalObj x = (do
        let r ← e.evalInt s
        return .bv (← mkBV k n (.int r))) := by
  have go : ∀ v : Nat → Int, (∀ i, v i % 2 ^ n = (x i).value) →
      e.evalObj x = (do
        let r ← e.evalInt v
        return .bv (← mkBV k n (.int r))) := by
    intro v hv
    obtain ⟨r, h1, h2⟩ := C128_modular k hn hx v hv e he
    rw [h1, h2, if_pos hvar]
    simp [bind, Except.bind, pure, Except.pure, mkBV_eq, Obj.denotes]
  constructor
  · exact go _ fun i => by obtain ⟨_, h2, h3⟩ := hx i; rw [BVal.asUint, ← h2]; exact h3.mod_eq
  · intro s hs
    refine go s fun i => ?_
    obtain ⟨_, h2, h3⟩ := hx i
    have := ((C03_unique h3 (by omega) (s i)).1 (hs i)).2.2
    rwa [h2] at this

/-- **C128** every identity of the integers is an identity of vectors, at every width. -/
theorem C128_identity (k : Kind) {n : Nat} (hn : 0 < n) {x : Nat → BVal} (hx : Args k n x) (a b : Expr)
    (ha : a.Modular n) (hb : b.Modular n) (va : a.hasVar = true) (vb : b.hasVar = true)
    (h : ∀ v : Nat → Int, a.evalInt v = b.evalInt v) : a.evalObj x = b.evalObj x := by
  rw [(C128_reference k hn hx a ha va).1, (C128_reference k hn hx b hb vb).1, h]

/-- **C128** overflow inside the expression does no harm: if the exact result is in the range of the class, it is the
result. -/
theorem C128_exact (k : Kind) {n : Nat} (hn : 0 < n) {x : Nat → BVal} (hx : Args k n x) (v : Nat → Int)
    (hv : ∀ i, v i % 2 ^ n = (x i).value) (e : Expr) (he : e.Modular n) (hvar : e.hasVar = true) {r : Int}
    (hr : e.evalInt v = .ok r) :
    ∃ z, e.evalObj x = .ok (.bv z) ∧ z.kind = k ∧ z.size = n ∧
      (0 ≤ r ∧ r < 2 ^ n → z.asUint = r) ∧
      (-(2 ^ (n - 1)) ≤ r ∧ r < 2 ^ (n - 1) → z.asSint = .ok r) := by
  obtain ⟨r', h1, h2⟩ := C128_modular k hn hx v hv e he
  rw [hr, Except.ok.injEq] at h1
  subst h1
  refine ⟨⟨k, n, r % 2 ^ n⟩, by rw [h2, if_pos hvar], rfl, rfl, fun h => ?_, fun h => ?_⟩
  · exact Int.emod_eq_of_lt h.1 h.2
  · exact (C03_unique (mod_WF k n r) hn r).2 ⟨h.1, h.2, rfl⟩

/-- `BitVector[4](15)`, `BitVector[4](9)`, ... -/
def demoArgs : Nat → BVal
  | 0 => ⟨.root .bv, 4, 15⟩
  | _ => ⟨.root .bv, 4, 9⟩

theorem demoArgs_args : Args (.root .bv) 4 demoArgs := by
  intro i
  rcases i with _ | i
  · exact ⟨rfl, rfl, by decide⟩
  · exact ⟨rfl, rfl, show BVal.WF ⟨.root .bv, 4, 9⟩ by decide⟩

/-- `(x * y - 7 * 19) ^ (~x << 2)`: 135 - 133 = 2, and `~15 << 2` is -64. -/
def demoExpr : Expr :=
  .op .xor (.op .sub (.op .mul (.var 0) (.var 1)) (.op .mul (.lit 7) (.lit 19))) (.op .shl (.inv (.var 0)) (.lit 2))

example : demoExpr.Modular 4 ∧ demoExpr.hasVar = true ∧
    demoExpr.evalObj demoArgs = .ok (.bv ⟨.root .bv, 4, 2⟩) ∧
    demoExpr.evalInt (fun i => (demoArgs i).value) = .ok (-62) :=
  ⟨⟨⟨⟨trivial, trivial⟩, trivial, trivial⟩, trivial, 2, rfl, by decide, by decide⟩, rfl, by decide, by decide⟩

/-- `(x + y) * (x - y) == x * x - y * y` and `~(x & y) == ~x | ~y`, at every width. -/
example (k : Kind) {n : Nat} (hn : 0 < n) {x : Nat → BVal} (hx : Args k n x) :
    (Expr.op .mul (.op .add (.var 0) (.var 1)) (.op .sub (.var 0) (.var 1))).evalObj x =
      (Expr.op .sub (.op .mul (.var 0) (.var 0)) (.op .mul (.var 1) (.var 1))).evalObj x ∧
    (Expr.inv (.op .and (.var 0) (.var 1))).evalObj x =
      (Expr.op .or (.inv (.var 0)) (.inv (.var 1))).evalObj x := by
  constructor
  · refine C128_identity k hn hx _ _ (by simp [Expr.Modular]) (by simp [Expr.Modular]) rfl rfl fun v => ?_
    simp only [Expr.evalInt, AOp.int, bind, Except.bind, Except.ok.injEq]
    ring
  · refine C128_identity k hn hx _ _ (by simp [Expr.Modular]) (by simp [Expr.Modular]) rfl rfl fun v => ?_
    simp only [Expr.evalInt, AOp.int, bind, Except.bind, Except.ok.injEq, pure, Except.pure]
    apply ibit_ext; intro i
    simp [ibit_pyNot, ibit_pyAnd, ibit_pyOr, Bool.not_and]

/-- **C128** the restriction to these operators is needed: with `>>`, `//`, `%`, or a shift by `2^n`, the vectors return
something else than the reduced int. -/
theorem C128_other_operators :
    ∀ e ∈ [Expr.op .shr (.op .add (.var 0) (.lit 1)) (.lit 1), .op .fdiv (.op .add (.var 0) (.lit 1)) (.lit 2),
        .op .mod (.op .add (.var 0) (.lit 1)) (.lit 3), .op .shl (.var 0) (.lit 16)],
      ∃ r, e.evalInt (fun i => (demoArgs i).asUint) = .ok r ∧
        e.evalObj demoArgs ≠ (mkBV (.root .bv) 4 (.int r)).map .bv := by
  intro e he
  simp only [List.mem_cons, List.not_mem_nil, or_false] at he
  rcases he with rfl | rfl | rfl | rfl
  · exact ⟨8, by decide, by decide⟩
  · exact ⟨8, by decide, by decide⟩
  · exact ⟨1, by decide, by decide⟩
  · exact ⟨15 * 2 ^ 16, by decide, by decide⟩

/-! ## C129 all operators agree as long as nothing overflows -/

/-- `v` is a value of the class: `[0, 2^n)`, or the signed range for `SIntVector`. -/
def InClass (k : Kind) (n : Nat) (v : Int) : Prop :=
  if readsSigned k then -(2 ^ (n - 1)) ≤ v ∧ v < 2 ^ (n - 1) else 0 ≤ v ∧ v < 2 ^ n

instance (k : Kind) (n : Nat) (v : Int) : Decidable (InClass k n v) := by unfold InClass; infer_instance

/-- The number a vector of the class stands for: `as_sint` or `as_uint`. -/
def reading (x : BVal) : Int := if readsSigned x.kind then signed x.size x.value else x.value

/-- On ints the expression returns, and all values on the way are values of the class. -/
def Expr.Fits (k : Kind) (n : Nat) (v : Nat → Int) : Expr → Prop
  | .var _ => True
  | .lit c => InClass k n c
  | .neg a => a.Fits k n v ∧ ∃ r, (Expr.neg a).evalInt v = .ok r ∧ InClass k n r
  | .inv a => a.Fits k n v ∧ ∃ r, (Expr.inv a).evalInt v = .ok r ∧ InClass k n r
  | .op o a b => a.Fits k n v ∧ b.Fits k n v ∧ ∃ r, (Expr.op o a b).evalInt v = .ok r ∧ InClass k n r

/-- No `>>` has an int to the left and a vector to the right (see C23), unless the class is `SIntVector`. -/
def Expr.NoIntShr (k : Kind) : Expr → Prop
  | .var _ => True
  | .lit _ => True
  | .neg a => a.NoIntShr k
  | .inv a => a.NoIntShr k
  | .op o a b => a.NoIntShr k ∧ b.NoIntShr k ∧
      (o = .shr → a.hasVar = false → b.hasVar = true → k = .root .sint)

theorem signed_wrap {n : Nat} (hn : 0 < n) {v : Int} (h : -(2 ^ (n - 1)) ≤ v ∧ v < 2 ^ (n - 1)) :
    signed n (v % 2 ^ n) = v := by
  obtain ⟨m, rfl⟩ : ∃ m, n = m + 1 := ⟨n - 1, by omega⟩
  have hp : (2 : Int) ^ (m + 1) = 2 * 2 ^ m := by rw [Int.pow_succ]; omega
  simp only [Nat.add_sub_cancel] at h
  unfold signed
  generalize (2 : Int) ^ m = p at *
  rw [hp]
  by_cases h0 : 0 ≤ v
  · rw [Int.emod_eq_of_lt h0 (by omega)]; split <;> omega
  · have : v % (2 * p) = v + 2 * p := by
      rw [← Int.add_emod_right, Int.emod_eq_of_lt (by omega) (by omega)]
    rw [this]; split <;> omega

theorem InClass.lt {k : Kind} {n : Nat} (hn : 0 < n) {v : Int} (h : InClass k n v) : v < 2 ^ n := by
  obtain ⟨m, rfl⟩ : ∃ m, n = m + 1 := ⟨n - 1, by omega⟩
  have hp : (2 : Int) ^ (m + 1) = 2 * 2 ^ m := by rw [Int.pow_succ]; omega
  have := two_pow_pos m
  unfold InClass at h
  simp only [Nat.add_sub_cancel] at h
  split at h <;> omega

theorem InClass.wrap {k : Kind} {n : Nat} (hn : 0 < n) {v : Int} (h : InClass k n v) :
    (if readsSigned k then signed n (v % 2 ^ n) else v % 2 ^ n) = v := by
  unfold InClass at h
  split at h <;> rename_i hs
  · rw [if_pos hs]; exact signed_wrap hn h
  · rw [if_neg hs]; exact Int.emod_eq_of_lt h.1 h.2

/-- In range, the reference operators are those of Python. -/
theorem refA_exact (k : Kind) {n : Nat} (hn : 0 < n) (o : AOp) {a b r : Int} (h : o.int a b = .ok r)
    (ha : InClass k n a) (hb : InClass k n b) (hr : InClass k n r) :
    refA (readsSigned k) o n (a % 2 ^ n) (b % 2 ^ n) = r % 2 ^ n := by
  have ea := ha.wrap hn
  have eb := hb.wrap hn
  have er := hr.wrap hn
  have hp := two_pow_pos n
  have hb0 : b ≠ 0 → b % 2 ^ n ≠ 0 := by
    intro h0 hz
    rw [hz] at eb
    unfold signed at eb
    split at eb <;> simp_all
  have hbs : 0 ≤ b → b % 2 ^ n = b := fun h0 => Int.emod_eq_of_lt h0 (hb.lt hn)
  cases o
  case shl =>
    have : 0 ≤ b := by
      simp only [AOp.int, pyShl] at h
      split at h
      · cases h
      · omega
    exact refA_wrap _ .shl n a b r h (by simp [this, hb.lt hn])
  case shr =>
    simp only [AOp.int, pyShr] at h
    split at h
    · cases h
    · rw [Except.ok.injEq, fdiv_two_pow] at h
      simp only [refA]
      rw [hbs (by omega)]
      cases hs : readsSigned k
      · rw [hs] at ea er
        simp only [Bool.false_eq_true, if_false] at ea er ⊢
        rw [ea, er, h]
      · rw [hs] at ea er
        simp only [if_true] at ea ⊢
        rw [ea, h]; rfl
  case fdiv =>
    simp only [AOp.int, pyFloorDiv] at h
    split at h
    · cases h
    · rename_i h0
      rw [Except.ok.injEq] at h
      simp only [refA]
      rw [if_neg (hb0 h0)]
      cases hs : readsSigned k
      · rw [hs] at ea eb er
        unfold InClass at ha hb
        simp only [hs, Bool.false_eq_true, if_false] at ea eb er ha hb ⊢
        rw [ea, eb, er, ← h, Int.fdiv_eq_ediv_of_nonneg _ hb.1]
        rw [Int.natCast_ediv, Int.toNat_of_nonneg ha.1, Int.toNat_of_nonneg hb.1]
      · rw [hs] at ea eb er
        simp only [if_true] at ea eb ⊢
        rw [ea, eb, h]; rfl
  case mod =>
    simp only [AOp.int, pyMod] at h
    split at h
    · cases h
    · rename_i h0
      rw [Except.ok.injEq] at h
      simp only [refA]
      rw [if_neg (hb0 h0)]
      cases hs : readsSigned k
      · rw [hs] at ea eb er
        unfold InClass at ha hb
        simp only [hs, Bool.false_eq_true, if_false] at ea eb er ha hb ⊢
        rw [ea, eb, er, ← h, Int.fmod_eq_emod_of_nonneg _ hb.1]
        rw [Int.natCast_emod, Int.toNat_of_nonneg ha.1, Int.toNat_of_nonneg hb.1]
      · rw [hs] at ea eb er
        simp only [if_true] at ea eb ⊢
        rw [ea, eb, h]; rfl
  all_goals exact refA_wrap _ _ n a b r h (by simp)

theorem reading_inClass {k : Kind} {n : Nat} (hn : 0 < n) {x : BVal} (hk : x.kind = k) (hs : x.size = n)
    (hx : x.WF) : InClass k n (reading x) ∧ reading x % 2 ^ n = x.value := by
  subst hk; subst hs
  unfold InClass reading
  split
  · exact ⟨signed_bounds hn hx.1 hx.2, by rw [signed_mod, hx.mod_eq]⟩
  · exact ⟨hx, hx.mod_eq⟩

theorem evalObj_fits (k : Kind) {n : Nat} (hn : 0 < n) {x : Nat → BVal} (hx : Args k n x) (e : Expr)
    (he : e.Fits k n fun i => reading (x i)) (hsw : e.NoIntShr k) :
    ∃ r, e.evalInt (fun i => reading (x i)) = .ok r ∧ InClass k n r ∧ e.evalObj x = .ok (evalAs k n e.hasVar r) := by
  induction e with
  | var i =>
    obtain ⟨h1, h2, h3⟩ := hx i
    obtain ⟨g1, g2⟩ := reading_inClass hn h1 h2 h3
    refine ⟨_, rfl, g1, ?_⟩
    simp only [Expr.evalObj, evalAs, Expr.hasVar, if_true, g2]
    subst h1; subst h2; rfl
  | lit c => exact ⟨c, rfl, he, rfl⟩
  | neg a ih =>
    obtain ⟨r, h1, -, h2⟩ := ih he.1 hsw
    obtain ⟨-, r', h3, h4⟩ := he
    have : r' = -r := by rw [Expr.evalInt, h1] at h3; cases h3; rfl
    subst this
    exact ⟨-r, h3, h4, by rw [Expr.evalObj, h2]; exact negObj_as k n _ r⟩
  | inv a ih =>
    obtain ⟨r, h1, -, h2⟩ := ih he.1 hsw
    obtain ⟨-, r', h3, h4⟩ := he
    have : r' = pyNot r := by rw [Expr.evalInt, h1] at h3; cases h3; rfl
    subst this
    exact ⟨pyNot r, h3, h4, by rw [Expr.evalObj, h2]; exact invObj_as k n _ r⟩
  | op o a b iha ihb =>
    obtain ⟨fa, fb, r, h3, h4⟩ := he
    obtain ⟨ra, h1, c1, g1⟩ := iha fa hsw.1
    obtain ⟨rb, h2, c2, g2⟩ := ihb fb hsw.2.1
    have hop : o.int ra rb = .ok r := by rw [Expr.evalInt, h1, h2] at h3; exact h3
    refine ⟨r, h3, h4, ?_⟩
    rw [Expr.evalObj, g1, g2]
    exact opObj_as k n hn o _ _ hop (refA_exact k hn o hop c1 c2 h4) hsw.2.2

/-- **C129 (partial)** a function of any operators, run on vectors of one class: if on Python ints it returns and no
value on the way leaves the range of the class, the vectors return exactly that.  Full claim: also with an int to the
left of `>>`; refuted below. -/
theorem C129_exact_partial (k : Kind) {n : Nat} (hn : 0 < n) {x : Nat → BVal} (hx : Args k n x) (e : Expr)
    (he : e.Fits k n fun i => reading (x i)) (hsw : e.NoIntShr k) (hvar : e.hasVar = true) :
    ∃ r z, e.evalInt (fun i => reading (x i)) = .ok r ∧ e.evalObj x = .ok (.bv z) ∧
      z.kind = k ∧ z.size = n ∧ z.WF ∧ reading z = r := by
  obtain ⟨r, h1, h2, h3⟩ := evalObj_fits k hn hx e he hsw
  refine ⟨r, ⟨k, n, r % 2 ^ n⟩, h1, ?_, rfl, rfl, mod_WF k n r, h2.wrap hn⟩
  rw [h3, evalAs, if_pos hvar]

/-- `int cmp int`. -/
def COp.int : COp → Int → Int → Bool
  | .eq, a, b => decide (a = b)
  | .ne, a, b => decide (a ≠ b)
  | .ge, a, b => decide (b ≤ a)
  | .gt, a, b => decide (b < a)
  | .le, a, b => decide (a ≤ b)
  | .lt, a, b => decide (a < b)

/-- **C129 (partial)** and so do comparisons of two such expressions. -/
theorem C129_compare_partial (k : Kind) {n : Nat} (hn : 0 < n) {x : Nat → BVal} (hx : Args k n x) (a b : Expr)
    (ha : a.Fits k n fun i => reading (x i)) (hb : b.Fits k n fun i => reading (x i)) (sa : a.NoIntShr k)
    (sb : b.NoIntShr k) (hvar : a.hasVar = true ∨ b.hasVar = true) (c : COp) :
    ∃ p q l r, a.evalInt (fun i => reading (x i)) = .ok p ∧ b.evalInt (fun i => reading (x i)) = .ok q ∧
      a.evalObj x = .ok l ∧ b.evalObj x = .ok r ∧ binC c l r = .ok (.bit (c.int p q)) := by
  obtain ⟨p, h1, cp, g1⟩ := evalObj_fits k hn hx a ha sa
  obtain ⟨q, h2, cq, g2⟩ := evalObj_fits k hn hx b hb sb
  refine ⟨p, q, _, _, h1, h2, g1, g2, ?_⟩
  have wp : BVal.WF ⟨k, n, p % 2 ^ n⟩ := mod_WF k n p
  have wq : BVal.WF ⟨k, n, q % 2 ^ n⟩ := mod_WF k n q
  have key : binC c (.bv ⟨k, n, p % 2 ^ n⟩) (.bv ⟨k, n, q % 2 ^ n⟩) = .ok (.bit (c.int p q)) := by
    rw [binC_fwd (by rintro _ ⟨⟩; simp [BVal.properSub, BVal.sameType])
      (cfwd_ref c _ wp hn (o := .bv ⟨k, n, q % 2 ^ n⟩) wq (b := q % 2 ^ n) (by simp [operand])), cslot_signed_ref]
    have ep := cp.wrap hn
    have eq := cq.wrap hn
    have inj : p % 2 ^ n = q % 2 ^ n ↔ p = q := ⟨fun h => by rw [← ep, ← eq, h], fun h => by rw [h]⟩
    cases c <;> simp only [refC, COp.int, ep, eq, inj, ne_eq]
  have hp' : wrap n p = p % 2 ^ n := rfl
  have hq' : wrap n q = q % 2 ^ n := rfl
  cases hva : a.hasVar <;> cases hvb : b.hasVar
  · simp [hva, hvb] at hvar
  · have := C23_left_compare wq hn (o := .int p) trivial rfl c
    simp only [evalAs, Bool.false_eq_true, if_false, if_true]
    rw [this]; exact key
  · have := (C23_right wp hn (o := .int q) trivial rfl 0).2 c
    simp only [evalAs, Bool.false_eq_true, if_false, if_true]
    rw [this]; exact key
  · simpa only [evalAs, if_true] using key

/-- `(x - y) // 2 + (12 >> 2) % y` on `SIntVector[5]`, with `-9` and `4`: `-7 + 3`. -/
def demoSigned : Nat → BVal
  | 0 => ⟨.root .sint, 5, 23⟩
  | _ => ⟨.root .sint, 5, 4⟩

def demoFloor : Expr :=
  .op .add (.op .fdiv (.op .sub (.var 0) (.var 1)) (.lit 2)) (.op .mod (.op .shr (.lit 12) (.lit 2)) (.var 1))

example : Args (.root .sint) 5 demoSigned ∧ demoFloor.Fits (.root .sint) 5 (fun i => reading (demoSigned i)) ∧
    demoFloor.NoIntShr (.root .sint) ∧ demoFloor.hasVar = true ∧
    demoFloor.evalObj demoSigned = .ok (.bv ⟨.root .sint, 5, 28⟩) ∧ reading ⟨.root .sint, 5, 28⟩ = -4 := by
  refine ⟨?_, ?_, ?_, rfl, by decide, by decide⟩
  · intro i
    rcases i with _ | i
    · exact ⟨rfl, rfl, by decide⟩
    · exact ⟨rfl, rfl, show BVal.WF ⟨.root .sint, 5, 4⟩ by decide⟩
  · refine ⟨⟨⟨trivial, trivial, -13, by decide, by decide⟩, by show InClass _ _ _; decide, -7, by decide, by decide⟩,
      ⟨⟨by show InClass _ _ _; decide, by show InClass _ _ _; decide, 3, by decide, by decide⟩, trivial, 3, by decide,
        by decide⟩, -4, by decide, by decide⟩
  · simp [demoFloor, Expr.NoIntShr]

/-- **C129** is false with an int to the left of `>>`: `8 >> x` is `x >> 8`. -/
theorem C129_refuted :
    ¬ ∀ (k : Kind) (n : Nat), 0 < n → ∀ x, Args k n x → ∀ e : Expr, e.Fits k n (fun i => reading (x i)) →
      e.hasVar = true → ∃ r z, e.evalInt (fun i => reading (x i)) = .ok r ∧ e.evalObj x = .ok (.bv z) ∧
        reading z = r := by
  intro H
  obtain ⟨r, z, h1, h2, h3⟩ := H (.root .uint) 4 (by decide) (fun _ => ⟨.root .uint, 4, 2⟩)
    (fun _ => ⟨rfl, rfl, show BVal.WF ⟨.root .uint, 4, 2⟩ by decide⟩) (.op .shr (.lit 8) (.var 0))
    ⟨by show InClass _ _ _; decide, trivial, 2, by decide, by decide⟩ rfl
  have e1 : (Expr.op .shr (.lit 8) (.var 0)).evalInt
    (fun _ => reading (BVal.mk (.root .uint) 4 2)) = .ok 2 := by decide
  have e2 : (Expr.op .shr (.lit 8) (.var 0)).evalObj (fun _ => BVal.mk (.root .uint) 4 2) =
    .ok (.bv ⟨.root .uint, 4, 0⟩) := by decide
  rw [e1] at h1; rw [e2] at h2
  cases h1; cases h2
  exact absurd h3 (by decide)

end HW
