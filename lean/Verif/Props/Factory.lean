import Verif.Model.Factory
import Verif.Props.SmtStruct
import Verif.Props.Z3Struct
import Verif.Props.BitVector

/-! # Properties C113 (`random` of vectors), C114 (`make_constant`) -/

namespace HW
open Spec

/-! ## C113 -/

theorem shl_one (w : Nat) : pyShl 1 w = .ok (2 ^ w) := by
  unfold pyShl
  rw [if_neg (by omega)]; simp

/-- **C113** (unsigned).  For `BitVector` and `UIntVector`, `T.random(w)` is a vector of class `T[w]`, and every vector of
that class is the result of exactly one number of the range given to `randint`: the distribution is uniform. -/
theorem C113_uniform_unsigned {T : Root} (hT : T = .bv ∨ T = .uint) (w : Nat) : ∃ lo hi, T.randomBounds w = .ok (lo, hi) ∧
    (∀ d, lo ≤ d → d ≤ hi → ∃ x : BVal, T.random w d = .ok x ∧ x.WF ∧ x.kind = .root T ∧ x.size = w) ∧
    ∀ x : BVal, x.WF → x.kind = .root T → x.size = w → ∃! d, (lo ≤ d ∧ d ≤ hi) ∧ T.random w d = .ok x := by
  have hb : T.randomBounds w = .ok (0, 2 ^ w - 1) := by
    rcases hT with rfl | rfl <;> simp [Root.randomBounds, Root.randomOwner, shl_one, bind, Except.bind, pure, Except.pure]
  have hr : ∀ d, T.random w d = .ok ⟨.root T, w, d % 2 ^ w⟩ := by
    intro d
    unfold Root.random
    rw [hb]
    rcases hT with rfl | rfl <;> simp [Root.randomOwner, bind, Except.bind, mkBV_eq, Obj.denotes]
  refine ⟨_, _, hb, fun d h1 h2 => ⟨_, hr d, ⟨?_, ?_⟩, rfl, rfl⟩, ?_⟩
  · exact Int.emod_nonneg _ (by positivity)
  · exact Int.emod_lt_of_pos _ (by positivity)
  · rintro ⟨k, n, v⟩ hx hk hn
    subst hk; subst hn
    obtain ⟨x1, x2⟩ := hx
    dsimp only at x1 x2
    refine ⟨v, ⟨⟨x1, by dsimp only; omega⟩, ?_⟩, ?_⟩
    · dsimp only; rw [hr, Int.emod_eq_of_lt x1 x2]
    · rintro d ⟨⟨d1, d2⟩, h⟩
      rw [hr] at h
      simp only [Except.ok.injEq, BVal.mk.injEq, true_and] at h
      dsimp only at d2
      rwa [Int.emod_eq_of_lt d1 (by omega)] at h

/-- **C113** (signed).  The same for `SIntVector` at width at least one; the number drawn is the signed value. -/
theorem C113_uniform_signed {w : Nat} (hw : 0 < w) : ∃ lo hi, Root.sint.randomBounds w = .ok (lo, hi) ∧
    (∀ d, lo ≤ d → d ≤ hi → ∃ x : BVal, Root.sint.random w d = .ok x ∧ x.WF ∧ x.kind = .root .sint ∧ x.size = w ∧
      x.toInt = .ok d) ∧
    ∀ x : BVal, x.WF → x.kind = .root .sint → x.size = w → ∃! d, (lo ≤ d ∧ d ≤ hi) ∧ Root.sint.random w d = .ok x := by
  have hb : Root.sint.randomBounds w = .ok (-(2 ^ (w - 1)), 2 ^ (w - 1) - 1) := by
    have : (w : Int) - 1 = ((w - 1 : Nat) : Int) := by omega
    simp [Root.randomBounds, Root.randomOwner, this, shl_one, bind, Except.bind, pure, Except.pure]
  have hr : ∀ d, Root.sint.random w d = .ok ⟨.root .sint, w, d % 2 ^ w⟩ := by
    intro d
    unfold Root.random
    rw [hb]
    simp [Root.randomOwner, bind, Except.bind, mkBV_eq, Obj.denotes]
  have hwf : ∀ d : Int, (BVal.mk (.root .sint) w (d % 2 ^ w)).WF := fun d =>
    ⟨Int.emod_nonneg _ (by positivity), Int.emod_lt_of_pos _ (by positivity)⟩
  refine ⟨_, _, hb, fun d h1 h2 => ⟨_, hr d, hwf d, rfl, rfl, ?_⟩, ?_⟩
  · rw [C03_int]
    exact (C03_unique (hwf d) hw d).2 ⟨h1, by dsimp only; omega, rfl⟩
  · rintro ⟨k, n, v⟩ hx hk hn
    subst hk
    dsimp only at hn
    subst hn
    have hs : (BVal.mk (.root .sint) n v).asSint = .ok (signed n v) := by
      rw [C03_as_sint hx, if_neg (by dsimp only; omega)]
    obtain ⟨s1, s2, s3⟩ := (C03_unique hx hw _).1 hs
    dsimp only at s1 s2 s3
    refine ⟨signed n v, ⟨⟨s1, by omega⟩, ?_⟩, ?_⟩
    · rw [hr, s3]
    · rintro d ⟨⟨d1, d2⟩, h⟩
      rw [hr] at h
      simp only [Except.ok.injEq, BVal.mk.injEq, true_and] at h
      have := (C03_unique hx hw d).2 ⟨d1, by dsimp only; omega, h⟩
      rw [hs] at this
      exact (Except.ok.inj this).symm

/-- **C113** (refuted).  `NumVector.random(w)` is a `BitVector[w]`, not a `NumVector[w]`; `SIntVector.random(0)` raises
`ValueError`, although `SIntVector[0]` exists. -/
theorem C113_refuted : (∀ (w : Nat) d, ∃ x, Root.num.random w d = .ok x ∧ x.kind = .root .bv) ∧
    (∀ d, Root.sint.random 0 d = .error .valueError) ∧ ∃ x : BVal, x.WF ∧ x.kind = .root .sint ∧ x.size = 0 := by
  refine ⟨fun w d => ⟨⟨.root .bv, w, d % 2 ^ w⟩, ?_, rfl⟩, fun d => rfl, ⟨.root .sint, 0, 0⟩, by decide, rfl, rfl⟩
  simp [Root.random, Root.randomBounds, Root.randomOwner, shl_one, bind, Except.bind, pure, Except.pure, mkBV_eq, Obj.denotes]

/-- **C113** (negative widths) raise `ValueError`. -/
theorem C113_negative (T : Root) {w : Int} (hw : w < 0) (d : Int) : T.random w d = .error .valueError := by
  have h1 : w - 1 < 0 := by omega
  cases T <;> simp [Root.random, Root.randomBounds, Root.randomOwner, pyShl, hw, h1, bind, Except.bind]

/-- **C113** (`Bit`). -/
theorem C113_bit (b : Bool) : ∃! d, (0 ≤ d ∧ d ≤ 1) ∧ bitRandom d = .ok b := by
  cases b
  · refine ⟨0, by decide, ?_⟩
    rintro d ⟨⟨h1, h2⟩, h⟩
    have : d = 0 ∨ d = 1 := by omega
    rcases this with rfl | rfl
    · rfl
    · exact absurd h (by decide)
  · refine ⟨1, by decide, ?_⟩
    rintro d ⟨⟨h1, h2⟩, h⟩
    have : d = 0 ∨ d = 1 := by omega
    rcases this with rfl | rfl
    · exact absurd h (by decide)
    · rfl

/-! ## C114 -/

/-- **C114** (concrete).  Called on a class or an instance, `make_constant(v, n)` is the vector of the unsized class at
width `n` with the value of `v`; without a size the width is the receiver's. -/
theorem C114_concrete (k : Kind) (own : Option Nat) (o : Obj) {v : Int} (ho : o.denotes = some v) (n : Nat) :
    makeConstant k own o (some n) = .ok ⟨k, n, wrap n v⟩ ∧ makeConstant k (some n) o none = .ok ⟨k, n, wrap n v⟩ := by
  have : ¬ ((n : Int) < 0) := by omega
  constructor <;> simp [makeConstant, sized, this, C02_construct, ho]

/-- The width asked for. -/
def askedSize (own : Nat) : Option Int → Int
  | none => own
  | some s => s

/-- **C114** (symbolic instances).  On an instance of the pysmt family `make_constant` denotes the concrete one, for every
width but 0. -/
theorem C114_smt_partial (S : Smt.Simplifier) {e : Smt.Env} {x : Smt.SBV} {X : BVal} (hx : Smt.Den e x X) {o : Smt.SObj}
    {O : Obj} (ho : Smt.DenObj e o O) {size : Option Int} (hn : askedSize x.size size ≠ 0)
    (hf : o.Fits (askedSize x.size size).toNat) :
    Smt.RelM (Smt.Den e) (x.makeConstant S o size) (makeConstant X.kind (some X.size) O size) := by
  obtain ⟨hk, hs, _⟩ := hx
  cases size with
  | none =>
    simp only [askedSize, Int.toNat_natCast] at hn hf
    simp only [Smt.SBV.makeConstant, makeConstant, hs]
    exact C36_construct S (by omega) hk ho hf
  | some s =>
    simp only [askedSize] at hn hf
    simp only [Smt.SBV.makeConstant, makeConstant, sized]
    split
    · rfl
    · exact C36_construct S (by omega) hk ho hf

/-- **C114** (z3 instances). -/
theorem C114_z3_partial {e : Z3.Env} {x : Z3.ZBV} {X : BVal} (hx : Z3.Den e x X) {o : Z3.ZObj} {O : Obj}
    (ho : Z3.DenObj e o O) {size : Option Int} (hn : askedSize x.size size ≠ 0)
    (hf : o.Fits (askedSize x.size size).toNat) :
    Z3.RelE (Z3.Den e) (x.makeConstant o size) (makeConstant X.kind (some X.size) O size) := by
  obtain ⟨hk, hs, hp, _⟩ := hx
  cases size with
  | none =>
    simp only [askedSize, Int.toNat_natCast] at hn hf
    simp only [Z3.ZBV.makeConstant, makeConstant, hs, hk]
    exact C94_construct hp ho hf
  | some s =>
    simp only [askedSize] at hn hf
    simp only [Z3.ZBV.makeConstant, makeConstant, sized, hk]
    split
    · exact .inl rfl
    · exact C94_construct (by omega) ho hf

/-- **C114** (refuted).  On a class the symbolic families raise whatever integer is given, with or without a size; given a
vector and a size they return a constant of the *vector's* class with the size as its value. -/
theorem C114_class_refuted (S : Smt.Simplifier) (v n : Int) :
    (Smt.classMakeConstant S (.int v) none = .error .typeError ∧
      Smt.classMakeConstant S (.int v) (some (.int n)) = .error .attributeError) ∧
    (Z3.classMakeConstant (.int v) none = .error .typeError ∧
      Z3.classMakeConstant (.int v) (some (.int n)) = .error .attributeError) ∧
    (∀ (e : Smt.Env) (x : Smt.SBV) (X : BVal), Smt.Den e x X → 0 < x.size →
      ∃ y, Smt.classMakeConstant S (.bv x) (some (.int n)) = .ok y ∧ Smt.Den e y ⟨X.kind, X.size, n % 2 ^ X.size⟩) := by
  refine ⟨⟨rfl, rfl⟩, ⟨rfl, rfl⟩, fun e x X hx hp => ?_⟩
  have h := C114_smt_partial S hx (o := .int n) (O := .int n) .int (size := none) (by simp only [askedSize]; omega) trivial
  have hc := (C114_concrete X.kind none (.int n) (v := n) rfl X.size).2
  rw [hc] at h
  unfold Smt.classMakeConstant
  dsimp only
  cases hm : x.makeConstant S (.int n) none with
  | error err => rw [hm] at h; exact h.elim
  | ok y => rw [hm] at h; exact ⟨y, rfl, h⟩

/-! The hypotheses are met. -/

example : ∃! d, ((-8 : Int) ≤ d ∧ d ≤ 7) ∧ Root.sint.random 4 d = .ok ⟨.root .sint, 4, 13⟩ := by
  obtain ⟨lo, hi, h, _, h2⟩ := C113_uniform_signed (w := 4) (by decide)
  cases h
  exact h2 ⟨.root .sint, 4, 13⟩ (by decide) rfl rfl

example : Root.uint.random 4 13 = .ok ⟨.root .uint, 4, 13⟩ := by decide

example (S : Smt.Simplifier) (e : Smt.Env) : Smt.RelM (Smt.Den e)
    (Smt.SBV.makeConstant S ⟨.root .bv, 8, .bvC 5 8⟩ (.int 3) (some 16)) (makeConstant (.root .bv) (some 8) (.int 3) (some 16)) :=
  C114_smt_partial S (x := ⟨.root .bv, 8, .bvC 5 8⟩) (X := ⟨.root .bv, 8, 5⟩) ⟨rfl, rfl, 5#8, rfl, rfl⟩ .int (by decide) trivial

end HW
