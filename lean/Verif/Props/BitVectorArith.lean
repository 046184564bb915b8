import Verif.Props.BitVectorShift

/-!
# Properties C09 – C13: comparisons and division
-/

namespace HW
open Spec

/-! ## C09 unsigned comparisons -/

theorem C09_bveq (x : BVal) (o : Obj) :
    x.bveq o = (operand x.size o).map fun b => decide (x.value = b) := by
  rw [← bind_ok_map]
  exact cast_eq' _ fun y _ => by simp only [mkBit, BVal.asUint]; rfl

theorem C09_bvne (x : BVal) (o : Obj) :
    x.bvne o = (operand x.size o).map fun b => decide (x.value ≠ b) := by
  rw [← bind_ok_map]
  exact cast_eq' _ fun y _ => by
    simp only [mkBit, BVal.asUint, Except.ok.injEq, bne, decide_not]; rfl

theorem C09_bvult (x : BVal) (o : Obj) :
    x.bvult o = (operand x.size o).map fun b => decide (x.value < b) := by
  rw [← bind_ok_map]
  exact cast_eq' _ fun y _ => by simp only [mkBit, BVal.asUint]; rfl

theorem C09_bvule (x : BVal) (o : Obj) :
    x.bvule o = (operand x.size o).map fun b => decide (x.value ≤ b) := by
  rw [← bind_ok_map]
  exact cast_eq' _ fun y _ => by simp only [mkBit, BVal.asUint]; rfl

theorem C09_bvugt (x : BVal) (o : Obj) :
    x.bvugt o = (operand x.size o).map fun b => decide (b < x.value) := by
  rw [← bind_ok_map]
  exact cast_eq' _ fun y _ => by simp only [mkBit, BVal.asUint, gt_iff_lt]

theorem C09_bvuge (x : BVal) (o : Obj) :
    x.bvuge o = (operand x.size o).map fun b => decide (b ≤ x.value) := by
  rw [← bind_ok_map]
  exact cast_eq' _ fun y _ => by simp only [mkBit, BVal.asUint, ge_iff_le]

theorem C09_bvcomp (x : BVal) (o : Obj) :
    x.bvcomp o = (operand x.size o).map fun b => ⟨x.kind, 1, if x.value = b then 1 else 0⟩ := by
  rw [← bind_ok_map]
  exact cast_eq' _ fun y _ => by
    rw [mkBV_eq]
    by_cases h : x.value = y.value <;> simp [Obj.denotes, BVal.asUint, h]

/-- **C09** trichotomy: exactly one of `<`, `==`, `>` on any two vectors of one width. -/
theorem C09_trichotomy (x y : BVal) (h : y.size = x.size) :
    ∃ a b c, x.bvult (.bv y) = .ok a ∧ x.bveq (.bv y) = .ok b ∧ x.bvugt (.bv y) = .ok c ∧
      ((a = true ∧ b = false ∧ c = false) ∨ (a = false ∧ b = true ∧ c = false) ∨
       (a = false ∧ b = false ∧ c = true)) := by
  have hop : operand x.size (.bv y) = .ok y.value := by simp [operand, h]
  rw [C09_bvult, C09_bveq, C09_bvugt, hop]
  refine ⟨_, _, _, rfl, rfl, rfl, ?_⟩
  simp only [decide_eq_true_eq, decide_eq_false_iff_not]
  omega

example : (⟨.root .bv, 8, 7⟩ : BVal).bvult (.int 200) = .ok true := by decide

/-! ## C10 signed comparisons -/

/-- Shape shared by the four signed comparisons. -/
def SignedCmp (m : BVal → Obj → PyM Bool) (f : Int → Int → Bool) : Prop :=
  ∀ (x : BVal) (o : Obj), x.WF → o.WF →
    m x o = (operand x.size o).bind fun b =>
      if x.size = 0 then .error .indexError
      else .ok (f (signed x.size x.value) (signed x.size b))

theorem C10_bvslt : SignedCmp BVal.bvslt (fun a b => decide (a < b)) := by
  intro x o hx ho
  refine cast_eq _ ho fun y hy hs => ?_
  rw [asSint_eq hx, asSint_eq hy, hs]
  by_cases hn : x.size = 0
  · simp [hn, bind, Except.bind]
  · simp [hn, bind, Except.bind, mkBit]

theorem signed_inj {n : Nat} {a b : Int} (ha : 0 ≤ a ∧ a < 2 ^ n) (hb : 0 ≤ b ∧ b < 2 ^ n) :
    signed n a = signed n b ↔ a = b := by
  constructor
  · intro h
    have h1 := signed_mod n a
    have h2 := signed_mod n b
    rw [Int.emod_eq_of_lt ha.1 ha.2] at h1
    rw [Int.emod_eq_of_lt hb.1 hb.2] at h2
    rw [← h1, ← h2, h]
  · rintro rfl; rfl

theorem C10_bvsle : SignedCmp BVal.bvsle (fun a b => decide (a ≤ b)) := by
  intro x o hx ho
  unfold BVal.bvsle
  rw [C10_bvslt x o hx ho, C09_bveq]
  cases hop : operand x.size o with
  | error e => simp [bind, Except.bind]
  | ok b =>
    have hb := operand_bounds ho hop
    by_cases hn : x.size = 0
    · simp [bind, Except.bind, hn]
    · simp only [bind, Except.bind, hn, if_false, Except.map, pure, Except.pure, BVal.bitOr,
        Except.ok.injEq]
      have := signed_inj hx hb
      rw [Bool.eq_iff_iff]; simp; omega

theorem C10_bvsgt : SignedCmp BVal.bvsgt (fun a b => decide (b < a)) := by
  intro x o hx ho
  unfold BVal.bvsgt
  rw [C10_bvsle x o hx ho]
  cases hop : operand x.size o with
  | error e => simp [bind, Except.bind]
  | ok b =>
    by_cases hn : x.size = 0
    · simp [bind, Except.bind, hn]
    · simp only [bind, Except.bind, hn, if_false, pure, Except.pure, BVal.bitNot, Except.ok.injEq]
      rw [Bool.eq_iff_iff]; simp

theorem C10_bvsge : SignedCmp BVal.bvsge (fun a b => decide (b ≤ a)) := by
  intro x o hx ho
  unfold BVal.bvsge
  rw [C10_bvslt x o hx ho]
  cases hop : operand x.size o with
  | error e => simp [bind, Except.bind]
  | ok b =>
    by_cases hn : x.size = 0
    · simp [bind, Except.bind, hn]
    · simp only [bind, Except.bind, hn, if_false, pure, Except.pure, BVal.bitNot, Except.ok.injEq]
      rw [Bool.eq_iff_iff]; simp

/-- **C10** trichotomy for the signed order together with `==`. -/
theorem C10_trichotomy {x y : BVal} (hx : x.WF) (hy : y.WF) (h : y.size = x.size)
    (hn : 0 < x.size) :
    ∃ a b c, x.bvslt (.bv y) = .ok a ∧ x.bveq (.bv y) = .ok b ∧ x.bvsgt (.bv y) = .ok c ∧
      ((a = true ∧ b = false ∧ c = false) ∨ (a = false ∧ b = true ∧ c = false) ∨
       (a = false ∧ b = false ∧ c = true)) := by
  have hop : operand x.size (.bv y) = .ok y.value := by simp [operand, h]
  have hy' := hy
  unfold BVal.WF at hy'
  rw [h] at hy'
  rw [C10_bvslt x (.bv y) hx hy, C09_bveq, C10_bvsgt x (.bv y) hx hy, hop]
  refine ⟨_, _, _, by simp only [Except.bind]; rw [if_neg (by omega)], rfl,
    by simp only [Except.bind]; rw [if_neg (by omega)], ?_⟩
  have := signed_inj hx hy'
  simp only [decide_eq_true_eq, decide_eq_false_iff_not]
  omega

example : BVal.WF ⟨.root .sint, 4, 15⟩ ∧
    (⟨.root .sint, 4, 15⟩ : BVal).bvslt (.int 3) = .ok true := by decide

/-! ## C11 unsigned division -/

/-- **C11** quotient and remainder are those of natural-number division; division by zero gives all
ones, remainder by zero the dividend. -/
theorem C11_bvudiv {x : BVal} (hx : x.WF) {o : Obj} (ho : o.WF) :
    x.bvudiv o = (operand x.size o).map fun b =>
      ⟨x.kind, x.size, if b = 0 then 2 ^ x.size - 1 else ((x.value.toNat / b.toNat : Nat) : Int)⟩ := by
  rw [← bind_ok_map]
  refine cast_eq _ ho fun y hy _ => ?_
  have hp := two_pow_pos x.size
  by_cases hb : y.value = 0
  · simp only [BVal.asUint, hb, if_true, mk'_eq]
    rw [Int.emod_eq_of_lt (by omega) (by omega)]
  · simp only [BVal.asUint, hb, if_false, pyFloorDiv, bind, Except.bind, mk'_eq]
    rw [Int.fdiv_eq_ediv_of_nonneg _ hy.1]
    have e : ((x.value.toNat / y.value.toNat : Nat) : Int) = x.value / y.value := by
      push_cast; rw [Int.toNat_of_nonneg hx.1, Int.toNat_of_nonneg hy.1]
    rw [e, Int.emod_eq_of_lt (Int.ediv_nonneg hx.1 hy.1)
      (Int.lt_of_le_of_lt (Int.ediv_le_self _ hx.1) hx.2)]

theorem C11_bvurem {x : BVal} (hx : x.WF) {o : Obj} (ho : o.WF) :
    x.bvurem o = (operand x.size o).map fun b =>
      ⟨x.kind, x.size, if b = 0 then x.value else ((x.value.toNat % b.toNat : Nat) : Int)⟩ := by
  rw [← bind_ok_map]
  refine cast_eq _ ho fun y hy _ => ?_
  by_cases hb : y.value = 0
  · simp only [BVal.asUint, hb, if_true]
  · simp only [BVal.asUint, hb, if_false, pyMod, bind, Except.bind, mk'_eq]
    rw [Int.fmod_eq_emod_of_nonneg _ hy.1]
    have e : ((x.value.toNat % y.value.toNat : Nat) : Int) = x.value % y.value := by
      push_cast; rw [Int.toNat_of_nonneg hx.1, Int.toNat_of_nonneg hy.1]
    have hpos : 0 < y.value := by have := hy.1; omega
    have h1 : x.value % y.value ≤ x.value := by
      have h2 := Int.emod_add_mul_ediv x.value y.value
      have h3 : 0 ≤ y.value * (x.value / y.value) :=
        Int.mul_nonneg hy.1 (Int.ediv_nonneg hx.1 hy.1)
      omega
    have := hx.2
    rw [e, Int.emod_eq_of_lt (Int.emod_nonneg _ hb) (by omega)]

/-- **C11** the division identity, without wrap-around. -/
theorem C11_identity {x y : BVal} (hx : x.WF) (hy : y.WF) (hs : y.size = x.size) (h0 : y.value ≠ 0) :
    ∃ q r, x.bvudiv (.bv y) = .ok q ∧ x.bvurem (.bv y) = .ok r ∧
      x.value = q.value * y.value + r.value ∧ 0 ≤ r.value ∧ r.value < y.value := by
  have hop : operand x.size (.bv y) = .ok y.value := by simp [operand, hs]
  rw [C11_bvudiv hx (o := .bv y) hy, C11_bvurem hx (o := .bv y) hy, hop]
  refine ⟨_, _, rfl, rfl, ?_⟩
  have hpos : 0 < y.value := by have := hy.1; omega
  simp only [h0, if_false]
  push_cast
  rw [Int.toNat_of_nonneg hx.1, Int.toNat_of_nonneg hy.1]
  refine ⟨?_, Int.emod_nonneg _ h0, Int.emod_lt_of_pos _ hpos⟩
  have := Int.emod_add_mul_ediv x.value y.value
  rw [Int.mul_comm] at this; omega

example : (⟨.root .uint, 8, 200⟩ : BVal).bvudiv (.int 7) = .ok ⟨.root .uint, 8, 28⟩ ∧
    (⟨.root .uint, 8, 200⟩ : BVal).bvudiv (.int 0) = .ok ⟨.root .uint, 8, 255⟩ := by decide

/-! ## C13 signed division as implemented (floor) -/

theorem bvsdiv_floor {x : BVal} (hx : x.WF) {o : Obj} (ho : o.WF) :
    x.bvsdiv o = (operand x.size o).bind fun b =>
      if x.size = 0 then .error .indexError
      else if b = 0 then .ok ⟨x.kind, x.size, 2 ^ x.size - 1⟩
      else .ok ⟨x.kind, x.size,
        wrap x.size ((signed x.size x.value).fdiv (signed x.size b))⟩ := by
  refine cast_eq _ ho fun y hy hs => ?_
  rw [asSint_eq hx, asSint_eq hy, hs]
  have hp := two_pow_pos x.size
  have hz : signed x.size y.value = 0 ↔ y.value = 0 := by
    have hy' := hy; unfold BVal.WF at hy'; rw [hs] at hy'
    simp only [signed]; split <;> omega
  by_cases hn : x.size = 0
  · simp [hn, bind, Except.bind]
  · by_cases hb : y.value = 0
    · simp only [hn, if_false, bind, Except.bind, hz.mpr hb, if_true, if_pos hb, mk'_eq]
      rw [Int.emod_eq_of_lt (by omega) (by omega)]
    · simp only [hn, if_false, bind, Except.bind, hz, hb, mk'_eq, pyFloorDiv, wrap]

theorem bvsrem_floor {x : BVal} (hx : x.WF) {o : Obj} (ho : o.WF) :
    x.bvsrem o = (operand x.size o).bind fun b =>
      if x.size = 0 then .error .indexError
      else if b = 0 then .ok x
      else .ok ⟨x.kind, x.size,
        wrap x.size ((signed x.size x.value).fmod (signed x.size b))⟩ := by
  refine cast_eq _ ho fun y hy hs => ?_
  rw [asSint_eq hx, asSint_eq hy, hs]
  have hz : signed x.size y.value = 0 ↔ y.value = 0 := by
    have hy' := hy; unfold BVal.WF at hy'; rw [hs] at hy'
    simp only [signed]; split <;> omega
  by_cases hn : x.size = 0
  · simp [hn, bind, Except.bind]
  · by_cases hb : y.value = 0
    · simp only [hn, if_false, bind, Except.bind, hz.mpr hb, if_true, if_pos hb]
    · simp only [hn, if_false, bind, Except.bind, hz, hb, mk'_eq, pyMod, wrap]

/-- **C13** signed division: there are integers `q`, `r` with `a = q*b + r` (exactly, on the signed
values) and `r` between zero and the divisor, such that `bvsdiv` is `q` mod `2^n` and the signed
value of `bvsrem` is `r`.  These conditions determine `q` and `r`. -/
theorem C13_division {x y : BVal} (hx : x.WF) (hy : y.WF) (hs : y.size = x.size) (hn : 0 < x.size)
    (h0 : y.value ≠ 0) :
    ∃ q r : Int, signed x.size x.value = q * signed x.size y.value + r ∧
      (0 ≤ r ∧ r < signed x.size y.value ∨ signed x.size y.value < r ∧ r ≤ 0) ∧
      x.bvsdiv (.bv y) = .ok ⟨x.kind, x.size, wrap x.size q⟩ ∧
      ∃ z, x.bvsrem (.bv y) = .ok z ∧ z.kind = x.kind ∧ z.size = x.size ∧ z.asSint = .ok r := by
  have hop : operand x.size (.bv y) = .ok y.value := by simp [operand, hs]
  have hy' := hy; unfold BVal.WF at hy'; rw [hs] at hy'
  have hb0 : signed x.size y.value ≠ 0 := by simp only [signed]; split <;> omega
  have hbb := signed_bounds hn hy'.1 hy'.2
  generalize hB : signed x.size y.value = B at *
  generalize hA : signed x.size x.value = A at *
  have hr : 0 ≤ A.fmod B ∧ A.fmod B < B ∨ B < A.fmod B ∧ A.fmod B ≤ 0 := by
    rcases Int.lt_or_gt_of_ne hb0 with h | h
    · right
      have e : A.fmod B = -((-A).fmod (-B)) := by rw [Int.neg_fmod_neg]; omega
      have h1 := Int.fmod_nonneg_of_pos (-A) (show 0 < -B by omega)
      have h2 := Int.fmod_lt_of_pos (-A) (show 0 < -B by omega)
      omega
    · left
      exact ⟨Int.fmod_nonneg_of_pos A h, Int.fmod_lt_of_pos A h⟩
  refine ⟨A.fdiv B, A.fmod B, ?_, hr, ?_, ?_⟩
  · have := Int.mul_fdiv_add_fmod A B
    rw [Int.mul_comm] at this; omega
  · rw [bvsdiv_floor hx (o := .bv y) hy, hop]
    simp only [Except.bind, hA, hB, h0, if_false]
    rw [if_neg (by omega)]
  · refine ⟨⟨x.kind, x.size, wrap x.size (A.fmod B)⟩, ?_, rfl, rfl, ?_⟩
    · rw [bvsrem_floor hx (o := .bv y) hy, hop]
      simp only [Except.bind, hA, hB, h0, if_false]
      rw [if_neg (by omega)]
    · rw [C03_unique (show BVal.WF ⟨x.kind, x.size, wrap x.size (A.fmod B)⟩ from mod_WF _ _ _) hn]
      refine ⟨by dsimp only; omega, by dsimp only; omega, rfl⟩

/-- **C13** division by zero: all ones, and the dividend. -/
theorem C13_by_zero {x y : BVal} (hx : x.WF) (hy : y.WF) (hs : y.size = x.size) (hn : 0 < x.size)
    (h0 : y.value = 0) :
    x.bvsdiv (.bv y) = .ok ⟨x.kind, x.size, 2 ^ x.size - 1⟩ ∧ x.bvsrem (.bv y) = .ok x := by
  have hop : operand x.size (.bv y) = .ok y.value := by simp [operand, hs]
  rw [bvsdiv_floor hx (o := .bv y) hy, bvsrem_floor hx (o := .bv y) hy, hop]
  simp only [Except.bind, h0, if_true]
  rw [if_neg (by omega), if_neg (by omega)]
  exact ⟨rfl, rfl⟩

example : (⟨.root .sint, 4, 9⟩ : BVal).bvsdiv (.int 2) = .ok ⟨.root .sint, 4, 12⟩ ∧
    (⟨.root .sint, 4, 9⟩ : BVal).bvsrem (.int 2) = .ok ⟨.root .sint, 4, 1⟩ := by decide

/-! ## C12 SMT-LIB signed division -/

/-- SMT-LIB `bvsdiv` on signed values: truncation toward zero; divisor zero gives 1 for a negative
dividend and -1 otherwise. -/
def smtSdiv (a b : Int) : Int := if b = 0 then (if a < 0 then 1 else -1) else a.tdiv b

/-- SMT-LIB `bvsrem` on signed values: sign of the dividend; divisor zero gives the dividend. -/
def smtSrem (a b : Int) : Int := if b = 0 then a else a.tmod b

/-- **C12 (partial)**: full claim: `bvsdiv` is SMT-LIB `bvsdiv` for all operands.  Proved exactly
where floor and truncation agree: divisor zero with non-negative dividend, equal signs, or exact
division.  `C12_refuted` gives a counterexample outside, and `C12_sdiv_iff` shows the condition is
necessary for nonzero divisors. -/
theorem C12_sdiv_partial {x y : BVal} (hx : x.WF) (hy : y.WF) (hs : y.size = x.size)
    (hn : 0 < x.size)
    (hc : (signed x.size y.value = 0 ∧ 0 ≤ signed x.size x.value) ∨
      (0 < signed x.size y.value ∧ 0 ≤ signed x.size x.value) ∨
      (signed x.size y.value < 0 ∧ signed x.size x.value ≤ 0) ∨
      (signed x.size y.value ≠ 0 ∧ signed x.size y.value ∣ signed x.size x.value)) :
    x.bvsdiv (.bv y) = .ok ⟨x.kind, x.size,
      wrap x.size (smtSdiv (signed x.size x.value) (signed x.size y.value))⟩ := by
  have hop : operand x.size (.bv y) = .ok y.value := by simp [operand, hs]
  have hy' := hy; unfold BVal.WF at hy'; rw [hs] at hy'
  have hz : y.value = 0 ↔ signed x.size y.value = 0 := by
    simp only [signed]; split <;> omega
  rw [bvsdiv_floor hx (o := .bv y) hy, hop]
  simp only [Except.bind, hz]
  rw [if_neg (by omega)]
  generalize signed x.size y.value = B at *
  generalize signed x.size x.value = A at *
  by_cases hB : B = 0
  · subst hB
    have hA : 0 ≤ A := by omega
    simp only [if_true, smtSdiv, if_neg (show ¬ A < 0 by omega)]
    have h1 : (1 : Int) ≤ 2 ^ x.size := two_pow_pos _
    have e : wrap x.size (-1) = 2 ^ x.size - 1 := by
      rw [wrap, ← Int.add_emod_right, Int.emod_eq_of_lt (by omega) (by omega)]; omega
    rw [e]
  · simp only [hB, if_false, smtSdiv]
    congr 3
    rw [Int.fdiv_eq_ediv, Int.tdiv_eq_ediv]
    by_cases hd : B ∣ A
    · simp [hd]
    · by_cases hA0 : A = 0
      · subst hA0; simp
      · have : (0 < B ∧ 0 ≤ A) ∨ (B < 0 ∧ A ≤ 0) := by omega
        rcases this with ⟨h1, h2⟩ | ⟨h1, h2⟩
        · simp [show 0 ≤ B by omega, h2]
        · simp [hd, show ¬ 0 ≤ B by omega, show ¬ 0 ≤ A by omega, Int.sign_eq_neg_one_of_neg h1]
          rfl

theorem C12_srem_partial {x y : BVal} (hx : x.WF) (hy : y.WF) (hs : y.size = x.size)
    (hn : 0 < x.size)
    (hc : (signed x.size y.value = 0) ∨
      (0 < signed x.size y.value ∧ 0 ≤ signed x.size x.value) ∨
      (signed x.size y.value < 0 ∧ signed x.size x.value ≤ 0) ∨
      (signed x.size y.value ∣ signed x.size x.value)) :
    x.bvsrem (.bv y) = .ok ⟨x.kind, x.size,
      wrap x.size (smtSrem (signed x.size x.value) (signed x.size y.value))⟩ := by
  have hop : operand x.size (.bv y) = .ok y.value := by simp [operand, hs]
  have hy' := hy; unfold BVal.WF at hy'; rw [hs] at hy'
  have hz : y.value = 0 ↔ signed x.size y.value = 0 := by
    simp only [signed]; split <;> omega
  rw [bvsrem_floor hx (o := .bv y) hy, hop]
  simp only [Except.bind, hz]
  rw [if_neg (by omega)]
  have hxm := signed_mod x.size x.value
  rw [hx.mod_eq] at hxm
  generalize signed x.size y.value = B at *
  generalize signed x.size x.value = A at *
  by_cases hB : B = 0
  · subst hB
    simp only [if_true, smtSrem, wrap, hxm]
  · simp only [hB, if_false, smtSrem]
    congr 3
    have e1 := Int.mul_fdiv_add_fmod A B
    have e2 := Int.mul_tdiv_add_tmod A B
    have : A.fdiv B = A.tdiv B := by
      rw [Int.fdiv_eq_ediv, Int.tdiv_eq_ediv]
      by_cases hd : B ∣ A
      · simp [hd]
      · by_cases hA0 : A = 0
        · subst hA0; simp
        · have : (0 < B ∧ 0 ≤ A) ∨ (B < 0 ∧ A ≤ 0) := by
            rcases hc with h | h | h | h
            · exact absurd h hB
            · exact Or.inl h
            · exact Or.inr h
            · exact absurd h hd
          rcases this with ⟨h1, h2⟩ | ⟨h1, h2⟩
          · simp [show 0 ≤ B by omega, h2]
          · simp [hd, show ¬ 0 ≤ B by omega, show ¬ 0 ≤ A by omega, Int.sign_eq_neg_one_of_neg h1]
            rfl
    rw [this] at e1; omega

/-- Hypotheses of the partial theorems hold e.g. for `-6 / -3` at width 4. -/
example : BVal.WF ⟨.root .sint, 4, 10⟩ ∧ BVal.WF ⟨.root .sint, 4, 13⟩ ∧
    signed 4 13 < 0 ∧ signed 4 10 ≤ 0 := by decide

/-- **C12 refuted**: `SIntVector[4](-7) / 2` is `-4` (SMT-LIB: `-3`), and the remainder is `1`
(SMT-LIB: `-1`); also `-7 / 0` is `-1` (SMT-LIB: `1`). -/
theorem C12_refuted :
    (¬ ∀ x y : BVal, x.WF → y.WF → y.size = x.size → 0 < x.size →
      x.bvsdiv (.bv y) = .ok ⟨x.kind, x.size,
        wrap x.size (smtSdiv (signed x.size x.value) (signed x.size y.value))⟩) ∧
    (¬ ∀ x y : BVal, x.WF → y.WF → y.size = x.size → 0 < x.size →
      x.bvsrem (.bv y) = .ok ⟨x.kind, x.size,
        wrap x.size (smtSrem (signed x.size x.value) (signed x.size y.value))⟩) := by
  constructor
  · intro h
    exact absurd (h ⟨.root .sint, 4, 9⟩ ⟨.root .sint, 4, 2⟩ (by decide) (by decide) rfl (by decide))
      (by decide)
  · intro h
    exact absurd (h ⟨.root .sint, 4, 9⟩ ⟨.root .sint, 4, 2⟩ (by decide) (by decide) rfl (by decide))
      (by decide)

/-- **C12** division by zero also differs from SMT-LIB, for every negative dividend at width ≥ 2. -/
theorem C12_by_zero_refuted {x y : BVal} (hx : x.WF) (hy : y.WF) (hs : y.size = x.size)
    (hn : 2 ≤ x.size) (h0 : y.value = 0) (hneg : signed x.size x.value < 0) :
    x.bvsdiv (.bv y) ≠ .ok ⟨x.kind, x.size,
      wrap x.size (smtSdiv (signed x.size x.value) (signed x.size y.value))⟩ := by
  rw [(C13_by_zero hx hy hs (by omega) h0).1]
  obtain ⟨k, hk⟩ : ∃ k, x.size = k + 2 := ⟨x.size - 2, by omega⟩
  have hp := two_pow_pos k
  have : signed x.size y.value = 0 := by
    rw [h0]; simp [signed]
  simp only [smtSdiv, this, if_true, hneg, wrap, ne_eq, Except.ok.injEq, BVal.mk.injEq, true_and]
  rw [hk, Int.pow_add]
  rw [Int.emod_eq_of_lt (by omega) (by omega)]
  omega

/-- **C12** for a nonzero divisor, exactly the operands of `C12_sdiv_partial` agree with SMT-LIB. -/
theorem C12_sdiv_iff {x y : BVal} (hx : x.WF) (hy : y.WF) (hs : y.size = x.size)
    (hn : 0 < x.size) (h0 : signed x.size y.value ≠ 0) :
    (x.bvsdiv (.bv y) = .ok ⟨x.kind, x.size,
      wrap x.size (smtSdiv (signed x.size x.value) (signed x.size y.value))⟩) ↔
    ((0 < signed x.size y.value ∧ 0 ≤ signed x.size x.value) ∨
      (signed x.size y.value < 0 ∧ signed x.size x.value ≤ 0) ∨
      (signed x.size y.value ∣ signed x.size x.value)) := by
  refine ⟨fun h => ?_, fun h => C12_sdiv_partial hx hy hs hn (by tauto)⟩
  have hop : operand x.size (.bv y) = .ok y.value := by simp [operand, hs]
  have hy' := hy; unfold BVal.WF at hy'; rw [hs] at hy'
  have hz : y.value = 0 ↔ signed x.size y.value = 0 := by
    simp only [signed]; split <;> omega
  rw [bvsdiv_floor hx (o := .bv y) hy, hop] at h
  simp only [Except.bind, hz, h0, if_false] at h
  rw [if_neg (by omega)] at h
  generalize signed x.size y.value = B at *
  generalize signed x.size x.value = A at *
  by_contra hc
  simp only [not_or, not_and] at hc
  obtain ⟨c1, c2, c3⟩ := hc
  simp only [smtSdiv, h0, if_false, wrap, Except.ok.injEq, BVal.mk.injEq, true_and] at h
  have hd : A.tdiv B = A.fdiv B + 1 := by
    rw [Int.fdiv_eq_ediv, Int.tdiv_eq_ediv]
    rcases Int.lt_or_gt_of_ne h0 with hB | hB
    · have := c2 hB
      simp [c3, show ¬ 0 ≤ B by omega, show 0 ≤ A by omega]
    · have := c1 hB
      simp [c3, show 0 ≤ B by omega, show ¬ 0 ≤ A by omega, Int.sign_eq_one_of_pos hB]
  rw [hd] at h
  have hdvd := Int.dvd_of_emod_eq_zero (Int.emod_eq_emod_iff_emod_sub_eq_zero.mp h)
  obtain ⟨c, hc⟩ := hdvd
  obtain ⟨k, hk⟩ : ∃ k, x.size = k + 1 := ⟨x.size - 1, by omega⟩
  rw [hk, Int.pow_succ, Int.mul_assoc] at hc
  have : (2 : Int) ^ k * (2 * c) = 2 * (2 ^ k * c) := by ring
  omega

end HW
