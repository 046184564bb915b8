import Verif.Lemmas.CircuitFamilies
import Verif.Model.Gates
import Mathlib.Tactic.Linarith
import Mathlib.Tactic.Ring

namespace HW.Gates
open Circuit Spec

/-! ### Integers -/

def bi (b : Bool) : Int := if b then 1 else 0

/-- The `n` bits of `v` from bit `i` on. -/
def seg (v : Int) (i n : Nat) : Int := (v / 2 ^ i) % 2 ^ n

theorem seg_bounds (v : Int) (i n : Nat) : 0 ≤ seg v i n ∧ seg v i n < 2 ^ n :=
  ⟨Int.emod_nonneg _ (by positivity), Int.emod_lt_of_pos _ (by positivity)⟩

theorem bi_ibit (v : Int) (i : Nat) : bi (ibit v i) = (v / 2 ^ i) % 2 := by
  unfold bi ibit
  have := Int.emod_nonneg (v / 2 ^ i) (b := 2) (by decide)
  have := Int.emod_lt_of_pos (v / 2 ^ i) (b := 2) (by decide)
  by_cases h : (v / 2 ^ i) % 2 = 1
  · simp [h]
  · simp [h]; omega

theorem seg_zero (v : Int) (i : Nat) : seg v i 0 = 0 := by simp [seg]

theorem seg_succ (v : Int) (i n : Nat) : seg v i (n + 1) = bi (ibit v i) + 2 * seg v (i + 1) n := by
  rw [bi_ibit]
  unfold seg
  have h : v / 2 ^ (i + 1) = v / 2 ^ i / 2 := by rw [pow_succ, Int.ediv_ediv_of_nonneg (by positivity)]
  rw [h]
  generalize v / 2 ^ i = w
  have h1 := Int.mul_ediv_add_emod w 2
  have h2 := Int.mul_ediv_add_emod (w / 2) (2 ^ n)
  have e : w = (w % 2 + 2 * (w / 2 % 2 ^ n)) + 2 ^ (n + 1) * (w / 2 / 2 ^ n) := by
    rw [pow_succ]; linarith
  have b1 := Int.emod_nonneg (w / 2) (b := 2 ^ n) (by positivity)
  have b2 := Int.emod_lt_of_pos (w / 2) (b := 2 ^ n) (by positivity)
  have b3 := Int.emod_nonneg w (b := 2) (by decide)
  have b4 := Int.emod_lt_of_pos w (b := 2) (by decide)
  conv_lhs => rw [e]
  rw [Int.add_mul_emod_self_left]
  refine Int.emod_eq_of_lt (by omega) ?_
  rw [pow_succ]
  omega

theorem low_succ (v : Int) (k : Nat) : v % 2 ^ (k + 1) = v % 2 ^ k + bi (ibit v k) * 2 ^ k := by
  rw [bi_ibit]
  have h1 := Int.mul_ediv_add_emod v (2 ^ k)
  have h2 := Int.mul_ediv_add_emod (v / 2 ^ k) 2
  have hp : (0 : Int) < 2 ^ k := by positivity
  have b1 := Int.emod_nonneg v (b := 2 ^ k) hp.ne'
  have b2 := Int.emod_lt_of_pos v (b := 2 ^ k) hp
  have b3 := Int.emod_nonneg (v / 2 ^ k) (b := 2) (by decide)
  have b4 := Int.emod_lt_of_pos (v / 2 ^ k) (b := 2) (by decide)
  have e : v = (v % 2 ^ k + (v / 2 ^ k) % 2 * 2 ^ k) + 2 ^ (k + 1) * (v / 2 ^ k / 2) := by
    rw [pow_succ]
    have : (2:Int) ^ k * (v / 2 ^ k) = 2 ^ k * (2 * (v / 2 ^ k / 2) + v / 2 ^ k % 2) := by rw [h2]
    linarith
  conv_lhs => rw [e]
  rw [Int.add_mul_emod_self_left]
  have b5 : (v / 2 ^ k) % 2 * 2 ^ k ≤ 1 * 2 ^ k := Int.mul_le_mul_of_nonneg_right (by omega) hp.le
  have b6 : 0 ≤ (v / 2 ^ k) % 2 * 2 ^ k := Int.mul_nonneg b3 hp.le
  refine Int.emod_eq_of_lt (by omega) ?_
  rw [pow_succ]
  omega

theorem seg_full {n : Nat} {v : Int} (h0 : 0 ≤ v) (h1 : v < 2 ^ n) : seg v 0 n = v := by
  simp [seg, Int.emod_eq_of_lt h0 h1]

theorem bi_bounds (b : Bool) : 0 ≤ bi b ∧ bi b ≤ 1 := by cases b <;> simp [bi]

theorem ofBits_cons (b : Bool) (l : List Bool) : ofBits (b :: l) = bi b + 2 * ofBits l := rfl

theorem ofBits_snoc (l : List Bool) (b : Bool) : ofBits (l ++ [b]) = ofBits l + bi b * 2 ^ l.length := by
  induction l with
  | nil => simp [ofBits, bi]
  | cons a l ih =>
    rw [List.cons_append, ofBits_cons, ofBits_cons, ih, List.length_cons, pow_succ]
    ring

/-! ### Single calls -/

section
variable {F : Family} {E : PyErr → PyErr → Prop} {RV : F.V → BVal → Prop} {RB : F.B → Bool → Prop}
  (H : Sim F concrete E RV RB)
include H

theorem g_bit (op : Smt.BitOp) {a b : F.B} {A B : Bool} (ha : RB a A) (hb : RB b B) :
    ∃ t, F.bit op a b = .ok t ∧ RB t (op.meaning A B) :=
  RelP.ok_right (H.bit op ha hb) (cBitOp_eq op A B)

theorem g_not {a : F.B} {A : Bool} (ha : RB a A) : ∃ t, F.bitNot a = .ok t ∧ RB t (!A) := by
  obtain ⟨t, h1, h2⟩ := RelP.ok_right (H.bitNot ha) (rfl : concrete.bitNot A = .ok (BVal.bitNot A))
  exact ⟨t, h1, by cases A <;> exact h2⟩

theorem g_index {x : F.V} {X : BVal} (hx : RV x X) {i : Nat} (hi : i < X.size) :
    ∃ t, F.index x i = .ok t ∧ RB t (ibit X.value i) := by
  refine RelP.ok_right (H.index hx) ?_
  show X.getIdx i = _
  rw [getIdx_eq]
  have e : pyIndex? X.size (i : Int) = some i := by
    unfold pyIndex?
    simp [hi]
  simp only [e]
  rfl

theorem g_mux {c : F.B} {C : Bool} {x y : F.V} {X Y : BVal} (hc : RB c C) (hx : RV x X) (hy : RV y Y) (wx : X.WF)
    (wy : Y.WF) (hk : X.kind = Y.kind) (hn : X.size = Y.size) :
    ∃ z, F.mux c x y = .ok z ∧ RV z (if C then X else Y) :=
  RelP.ok_right (H.mux hc hx hy (decide_eq_true ⟨hk, hn⟩)) (Circuit.iteBV_eq C wx wy hk hn)

theorem g_const (r : Root) {n : Nat} (hn : 0 < n) (v : Int) :
    ∃ z, F.const r n v = .ok z ∧ RV z ⟨.root r, n, v % 2 ^ n⟩ :=
  RelP.ok_right (H.const r n v hn) (mkBV_int _ _ _)

omit H in
theorem operand_bv {n : Nat} {Y : BVal} (h : Y.size = n) : operand n (.bv Y) = .ok Y.value := by
  simp [operand, h]

omit H in
theorem operand_int {n : Nat} {v : Int} (h0 : 0 ≤ v) (h1 : v < 2 ^ n) : operand n (.int v) = .ok v := by
  simp [operand, Obj.denotes, wrap, Int.emod_eq_of_lt h0 h1]

theorem g_add {x y : F.V} {X Y : BVal} (hx : RV x X) (hy : RV y Y) (hn : Y.size = X.size) :
    ∃ z, F.bin .add x (.vec y) = .ok z ∧ RV z ⟨X.kind, X.size, (X.value + Y.value) % 2 ^ X.size⟩ := by
  refine RelP.ok_right (H.bin .add hx (.vec hy)) ?_
  show X.bvadd (.bv Y) = _
  rw [C05_bvadd, operand_bv hn]
  rfl

theorem g_sub {x y : F.V} {X Y : BVal} (hx : RV x X) (hy : RV y Y) (hn : Y.size = X.size) :
    ∃ z, F.bin .sub x (.vec y) = .ok z ∧ RV z ⟨X.kind, X.size, (X.value - Y.value) % 2 ^ X.size⟩ := by
  refine RelP.ok_right (H.bin .sub hx (.vec hy)) ?_
  show X.bvsub (.bv Y) = _
  rw [C05_bvsub, operand_bv hn]
  rfl

theorem g_shl {x : F.V} {X : BVal} (hx : RV x X) {k : Nat} (hk : (k : Int) < 2 ^ X.size) :
    ∃ z, F.bin .shl x (.int k) = .ok z ∧ RV z ⟨X.kind, X.size, (X.value * 2 ^ k) % 2 ^ X.size⟩ := by
  refine RelP.ok_right (H.bin .shl hx .int) ?_
  show X.bvshl (.int k) = _
  rw [C07_bvshl X (o := .int k) trivial, operand_int (by omega) hk]
  rfl

theorem g_uge {x y : F.V} {X Y : BVal} (hx : RV x X) (hy : RV y Y) (hn : Y.size = X.size) :
    ∃ z, F.cmp .uge x (.vec y) = .ok z ∧ RB z (decide (Y.value ≤ X.value)) := by
  refine RelP.ok_right (H.cmp .uge hx (.vec hy)) ?_
  show X.bvuge (.bv Y) = _
  rw [C09_bvuge, operand_bv hn]
  rfl

theorem g_zext {x : F.V} {X : BVal} (hx : RV x X) (wx : X.WF) (k : Nat) :
    ∃ z, F.zext x k = .ok z ∧ RV z ⟨X.kind, X.size + k, X.value⟩ := by
  refine RelP.ok_right (H.zext hx) ?_
  show X.zext k = _
  rw [C17_zext wx, if_neg (by omega)]
  rfl

theorem g_inv {x : F.V} {X : BVal} (hx : RV x X) :
    ∃ z, F.un .not x = .ok z ∧ RV z ⟨X.kind, X.size, (-X.value - 1) % 2 ^ X.size⟩ := by
  refine RelP.ok_right (H.un .not hx) ?_
  show X.bvnot = _
  unfold BVal.bvnot
  rw [mk'_eq]
  have e : pyNot X.asUint = -X.value - 1 := by simp only [pyNot, BVal.asUint]
  rw [e]
  rfl

/-! ### Programs -/

theorem fullAdd_eq {a b c : F.B} {A B C : Bool} (ha : RB a A) (hb : RB b B) (hc : RB c C) :
    ∃ s co S CO, fullAdd F a b c = .ok (s, co) ∧ RB s S ∧ RB co CO ∧ bi S + 2 * bi CO = bi A + bi B + bi C := by
  obtain ⟨p, p1, p2⟩ := g_bit H .xor ha hb
  obtain ⟨s, s1, s2⟩ := g_bit H .xor p2 hc
  obtain ⟨g, g1, g2⟩ := g_bit H .and ha hb
  obtain ⟨q, q1, q2⟩ := g_bit H .and p2 hc
  obtain ⟨co, c1, c2⟩ := g_bit H .or g2 q2
  refine ⟨s, co, _, _, by simp only [fullAdd, p1, s1, g1, q1, c1, bind, Except.bind, pure, Except.pure], s2, c2, ?_⟩
  cases A <;> cases B <;> cases C <;> rfl

theorem ripple_eq {x y : F.V} {X Y : BVal} (hx : RV x X) (hy : RV y Y) (n : Nat) : ∀ (i : Nat) (c : F.B) (C : Bool),
    i + n ≤ X.size → i + n ≤ Y.size → RB c C →
    ∃ l co L CO, ripple F x y i n c = .ok (l, co) ∧ List.Forall₂ RB l L ∧ RB co CO ∧ L.length = n ∧
      ofBits L + bi CO * 2 ^ n = seg X.value i n + seg Y.value i n + bi C := by
  induction n with
  | zero =>
    intro i c C _ _ hc
    exact ⟨[], c, [], C, rfl, .nil, hc, rfl, by simp [seg_zero, ofBits]⟩
  | succ n ih =>
    intro i c C h1 h2 hc
    obtain ⟨a, a1, a2⟩ := g_index H hx (i := i) (by omega)
    obtain ⟨b, b1, b2⟩ := g_index H hy (i := i) (by omega)
    obtain ⟨s, co, S, CO, s1, s2, s3, s4⟩ := fullAdd_eq H a2 b2 hc
    obtain ⟨l, c', L, C', l1, l2, l3, l4, l5⟩ := ih (i + 1) co CO (by omega) (by omega) s3
    refine ⟨s :: l, c', S :: L, C', by simp only [ripple, a1, b1, s1, l1, bind, Except.bind, pure, Except.pure],
      .cons s2 l2, l3, by simp [l4], ?_⟩
    rw [seg_succ, seg_succ, ofBits_cons, pow_succ]
    linarith

theorem ltStep_eq {a b c : F.B} {A B C : Bool} (ha : RB a A) (hb : RB b B) (hc : RB c C) :
    ∃ t, ltStep F a b c = .ok t ∧ RB t ((!A && B) || (!(A ^^ B) && C)) := by
  obtain ⟨na, p1, p2⟩ := g_not H ha
  obtain ⟨l, l1, l2⟩ := g_bit H .and p2 hb
  obtain ⟨d, d1, d2⟩ := g_bit H .xor ha hb
  obtain ⟨e, e1, e2⟩ := g_not H d2
  obtain ⟨k, k1, k2⟩ := g_bit H .and e2 hc
  obtain ⟨o, o1, o2⟩ := g_bit H .or l2 k2
  refine ⟨o, by simp only [ltStep, p1, l1, d1, e1, k1, o1, bind, Except.bind], ?_⟩
  cases A <;> cases B <;> cases C <;> exact o2

theorem ltChain_eq {x y : F.V} {X Y : BVal} (hx : RV x X) (hy : RV y Y) (n : Nat) : ∀ (i : Nat) (c : F.B) (C : Bool),
    i + n ≤ X.size → i + n ≤ Y.size → RB c C →
    ∃ t T, ltChain F x y i n c = .ok t ∧ RB t T ∧ (T = true ↔ seg X.value i n < seg Y.value i n + bi C) := by
  induction n with
  | zero =>
    intro i c C _ _ hc
    exact ⟨c, C, rfl, hc, by cases C <;> simp [seg_zero, bi]⟩
  | succ n ih =>
    intro i c C h1 h2 hc
    obtain ⟨a, a1, a2⟩ := g_index H hx (i := i) (by omega)
    obtain ⟨b, b1, b2⟩ := g_index H hy (i := i) (by omega)
    obtain ⟨s, s1, s2⟩ := ltStep_eq H a2 b2 hc
    obtain ⟨t, T, t1, t2, t3⟩ := ih (i + 1) s _ (by omega) (by omega) s2
    refine ⟨t, T, by simp only [ltChain, a1, b1, s1, t1, bind, Except.bind], t2, t3.trans ?_⟩
    rw [seg_succ, seg_succ]
    cases ibit X.value i <;> cases ibit Y.value i <;> cases C <;> simp [bi] <;> omega

theorem eqChain_eq {x y : F.V} {X Y : BVal} (hx : RV x X) (hy : RV y Y) (n : Nat) : ∀ (i : Nat) (c : F.B) (C : Bool),
    i + n ≤ X.size → i + n ≤ Y.size → RB c C →
    ∃ t T, eqChain F x y i n c = .ok t ∧ RB t T ∧ (T = true ↔ seg X.value i n = seg Y.value i n ∧ C = true) := by
  induction n with
  | zero =>
    intro i c C _ _ hc
    exact ⟨c, C, rfl, hc, by simp [seg_zero]⟩
  | succ n ih =>
    intro i c C h1 h2 hc
    obtain ⟨a, a1, a2⟩ := g_index H hx (i := i) (by omega)
    obtain ⟨b, b1, b2⟩ := g_index H hy (i := i) (by omega)
    obtain ⟨d, d1, d2⟩ := g_bit H .xor a2 b2
    obtain ⟨e, e1, e2⟩ := g_not H d2
    obtain ⟨s, s1, s2⟩ := g_bit H .and hc e2
    obtain ⟨t, T, t1, t2, t3⟩ := ih (i + 1) s _ (by omega) (by omega) s2
    refine ⟨t, T, by simp only [eqChain, a1, b1, d1, e1, s1, t1, bind, Except.bind], t2, t3.trans ?_⟩
    rw [seg_succ, seg_succ]
    cases ibit X.value i <;> cases ibit Y.value i <;> cases C <;> simp [bi, Smt.BitOp.meaning] <;> omega

theorem mulLoop_eq {x y zero : F.V} {X Y : BVal} (hx : RV x X) (hy : RV y Y) (hn : Y.size = X.size)
    (hz : RV zero ⟨X.kind, X.size, 0⟩) (n : Nat) : ∀ (i : Nat) (acc : F.V) (A : Int), i + n ≤ X.size →
    0 ≤ A → A < 2 ^ X.size → RV acc ⟨X.kind, X.size, A⟩ →
    ∃ z, mulLoop F x y zero i n acc = .ok z ∧
      RV z ⟨X.kind, X.size, (A + X.value * 2 ^ i * seg Y.value i n) % 2 ^ X.size⟩ := by
  induction n with
  | zero =>
    intro i acc A _ h0 h1 ha
    refine ⟨acc, rfl, ?_⟩
    rwa [seg_zero, Int.mul_zero, Int.add_zero, Int.emod_eq_of_lt h0 h1]
  | succ n ih =>
    intro i acc A hi h0 h1 ha
    have hb : ((i : Nat) : Int) < 2 ^ X.size := by
      have : i < 2 ^ X.size := Nat.lt_of_le_of_lt (by omega : i ≤ X.size) Nat.lt_two_pow_self
      exact_mod_cast this
    obtain ⟨p, p1, p2⟩ := g_shl H hx hb
    obtain ⟨b, b1, b2⟩ := g_index H hy (i := i) (by omega)
    obtain ⟨t, t1, t2⟩ := g_mux H b2 p2 hz (mod_WF _ _ _) ⟨Int.le_refl 0, by show (0:Int) < 2 ^ X.size; positivity⟩ rfl rfl
    have t3 : RV t ⟨X.kind, X.size, (X.value * 2 ^ i * bi (ibit Y.value i)) % 2 ^ X.size⟩ := by
      cases hb : ibit Y.value i <;> rw [hb] at t2 <;> simpa [bi] using t2
    obtain ⟨a, a1, a2⟩ := g_add H ha t3 rfl
    obtain ⟨z, z1, z2⟩ := ih (i + 1) a _ (by omega) (Int.emod_nonneg _ (by positivity)) (Int.emod_lt_of_pos _ (by positivity)) a2
    refine ⟨z, by simp only [mulLoop, p1, b1, t1, a1, z1, bind, Except.bind], ?_⟩
    have e : (A + X.value * 2 ^ i * seg Y.value i (n + 1)) % 2 ^ X.size =
        ((A + X.value * 2 ^ i * bi (ibit Y.value i) % 2 ^ X.size) % 2 ^ X.size
          + X.value * 2 ^ (i + 1) * seg Y.value (i + 1) n) % 2 ^ X.size := by
      rw [Int.add_emod_emod, Int.emod_add_emod, seg_succ, pow_succ]
      congr 1
      ring
    rw [e]
    exact z2

theorem divLoop_eq {x y one zero : F.V} {X Y : BVal} {K : Kind} {N : Nat} (hx : RV x X) (wx : X.WF) (hN : X.size = N)
    (hy : RV y Y) (hY : Y.kind = K ∧ Y.size = N + 1) (y0 : 0 ≤ Y.value) (y1 : Y.value < 2 ^ N)
    (ho : RV one ⟨K, N + 1, 1⟩) (hz : RV zero ⟨K, N + 1, 0⟩) (k : Nat) : ∀ (rem : F.V) (R : Int), k ≤ N →
    RV rem ⟨K, N + 1, R⟩ → 0 ≤ R → (R < Y.value ∨ Y.value = 0 ∧ R = X.value / 2 ^ k) →
    ∃ l w L W, divLoop F x y one zero k rem = .ok (l, w) ∧ List.Forall₂ RB l L ∧ RV w ⟨K, N + 1, W⟩ ∧ L.length = k ∧
      ((0 < Y.value ∧ ofBits L * Y.value + W = R * 2 ^ k + X.value % 2 ^ k ∧ 0 ≤ W ∧ W < Y.value) ∨
       (Y.value = 0 ∧ ofBits L = 2 ^ k - 1 ∧ W = X.value)) := by
  induction k with
  | zero =>
    intro rem R _ hr h0 h
    refine ⟨[], rem, [], R, rfl, .nil, hr, rfl, ?_⟩
    rcases h with h | ⟨h, h'⟩
    · exact .inl ⟨by omega, by simp [ofBits], h0, h⟩
    · exact .inr ⟨h, by simp [ofBits], by simpa using h'⟩
  | succ k ih =>
    intro rem R hk hr h0 h
    have hp : (0 : Int) < 2 ^ N := by positivity
    have hb : R < 2 ^ N := by
      rcases h with h | ⟨_, h⟩
      · omega
      · rw [h]
        have wx1 := wx.1
        have wx2 : X.value < 2 ^ N := hN ▸ wx.2
        exact Int.lt_of_le_of_lt (Int.ediv_le_self _ wx1) wx2
    have hN1 : (2 : Int) ^ (N + 1) = 2 * 2 ^ N := by rw [pow_succ]; ring
    obtain ⟨d, d1, d2⟩ := g_shl H hr (k := 1) (by show ((1 : Nat) : Int) < 2 ^ (N + 1); rw [hN1]; push_cast; omega)
    have d1 : F.bin .shl rem (.int 1) = .ok d := d1
    obtain ⟨b, b1, b2⟩ := g_index H hx (i := k) (by omega)
    have w1 : BVal.WF ⟨K, N + 1, 1⟩ := ⟨by show (0 : Int) ≤ 1; decide, by show (1 : Int) < 2 ^ (N + 1); omega⟩
    have w0 : BVal.WF ⟨K, N + 1, 0⟩ := ⟨Int.le_refl 0, by show (0 : Int) < 2 ^ (N + 1); omega⟩
    obtain ⟨t, t1, t2⟩ := g_mux H b2 ho hz w1 w0 rfl rfl
    have t3 : RV t ⟨K, N + 1, bi (ibit X.value k)⟩ := by
      cases hb : ibit X.value k <;> rw [hb] at t2 <;> exact t2
    obtain ⟨r, r1, r2⟩ := g_add H d2 t3 rfl
    have hbi := bi_bounds (ibit X.value k)
    have er : ((R * 2 ^ 1) % 2 ^ (N + 1) + bi (ibit X.value k)) % 2 ^ (N + 1) = 2 * R + bi (ibit X.value k) := by
      rw [Int.emod_add_emod, pow_one]
      rw [Int.emod_eq_of_lt (by omega) (by omega)]
      ring
    dsimp only at r2
    rw [er] at r2
    obtain ⟨q, q1, q2⟩ := g_uge H r2 hy hY.2
    obtain ⟨m, m1, m2⟩ := g_sub H r2 hy hY.2
    dsimp only at q2 m2
    have wr : BVal.WF ⟨K, N + 1, 2 * R + bi (ibit X.value k)⟩ :=
      ⟨by show 0 ≤ 2 * R + _; omega, by show 2 * R + _ < 2 ^ (N + 1); omega⟩
    obtain ⟨u, u1, u2⟩ := g_mux H q2 m2 r2 (mod_WF _ _ _) wr rfl rfl
    have hX : X.value / 2 ^ k = 2 * (X.value / 2 ^ (k + 1)) + bi (ibit X.value k) := by
      rw [bi_ibit, pow_succ, ← Int.ediv_ediv_of_nonneg (by positivity)]
      exact (Int.mul_ediv_add_emod _ 2).symm
    by_cases hq : Y.value ≤ 2 * R + bi (ibit X.value k)
    · rw [if_pos (by simpa using hq), Int.emod_eq_of_lt (by omega) (by omega)] at u2
      obtain ⟨l, w, L, W, l1, l2, l3, l4, l5⟩ := ih u _ (by omega) u2 (by omega)
        (by rcases h with h | ⟨h, h'⟩
            · left; omega
            · right; exact ⟨h, by rw [hX, h']; omega⟩)
      refine ⟨l ++ [q], w, L ++ [true], W, by
        simp only [divLoop, d1, b1, t1, r1, q1, m1, u1, l1, bind, Except.bind, pure, Except.pure],
        List.rel_append l2 (.cons (by simpa [hq] using q2) .nil), l3, by simp [l4], ?_⟩
      rw [ofBits_snoc, l4, low_succ, pow_succ]
      simp only [bi, if_true, one_mul]
      rcases l5 with ⟨c1, c2, c3, c4⟩ | ⟨c1, c2, c3⟩
      · refine .inl ⟨c1, ?_, c3, c4⟩
        have : (ofBits L + 2 ^ k) * Y.value = ofBits L * Y.value + 2 ^ k * Y.value := by ring
        rw [this]
        unfold bi at c2
        linarith
      · exact .inr ⟨c1, by omega, c3⟩
    · rw [if_neg (by simpa using hq)] at u2
      have hy0 : 0 < Y.value := by omega
      obtain ⟨l, w, L, W, l1, l2, l3, l4, l5⟩ := ih u _ (by omega) u2 (by omega) (.inl (by omega))
      refine ⟨l ++ [q], w, L ++ [false], W, by
        simp only [divLoop, d1, b1, t1, r1, q1, m1, u1, l1, bind, Except.bind, pure, Except.pure],
        List.rel_append l2 (.cons (by simpa [hq] using q2) .nil), l3, by simp [l4], ?_⟩
      rw [ofBits_snoc, l4, low_succ, pow_succ]
      simp only [bi, Bool.false_eq_true, if_false, zero_mul, add_zero]
      rcases l5 with ⟨c1, c2, c3, c4⟩ | ⟨c1, c2, c3⟩
      · refine .inl ⟨c1, ?_, c3, c4⟩
        unfold bi at c2
        linarith
      · omega

/-- What a shift method does to the value: amounts add up. -/
structure ShiftLike (op : Bin) (n : Nat) (f : Nat → Int → Int) : Prop where
  bin : ∀ (X : BVal) (k : Nat), X.WF → X.size = n → (k : Int) < 2 ^ n → concrete.bin op X (.int k) = .ok ⟨X.kind, n, f k X.value⟩
  range : ∀ k v, 0 ≤ v → v < 2 ^ n → 0 ≤ f k v ∧ f k v < 2 ^ n
  zero : ∀ v, 0 ≤ v → v < 2 ^ n → f 0 v = v
  add : ∀ a b v, 0 ≤ v → v < 2 ^ n → f b (f a v) = f (a + b) v

theorem barrel_eq {op : Bin} {N : Nat} {f : Nat → Int → Int} (hf : ShiftLike op N f) {s : F.V} {T : BVal} {K : Kind}
    (hs : RV s T) (hT : T.size = N) (n : Nat) : ∀ (i : Nat) (x : F.V) (v : Int), i + n ≤ N → 0 ≤ v → v < 2 ^ N →
    RV x ⟨K, N, v⟩ → ∃ z, barrel F op s i n x = .ok z ∧ RV z ⟨K, N, f (2 ^ i * (seg T.value i n).toNat) v⟩ := by
  induction n with
  | zero =>
    intro i x v _ h0 h1 hx
    refine ⟨x, rfl, ?_⟩
    rwa [seg_zero, Int.toNat_zero, Nat.mul_zero, hf.zero v h0 h1]
  | succ n ih =>
    intro i x v hi h0 h1 hx
    have hw : BVal.WF ⟨K, N, v⟩ := ⟨h0, h1⟩
    have hk : ((2 ^ i : Nat) : Int) < 2 ^ N := by
      have : 2 ^ i < 2 ^ N := Nat.pow_lt_pow_right (by decide) (by omega)
      exact_mod_cast this
    obtain ⟨t, t1, t2⟩ := RelP.ok_right (H.bin op hx .int) (hf.bin ⟨K, N, v⟩ (2 ^ i) hw rfl hk)
    have t1 : F.bin op x (.int (2 ^ i)) = .ok t := by
      have e : (((2 ^ i : Nat) : Int)) = 2 ^ i := by push_cast; rfl
      rw [← e]; exact t1
    obtain ⟨b, b1, b2⟩ := g_index H hs (i := i) (by omega)
    have hr := hf.range (2 ^ i) v h0 h1
    obtain ⟨u, u1, u2⟩ := g_mux H b2 t2 hx hr hw rfl rfl
    have hseg := seg_bounds T.value (i + 1) n
    cases hb : ibit T.value i
    · rw [hb] at u2
      obtain ⟨z, z1, z2⟩ := ih (i + 1) u v (by omega) h0 h1 u2
      refine ⟨z, by simp only [barrel, t1, b1, u1, z1, bind, Except.bind], ?_⟩
      have e : 2 ^ i * (seg T.value i (n + 1)).toNat = 2 ^ (i + 1) * (seg T.value (i + 1) n).toNat := by
        rw [seg_succ, hb, pow_succ]
        simp only [bi, Bool.false_eq_true, if_false, Int.zero_add]
        rw [Int.toNat_mul (by decide) hseg.1, Nat.mul_assoc]
        rfl
      rw [e]
      exact z2
    · rw [hb] at u2
      obtain ⟨z, z1, z2⟩ := ih (i + 1) u _ (by omega) hr.1 hr.2 u2
      refine ⟨z, by simp only [barrel, t1, b1, u1, z1, bind, Except.bind], ?_⟩
      have e : 2 ^ i * (seg T.value i (n + 1)).toNat = 2 ^ i + 2 ^ (i + 1) * (seg T.value (i + 1) n).toNat := by
        rw [seg_succ, hb, pow_succ]
        simp only [bi, if_true]
        rw [Int.toNat_add (by decide) (by omega), Int.toNat_mul (by decide) hseg.1, Nat.mul_assoc, Nat.mul_add]
        simp
      rw [e, ← hf.add _ _ _ h0 h1]
      exact z2

end

theorem shl_like (n : Nat) : ShiftLike .shl n (fun k v => (v * 2 ^ k) % 2 ^ n) where
  bin X k _ hn hk := by
    subst hn
    show X.bvshl (.int k) = _
    rw [C07_bvshl X (o := .int k) trivial, operand_int (by omega) hk]
    rfl
  range _ _ _ _ := ⟨Int.emod_nonneg _ (by positivity), Int.emod_lt_of_pos _ (by positivity)⟩
  zero v h0 h1 := by simp [Int.emod_eq_of_lt h0 h1]
  add a b v _ _ := by
    show ((v * 2 ^ a) % 2 ^ n * 2 ^ b) % 2 ^ n = _
    rw [Int.mul_emod, Int.emod_emod_of_dvd _ (Int.dvd_refl _), ← Int.mul_emod, pow_add, Int.mul_assoc]

theorem lshr_like (n : Nat) : ShiftLike .lshr n (fun k v => v / 2 ^ k) where
  bin X k hw hn hk := by
    subst hn
    show X.bvlshr (.int k) = _
    rw [C07_bvlshr hw (o := .int k) trivial, operand_int (by omega) hk]
    rfl
  range k v h0 h1 := ⟨Int.ediv_nonneg h0 (by positivity), Int.lt_of_le_of_lt (Int.ediv_le_self _ h0) h1⟩
  zero v _ _ := by simp
  add a b v _ _ := by
    show v / 2 ^ a / 2 ^ b = _
    rw [Int.ediv_ediv_of_nonneg (by positivity), pow_add]

theorem signed_wrap {n : Nat} {w : Int} (h0 : -2 ^ n ≤ 2 * w) (h1 : 2 * w < 2 ^ n) : signed n (w % 2 ^ n) = w := by
  unfold signed
  have hp : (0 : Int) < 2 ^ n := by positivity
  by_cases hw : 0 ≤ w
  · rw [Int.emod_eq_of_lt hw (by omega), if_pos h1]
  · have e : w % 2 ^ n = w + 2 ^ n := by
      rw [← Int.add_emod_right, Int.emod_eq_of_lt (by omega) (by omega)]
    rw [e, if_neg (by omega)]
    omega

theorem signed_range {n : Nat} {v : Int} (h0 : 0 ≤ v) (h1 : v < 2 ^ n) :
    -2 ^ n ≤ 2 * signed n v ∧ 2 * signed n v < 2 ^ n := by
  unfold signed
  split <;> omega

theorem ediv_range {n : Nat} {w : Int} (k : Nat) (h0 : -2 ^ n ≤ 2 * w) (h1 : 2 * w < 2 ^ n) :
    -2 ^ n ≤ 2 * (w / 2 ^ k) ∧ 2 * (w / 2 ^ k) < 2 ^ n := by
  have hk : (1 : Int) ≤ 2 ^ k := by
    have : (0 : Int) < 2 ^ k := by positivity
    omega
  have hp : (0 : Int) < 2 ^ n := by positivity
  by_cases hw : 0 ≤ w
  · have := Int.ediv_le_self (2 ^ k) hw
    have := Int.ediv_nonneg hw (by omega : (0 : Int) ≤ 2 ^ k)
    omega
  · have h2 : w ≤ w / 2 ^ k := by
      rw [Int.le_ediv_iff_mul_le (by omega)]
      have := Int.mul_le_mul_of_nonpos_left (by omega : w ≤ 0) hk
      omega
    have h3 : w / 2 ^ k < 0 := Int.ediv_neg_of_neg_of_pos (by omega) (by omega)
    omega

theorem ashr_like {n : Nat} (hn : 0 < n) : ShiftLike .ashr n (fun k v => (signed n v / 2 ^ k) % 2 ^ n) where
  bin X k hw hs hk := by
    subst hs
    show X.bvashr (.int k) = _
    rw [C07_bvashr hw (o := .int k) trivial, operand_int (by omega) hk]
    simp only [Except.bind]
    rw [if_neg (by omega)]
    rfl
  range _ _ _ _ := ⟨Int.emod_nonneg _ (by positivity), Int.emod_lt_of_pos _ (by positivity)⟩
  zero v h0 h1 := by
    show signed n v / 2 ^ 0 % 2 ^ n = v
    rw [pow_zero, Int.ediv_one, signed_mod, Int.emod_eq_of_lt h0 h1]
  add a b v h0 h1 := by
    show signed n ((signed n v / 2 ^ a) % 2 ^ n) / 2 ^ b % 2 ^ n = _
    have hr := signed_range h0 h1
    have hr := ediv_range a hr.1 hr.2
    rw [signed_wrap hr.1 hr.2, Int.ediv_ediv_of_nonneg (by positivity), pow_add]

theorem RelP.same {α : Type} (m : PyM α) : RelP (· = ·) (· = ·) m m := by
  cases m <;> rfl

theorem OpndRel.same {o p : Opnd BVal Bool} (h : OpndRel (· = ·) (· = ·) o p) : o = p := by
  cases h with
  | vec h => rw [h]
  | bit h => rw [h]
  | int => rfl

theorem concrete_sim : Sim concrete concrete (· = ·) (· = ·) (· = ·) where
  refl _ := rfl
  size h := by rw [h]
  sameClass h h' := by rw [h, h']
  const _ _ _ _ := RelP.same _
  un _ _ _ h := by subst h; exact RelP.same _
  bin _ _ _ _ _ h ho := by cases OpndRel.same ho; subst h; exact RelP.same _
  cmp _ _ _ _ _ h ho := by cases OpndRel.same ho; subst h; exact RelP.same _
  rol h _ _ := by subst h; exact RelP.same _
  ror h _ _ := by subst h; exact RelP.same _
  zext h := by subst h; exact RelP.same _
  sext h _ := by subst h; exact RelP.same _
  slice h _ _ _ := by subst h; exact RelP.same _
  index h := by subst h; exact RelP.same _
  concat h h' := by subst h h'; exact RelP.same _
  adc h ho hc := by
    cases OpndRel.same ho; cases OpndRel.same hc; subst h
    exact (RelP.same _).mono fun a b e => by subst e; exact ⟨rfl, rfl⟩
  signed h := by rw [h]
  opA _ _ _ _ _ h ho _ _ := by cases OpndRel.same ho; subst h; exact RelP.same _
  opC _ _ _ _ _ h ho _ := by cases OpndRel.same ho; subst h; exact RelP.same _
  bit _ _ _ _ _ h h' := by subst h h'; exact RelP.same _
  bitNot h := by subst h; exact RelP.same _
  mux h h' h'' _ := by subst h h' h''; exact RelP.same _

end HW.Gates
