import Verif.Lemmas.Gates

/-!
# C162: the operators agree with circuits built from smaller operations, at every width

A ripple-carry adder and subtractor, bitwise comparators, a shift-and-add multiplier, barrel shifters and a
restoring divider, written with indexing, `Bit` operations and `ite`, give what `adc`, `bvsub`, `bvult`, `bvule`,
`bveq`, `bvslt`, `bvmul`, `bvshl`, `bvlshr`, `bvashr`, `bvudiv` and `bvurem` give — in simulation, and under every
assignment in the SMT and z3 families, so a solver proves every one of these equivalences whatever the width.
-/

namespace HW
open Circuit Spec Gates

/-- A claim about the three families: in simulation values are themselves; in the symbolic families they are
what they denote under the assignment `e`. -/
def Gates.InAll (P : (F : Family) → (F.V → BVal → Prop) → (F.B → Bool → Prop) → Prop) : Prop :=
  P concrete (· = ·) (· = ·) ∧ (∀ S e, P (smt S) (SVec e) (Smt.DenBit e)) ∧ ∀ e, P z3 (Z3.Den e) (Z3.DenBit e)

theorem Gates.InAll.of {P : (F : Family) → (F.V → BVal → Prop) → (F.B → Bool → Prop) → Prop}
    (h : ∀ (F : Family) (E : PyErr → PyErr → Prop) (RV : F.V → BVal → Prop) (RB : F.B → Bool → Prop),
      Sim F concrete E RV RB → P F RV RB) : InAll P :=
  ⟨h _ _ _ _ concrete_sim, fun S e => h _ _ _ _ (smt_sim e S), fun e => h _ _ _ _ (z3_sim e)⟩

/-- Two canonical vectors of one class and positive width. -/
def Gates.Pair (r : Root) (n : Nat) (X Y : BVal) : Prop :=
  X.WF ∧ Y.WF ∧ X.kind = .root r ∧ Y.kind = .root r ∧ X.size = n ∧ Y.size = n ∧ 0 < n

/-! ### The claims -/

section
variable (F : Family) (RV : F.V → BVal → Prop) (RB : F.B → Bool → Prop)

/-- `l` are the bits of the vector `z`. -/
def Gates.BitsOf (l : List F.B) (z : F.V) : Prop :=
  ∃ Z, RV z Z ∧ List.Forall₂ RB l (toBits Z.size Z.value)

def Gates.SameBit (a b : F.B) : Prop := ∃ v, RB a v ∧ RB b v

def Gates.SameVec (x y : F.V) : Prop := ∃ v, RV x v ∧ RV y v

def Gates.Adder : Prop := ∀ r n x y c X Y C, Pair r n X Y → RV x X → RV y Y → RB c C →
  ∃ l co z cz, ripple F x y 0 n c = .ok (l, co) ∧ F.adc x (.vec y) (.bit c) = .ok (z, cz) ∧
    BitsOf F RV RB l z ∧ SameBit F RB co cz

def Gates.AdderPlain : Prop := ∀ r n x y c X Y, Pair r n X Y → RV x X → RV y Y → RB c false →
  ∃ l co z, ripple F x y 0 n c = .ok (l, co) ∧ F.bin .add x (.vec y) = .ok z ∧ BitsOf F RV RB l z

def Gates.Subtractor : Prop := ∀ r n x y c X Y, Pair r n X Y → RV x X → RV y Y → RB c true →
  ∃ l co z g, rippleSub F x y n c = .ok (l, co) ∧ F.bin .sub x (.vec y) = .ok z ∧ F.cmp .uge x (.vec y) = .ok g ∧
    BitsOf F RV RB l z ∧ SameBit F RB co g

/-- The comparator started with false is `<`, with true `<=`. -/
def Gates.Comparator : Prop := ∀ r n x y c X Y C, Pair r n X Y → RV x X → RV y Y → RB c C →
  ∃ t g, ltChain F x y 0 n c = .ok t ∧ F.cmp (if C then .ule else .ult) x (.vec y) = .ok g ∧ SameBit F RB t g

def Gates.SignedComparator : Prop := ∀ r n x y c X Y C, Pair r n X Y → RV x X → RV y Y → RB c C →
  ∃ t g, sltChain F x y (n - 1) c = .ok t ∧ F.cmp (if C then .sle else .slt) x (.vec y) = .ok g ∧ SameBit F RB t g

def Gates.Equality : Prop := ∀ r n x y c X Y, Pair r n X Y → RV x X → RV y Y → RB c true →
  ∃ t g, eqChain F x y 0 n c = .ok t ∧ F.cmp .eq x (.vec y) = .ok g ∧ SameBit F RB t g

def Gates.Multiplier : Prop := ∀ r n x y X Y, Pair r n X Y → RV x X → RV y Y →
  ∃ w z, multiply F r n x y = .ok w ∧ F.bin .mul x (.vec y) = .ok z ∧ SameVec F RV w z

def Gates.Shifter (op : Bin) : Prop := ∀ r n x s X T, Pair r n X T → RV x X → RV s T →
  ∃ w z, barrel F op s 0 n x = .ok w ∧ F.bin op x (.vec s) = .ok z ∧ SameVec F RV w z

/-- The remainder has one more bit than the operands; it is `bvurem` zero-extended. -/
def Gates.Divider : Prop := ∀ r n x y X Y, Pair r n X Y → RV x X → RV y Y →
  ∃ l w q m m', divide F r n x y = .ok (l, w) ∧ F.bin .udiv x (.vec y) = .ok q ∧ F.bin .urem x (.vec y) = .ok m ∧
    F.zext m 1 = .ok m' ∧ BitsOf F RV RB l q ∧ SameVec F RV w m'

end

/-! ### Proofs -/

theorem Gates.WF.lt {X : BVal} {n : Nat} (h : X.WF) (hn : X.size = n) : X.value < 2 ^ n := hn ▸ h.2

/-- A ripple-carry adder is `adc`: the same sum, the same carry out. -/
theorem C162_adder : InAll Adder := by
  refine .of fun F E RV RB H r n x y c X Y C ⟨wx, wy, kx, ky, nx, ny, hn⟩ hx hy hc => ?_
  obtain ⟨l, co, L, CO, h1, h2, h3, h4, h5⟩ := ripple_eq H hx hy n 0 c C (by omega) (by omega) hc
  rw [seg_full wx.1 (WF.lt wx nx), seg_full wy.1 (WF.lt wy ny)] at h5
  obtain ⟨S, SO, s1, s2, s3, s4, s5⟩ := C20_adc wx (o := .bv Y) (c := .bit C) wy trivial
    (b := Y.value) (cin := bi C) (operand_bv (by omega)) (by cases C <;> rfl)
  obtain ⟨⟨z, cz⟩, g1, g2⟩ := RelP.ok_right (H.adc hx (.vec hy) (.bit hc)) s1
  have b1 := ofBits_bounds L
  rw [h4] at b1
  have e1 := s4.1
  have e2 : S.value < 2 ^ n := WF.lt s4 (by omega)
  rw [nx] at s5
  have key : S.value = ofBits L ∧ SO = CO := by
    cases SO <;> cases CO <;> simp [bi] at s5 h5 ⊢ <;> omega
  refine ⟨l, co, z, cz, h1, g1, ⟨S, g2.1, ?_⟩, CO, h3, key.2 ▸ g2.2⟩
  rw [key.1, s3, nx, ← h4, toBits_ofBits]
  exact h2

/-- With no carry in it is `bvadd`. -/
theorem C162_add : InAll AdderPlain := by
  refine .of fun F E RV RB H r n x y c X Y ⟨wx, wy, kx, ky, nx, ny, hn⟩ hx hy hc => ?_
  obtain ⟨l, co, L, CO, h1, h2, h3, h4, h5⟩ := ripple_eq H hx hy n 0 c false (by omega) (by omega) hc
  rw [seg_full wx.1 (WF.lt wx nx), seg_full wy.1 (WF.lt wy ny)] at h5
  obtain ⟨z, g1, g2⟩ := g_add H hx hy (by omega)
  have b1 := ofBits_bounds L
  rw [h4] at b1
  refine ⟨l, co, z, h1, g1, _, g2, ?_⟩
  have e : (X.value + Y.value) % 2 ^ X.size = ofBits L := by
    have e : X.value + Y.value = ofBits L + 2 ^ n * bi CO := by
      rw [Int.mul_comm]; simpa [bi] using h5.symm
    rw [nx, e, Int.add_mul_emod_self_left, Int.emod_eq_of_lt b1.1 b1.2]
  show List.Forall₂ RB l (toBits X.size ((X.value + Y.value) % 2 ^ X.size))
  rw [e, nx, ← h4, toBits_ofBits]
  exact h2

/-- Adding the inverted subtrahend and one is `bvsub`; the carry out is `bvuge`. -/
theorem C162_subtractor : InAll Subtractor := by
  refine .of fun F E RV RB H r n x y c X Y ⟨wx, wy, kx, ky, nx, ny, hn⟩ hx hy hc => ?_
  obtain ⟨y', i1, i2⟩ := g_inv H hy
  obtain ⟨l, co, L, CO, h1, h2, h3, h4, h5⟩ := ripple_eq H hx i2 n 0 c true (by omega) (by show 0 + n ≤ Y.size; omega) hc
  have ey : (-Y.value - 1) % 2 ^ Y.size = 2 ^ n - 1 - Y.value := by
    have h0 := wy.1
    have h1 := WF.lt wy ny
    rw [ny, ← Int.add_emod_right, Int.emod_eq_of_lt (by omega) (by omega)]
    omega
  simp only [ey] at h5
  have hX := wx.1
  have hX' := WF.lt wx nx
  have hY := wy.1
  have hY' := WF.lt wy ny
  rw [seg_full hX hX', seg_full (by omega) (by omega)] at h5
  obtain ⟨z, z1, z2⟩ := g_sub H hx hy (by omega)
  obtain ⟨g, g1, g2⟩ := g_uge H hx hy (by omega)
  have b1 := ofBits_bounds L
  rw [h4] at b1
  have key : (X.value - Y.value) % 2 ^ X.size = ofBits L ∧ decide (Y.value ≤ X.value) = CO := by
    rw [nx]
    cases CO <;> simp [bi] at h5 ⊢
    · refine ⟨?_, by omega⟩
      rw [← Int.add_emod_right, Int.emod_eq_of_lt (by omega) (by omega)]
      omega
    · refine ⟨?_, by omega⟩
      rw [Int.emod_eq_of_lt (by omega) (by omega)]
      omega
  refine ⟨l, co, z, g, by simp only [rippleSub, i1, h1, bind, Except.bind], z1, g1, ⟨_, z2, ?_⟩, CO, h3, key.2 ▸ g2⟩
  show List.Forall₂ RB l (toBits X.size ((X.value - Y.value) % 2 ^ X.size))
  rw [key.1, nx, ← h4, toBits_ofBits]
  exact h2

/-- Comparing digit by digit is `bvult` and `bvule`. -/
theorem C162_comparator : InAll Comparator := by
  refine .of fun F E RV RB H r n x y c X Y C ⟨wx, wy, kx, ky, nx, ny, hn⟩ hx hy hc => ?_
  obtain ⟨t, T, h1, h2, h3⟩ := ltChain_eq H hx hy n 0 c C (by omega) (by omega) hc
  rw [seg_full wx.1 (WF.lt wx nx), seg_full wy.1 (WF.lt wy ny)] at h3
  have hg : concrete.cmp (if C then .ule else .ult) X (.vec Y) = .ok T := by
    cases C
    · show X.bvult (.bv Y) = _
      rw [C09_bvult, operand_bv (by omega)]
      show Except.ok (decide _) = _
      congr 1
      rw [Bool.eq_iff_iff, h3]
      simp [bi]
    · show X.bvule (.bv Y) = _
      rw [C09_bvule, operand_bv (by omega)]
      show Except.ok (decide _) = _
      congr 1
      rw [Bool.eq_iff_iff, h3]
      simp [bi, Int.lt_add_one_iff]
  obtain ⟨g, g1, g2⟩ := RelP.ok_right (H.cmp _ hx (.vec hy)) hg
  exact ⟨t, g, h1, g1, T, h2, g2⟩

/-- With the top digits exchanged it is `bvslt` and `bvsle`. -/
theorem C162_signed_comparator : InAll SignedComparator := by
  refine .of fun F E RV RB H r n x y c X Y C ⟨wx, wy, kx, ky, nx, ny, hn⟩ hx hy hc => ?_
  obtain ⟨m, rfl⟩ : ∃ m, n = m + 1 := ⟨n - 1, by omega⟩
  obtain ⟨t, T, h1, h2, h3⟩ := ltChain_eq H hx hy m 0 c C (by omega) (by omega) hc
  obtain ⟨a, a1, a2⟩ := g_index H hx (i := m) (by omega)
  obtain ⟨b, b1, b2⟩ := g_index H hy (i := m) (by omega)
  obtain ⟨u, u1, u2⟩ := ltStep_eq H b2 a2 h2
  have sg : ∀ Z : BVal, Z.WF → Z.size = m + 1 → signed (m + 1) Z.value = seg Z.value 0 m - bi (ibit Z.value m) * 2 ^ m := by
    intro Z wz nz
    have hz0 := wz.1
    have hz1 := WF.lt wz nz
    have e := low_succ Z.value m
    rw [Int.emod_eq_of_lt hz0 hz1] at e
    have e' : seg Z.value 0 m = Z.value % 2 ^ m := by simp [seg]
    have b := seg_bounds Z.value 0 m
    rw [e'] at b ⊢
    have hp : (2 : Int) ^ (m + 1) = 2 * 2 ^ m := by rw [pow_succ]; ring
    unfold signed
    rw [hp] at hz1 ⊢
    cases hb : ibit Z.value m <;> rw [hb] at e <;> simp [bi] at e ⊢
    · rw [if_pos (by omega)]; omega
    · rw [if_neg (by omega)]; omega
  have hX := seg_bounds X.value 0 m
  have hY := seg_bounds Y.value 0 m
  have hg : concrete.cmp (if C then .sle else .slt) X (.vec Y) =
      .ok ((!ibit Y.value m && ibit X.value m) || (!(ibit Y.value m ^^ ibit X.value m) && T)) := by
    cases C
    · show X.bvslt (.bv Y) = _
      rw [C10_bvslt X (.bv Y) wx wy, operand_bv (by omega)]
      simp only [Except.bind]
      rw [if_neg (by omega), nx, sg X wx nx, sg Y wy ny]
      congr 1
      rw [Bool.eq_iff_iff]
      cases ibit X.value m <;> cases ibit Y.value m <;> simp [bi, h3] <;> omega
    · show X.bvsle (.bv Y) = _
      rw [C10_bvsle X (.bv Y) wx wy, operand_bv (by omega)]
      simp only [Except.bind]
      rw [if_neg (by omega), nx, sg X wx nx, sg Y wy ny]
      congr 1
      rw [Bool.eq_iff_iff]
      cases ibit X.value m <;> cases ibit Y.value m <;> simp [bi, h3] <;> omega
  obtain ⟨g, g1, g2⟩ := RelP.ok_right (H.cmp _ hx (.vec hy)) hg
  exact ⟨u, g, by simp only [sltChain, Nat.add_sub_cancel, h1, a1, b1, u1, bind, Except.bind], g1, _, u2, g2⟩

/-- All digits equal is `bveq`. -/
theorem C162_equality : InAll Equality := by
  refine .of fun F E RV RB H r n x y c X Y ⟨wx, wy, kx, ky, nx, ny, hn⟩ hx hy hc => ?_
  obtain ⟨t, T, h1, h2, h3⟩ := eqChain_eq H hx hy n 0 c true (by omega) (by omega) hc
  rw [seg_full wx.1 (WF.lt wx nx), seg_full wy.1 (WF.lt wy ny)] at h3
  have hg : concrete.cmp .eq X (.vec Y) = .ok T := by
    show X.bveq (.bv Y) = _
    rw [C09_bveq, operand_bv (by omega)]
    show Except.ok (decide _) = _
    congr 1
    rw [Bool.eq_iff_iff, h3]
    simp
  obtain ⟨g, g1, g2⟩ := RelP.ok_right (H.cmp _ hx (.vec hy)) hg
  exact ⟨t, g, h1, g1, T, h2, g2⟩

/-- Shift-and-add is `bvmul`. -/
theorem C162_multiplier : InAll fun F RV _ => Multiplier F RV := by
  refine .of fun F E RV RB H r n x y X Y ⟨wx, wy, kx, ky, nx, ny, hn⟩ hx hy => ?_
  obtain ⟨o, o1, o2⟩ := g_const H r hn 0
  rw [Int.zero_emod, ← kx, ← nx] at o2
  obtain ⟨w, w1, w2⟩ := mulLoop_eq H hx hy (by omega) o2 n 0 o 0 (by omega) (Int.le_refl 0) (by positivity) o2
  rw [seg_full wy.1 (WF.lt wy ny), pow_zero, Int.mul_one, Int.zero_add] at w2
  have hg : concrete.bin .mul X (.vec Y) = .ok ⟨X.kind, X.size, (X.value * Y.value) % 2 ^ X.size⟩ := by
    show X.bvmul (.bv Y) = _
    rw [C05_bvmul, operand_bv (by omega)]
    rfl
  obtain ⟨z, z1, z2⟩ := RelP.ok_right (H.bin _ hx (.vec hy)) hg
  exact ⟨w, z, by simp only [multiply, o1, w1, bind, Except.bind], z1, _, w2, z2⟩

theorem Gates.shifter {op : Bin} {f : Nat → Nat → Int → Int} (hf : ∀ n, 0 < n → ShiftLike op n (f n))
    (hv : ∀ (X T : BVal), X.WF → T.WF → T.size = X.size → 0 < X.size →
      concrete.bin op X (.vec T) = .ok ⟨X.kind, X.size, f X.size T.value.toNat X.value⟩) :
    InAll fun F RV _ => Shifter F RV op := by
  refine .of fun F E RV RB H r n x s X T ⟨wx, wt, kx, kt, nx, nt, hn⟩ hx hs => ?_
  subst nx
  obtain ⟨w, w1, w2⟩ := barrel_eq H (hf _ hn) hs nt X.size 0 x X.value (by omega) wx.1 wx.2 hx
  rw [seg_full wt.1 (WF.lt wt nt), pow_zero, Nat.one_mul] at w2
  obtain ⟨z, z1, z2⟩ := RelP.ok_right (H.bin _ hx (.vec hs)) (hv X T wx wt nt hn)
  exact ⟨w, z, w1, z1, _, w2, z2⟩

/-- A barrel shifter is `bvshl`. -/
theorem C162_shl : InAll fun F RV _ => Shifter F RV .shl :=
  shifter (fun n _ => shl_like n) fun X T _ wt nt _ => by
    show X.bvshl (.bv T) = _
    rw [C07_bvshl X (o := .bv T) wt, operand_bv nt]
    rfl

theorem C162_lshr : InAll fun F RV _ => Shifter F RV .lshr :=
  shifter (fun n _ => lshr_like n) fun X T wx wt nt _ => by
    show X.bvlshr (.bv T) = _
    rw [C07_bvlshr wx (o := .bv T) wt, operand_bv nt]
    rfl

theorem C162_ashr : InAll fun F RV _ => Shifter F RV .ashr :=
  shifter (fun n hn => ashr_like hn) fun X T wx wt nt hn => by
    show X.bvashr (.bv T) = _
    rw [C07_bvashr wx (o := .bv T) wt, operand_bv nt]
    simp only [Except.bind]
    rw [if_neg (by omega)]
    rfl

/-- Restoring division is `bvudiv` and `bvurem`, by zero too. -/
theorem C162_divider : InAll Divider := by
  refine .of fun F E RV RB H r n x y X Y ⟨wx, wy, kx, ky, nx, ny, hn⟩ hx hy => ?_
  obtain ⟨y', i1, i2⟩ := g_zext H hy wy 1
  have i1 : F.zext y 1 = .ok y' := i1
  obtain ⟨o, o1, o2⟩ := g_const H r (n := n + 1) (by omega) 1
  obtain ⟨zero, v1, v2⟩ := g_const H r (n := n + 1) (by omega) 0
  have h2 : (1 : Int) < 2 ^ (n + 1) := by
    have : (0 : Int) < 2 ^ n := by positivity
    rw [pow_succ]; omega
  rw [Int.emod_eq_of_lt (by decide) h2] at o2
  rw [Int.zero_emod] at v2
  have hX := wx.1
  have hX' := WF.lt wx nx
  have hY := wy.1
  have hY' := WF.lt wy ny
  obtain ⟨l, w, L, W, h1, h2, h3, h4, h5⟩ := divLoop_eq H hx wx nx i2 ⟨ky, by show Y.size + 1 = n + 1; omega⟩
    hY hY' o2 v2 n zero 0 (Nat.le_refl n) v2 (Int.le_refl 0) (by
      show 0 < Y.value ∨ Y.value = 0 ∧ 0 = X.value / 2 ^ n
      rcases Int.lt_or_eq_of_le hY with h | h
      · exact .inl h
      · exact .inr ⟨h.symm, (Int.ediv_eq_zero_of_lt hX hX').symm⟩)
  have b1 := ofBits_bounds L
  have key : (if Y.value = 0 then (2 : Int) ^ X.size - 1 else ((X.value.toNat / Y.value.toNat : Nat) : Int)) = ofBits L ∧
      (if Y.value = 0 then X.value else ((X.value.toNat % Y.value.toNat : Nat) : Int)) = W := by
    rcases h5 with ⟨c1, c2, c3, c4⟩ | ⟨c1, c2, c3⟩
    · dsimp only at c1 c2 c4
      rw [if_neg (by omega), if_neg (by omega)]
      rw [Int.zero_mul, Int.zero_add, Int.emod_eq_of_lt hX hX'] at c2
      push_cast
      rw [Int.toNat_of_nonneg hX, Int.toNat_of_nonneg hY]
      exact (Int.ediv_emod_unique c1).2 ⟨by rw [Int.mul_comm]; omega, c3, c4⟩
    · dsimp only at c1
      rw [if_pos c1, if_pos c1, nx]
      exact ⟨c2.symm, c3.symm⟩
  have hq : concrete.bin .udiv X (.vec Y) = .ok ⟨X.kind, X.size, ofBits L⟩ := by
    show X.bvudiv (.bv Y) = _
    rw [C11_bvudiv wx (o := .bv Y) wy, operand_bv (by omega)]
    rw [← key.1]
    rfl
  have hm : concrete.bin .urem X (.vec Y) = .ok ⟨X.kind, X.size, W⟩ := by
    show X.bvurem (.bv Y) = _
    rw [C11_bvurem wx (o := .bv Y) wy, operand_bv (by omega)]
    rw [← key.2]
    rfl
  obtain ⟨q, q1, q2⟩ := RelP.ok_right (H.bin _ hx (.vec hy)) hq
  obtain ⟨m, m1, m2⟩ := RelP.ok_right (H.bin _ hx (.vec hy)) hm
  have wW : BVal.WF ⟨X.kind, X.size, W⟩ := by
    rcases h5 with ⟨c1, c2, c3, c4⟩ | ⟨c1, c2, c3⟩
    · dsimp only at c4
      exact ⟨c3, by show W < 2 ^ X.size; rw [nx]; omega⟩
    · rw [c3]; exact wx
  obtain ⟨m', e1, e2⟩ := g_zext H m2 wW 1
  refine ⟨l, w, q, m, m', by simp only [divide, i1, o1, v1, h1, bind, Except.bind], q1, m1, e1, ⟨_, q2, ?_⟩, _, h3, ?_⟩
  · show List.Forall₂ RB l (toBits X.size (ofBits L))
    rw [nx, ← h4, toBits_ofBits]
    exact h2
  · have e : X.size + 1 = n + 1 := by omega
    dsimp only at e2
    rwa [kx, e] at e2

/-! ### Examples -/

/-- Two vectors of class `UIntVector[4]`. -/
example : Pair .uint 4 ⟨.root .uint, 4, 13⟩ ⟨.root .uint, 4, 6⟩ := by
  refine ⟨⟨by decide, by decide⟩, ⟨by decide, by decide⟩, rfl, rfl, rfl, rfl, by decide⟩

/-- 13 + 6 = 3 with a carry, 13 / 6 = 2 remainder 1. -/
example : Except.toOption (α := List Bool × Bool)
    (ripple concrete (⟨.root .uint, 4, 13⟩ : BVal) (⟨.root .uint, 4, 6⟩ : BVal) 0 4 false) =
    some ([true, true, false, false], true) := by decide +kernel

example : Except.toOption (α := List Bool × BVal)
    (divide concrete .uint 4 (⟨.root .uint, 4, 13⟩ : BVal) (⟨.root .uint, 4, 6⟩ : BVal)) =
    some ([false, true, false, false], ⟨.root .uint, 5, 1⟩) := by decide +kernel

/-- 13 is -3: `-3 >> 1 = -2`. -/
example : Except.toOption (α := BVal)
    (barrel concrete .ashr (⟨.root .sint, 4, 1⟩ : BVal) 0 4 (⟨.root .sint, 4, 13⟩ : BVal)) =
    some ⟨.root .sint, 4, 14⟩ := by decide +kernel

end HW
