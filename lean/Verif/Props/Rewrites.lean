import Verif.Props.Gates

/-!
# C163: rewriting arithmetic into cheaper operations changes nothing

The usual rewrites (negation as complement plus one, powers of two as shifts and masks, sign extension and rotation
by shifts, addition by carry-save, the average without overflow, masks for `ite`, signed comparison by flipping the
sign bits, carry by comparison) at every width, in simulation and under every assignment in the SMT and z3 families.
-/

namespace HW
open Circuit Spec Gates

namespace Gates

/-- A canonical vector of a predefined class and positive width. -/
def One (r : Root) (n : Nat) (X : BVal) : Prop := X.WF ∧ X.kind = .root r ∧ X.size = n ∧ 0 < n

section
variable (F : Family) (RV : F.V → BVal → Prop) (RB : F.B → Bool → Prop)

/-- Both programs succeed with the same vector. -/
def SameResult (m m' : PyM F.V) : Prop := ∃ a b, m = .ok a ∧ m' = .ok b ∧ SameVec F RV a b

def SameResultBit (m m' : PyM F.B) : Prop := ∃ a b, m = .ok a ∧ m' = .ok b ∧ SameBit F RB a b

end

section
variable {F : Family} {E : PyErr → PyErr → Prop} {RV : F.V → BVal → Prop} {RB : F.B → Bool → Prop}

theorem SameResult.of {m m' : PyM F.V} {M M' : PyM BVal} (h : RelP E RV m M) (h' : RelP E RV m' M') {Z : BVal}
    (e : M = .ok Z) (e' : M' = .ok Z) : SameResult F RV m m' := by
  obtain ⟨a, a1, a2⟩ := RelP.ok_right h e
  obtain ⟨b, b1, b2⟩ := RelP.ok_right h' e'
  exact ⟨a, b, a1, b1, Z, a2, b2⟩

theorem SameResultBit.of {m m' : PyM F.B} {M M' : PyM Bool} (h : RelP E RB m M) (h' : RelP E RB m' M') {Z : Bool}
    (e : M = .ok Z) (e' : M' = .ok Z) : SameResultBit F RB m m' := by
  obtain ⟨a, a1, a2⟩ := RelP.ok_right h e
  obtain ⟨b, b1, b2⟩ := RelP.ok_right h' e'
  exact ⟨a, b, a1, b1, Z, a2, b2⟩

end

/-! ### Values -/

theorem okv {k : Kind} {n : Nat} {a b : Int} (h : a = b) : (Except.ok ⟨k, n, a⟩ : PyM BVal) = .ok ⟨k, n, b⟩ := by rw [h]

theorem ok_then {α β : Type} (a : α) (f : α → PyM β) : ((Except.ok a : PyM α) >>= f) = f a := rfl

theorem pow_fits {n k : Nat} (hk : k < n) : (0 : Int) ≤ 2 ^ k ∧ (2 : Int) ^ k < 2 ^ n :=
  ⟨by positivity, by exact_mod_cast Nat.pow_lt_pow_right (by decide) hk⟩

theorem nat_fits {n k : Nat} (hk : k ≤ n) : (0 : Int) ≤ k ∧ (k : Int) < 2 ^ n :=
  ⟨by omega, by exact_mod_cast Nat.lt_of_le_of_lt hk Nat.lt_two_pow_self⟩

theorem one_fits {n : Nat} (hn : 0 < n) : (0 : Int) ≤ 1 ∧ (1 : Int) < 2 ^ n := nat_fits (k := 1) hn

section
variable (k k' : Kind) (n : Nat) (v w : Int)

theorem v_not : BVal.bvnot ⟨k, n, v⟩ = .ok ⟨k, n, pyNot v % 2 ^ n⟩ := mk'_eq _ _

theorem v_neg : BVal.bvneg ⟨k, n, v⟩ = .ok ⟨k, n, (-v) % 2 ^ n⟩ := C05_bvneg _

theorem v_and0 (x : BVal) (o : Obj) :
    x.bvand o = (operand x.size o).map fun b => ⟨x.kind, x.size, pyAnd x.value b % 2 ^ x.size⟩ := by
  rw [← bind_ok_map]
  exact cast_eq' _ fun y _ => by simp [BVal.asUint]

theorem v_or0 (x : BVal) (o : Obj) :
    x.bvor o = (operand x.size o).map fun b => ⟨x.kind, x.size, pyOr x.value b % 2 ^ x.size⟩ := by
  rw [← bind_ok_map]
  exact cast_eq' _ fun y _ => by simp [BVal.asUint]

theorem v_xor0 (x : BVal) (o : Obj) :
    x.bvxor o = (operand x.size o).map fun b => ⟨x.kind, x.size, pyXor x.value b % 2 ^ x.size⟩ := by
  rw [← bind_ok_map]
  exact cast_eq' _ fun y _ => by simp [BVal.asUint]

theorem v_op : operand n (.bv ⟨k, n, v⟩) = .ok v := operand_bv rfl

theorem v_and : BVal.bvand ⟨k, n, v⟩ (.bv ⟨k', n, w⟩) = .ok ⟨k, n, pyAnd v w % 2 ^ n⟩ := by
  rw [v_and0, v_op]; rfl

theorem v_or : BVal.bvor ⟨k, n, v⟩ (.bv ⟨k', n, w⟩) = .ok ⟨k, n, pyOr v w % 2 ^ n⟩ := by
  rw [v_or0, v_op]; rfl

theorem v_xor : BVal.bvxor ⟨k, n, v⟩ (.bv ⟨k', n, w⟩) = .ok ⟨k, n, pyXor v w % 2 ^ n⟩ := by
  rw [v_xor0, v_op]; rfl

theorem v_add : BVal.bvadd ⟨k, n, v⟩ (.bv ⟨k', n, w⟩) = .ok ⟨k, n, (v + w) % 2 ^ n⟩ := by
  rw [C05_bvadd, v_op]; rfl

theorem v_sub : BVal.bvsub ⟨k, n, v⟩ (.bv ⟨k', n, w⟩) = .ok ⟨k, n, (v - w) % 2 ^ n⟩ := by
  rw [C05_bvsub, v_op]; rfl

theorem v_ult : BVal.bvult ⟨k, n, v⟩ (.bv ⟨k', n, w⟩) = .ok (decide (v < w)) := by
  rw [C09_bvult, v_op]; rfl

variable {n v w}

theorem v_slt (hn : 0 < n) (hv : BVal.WF ⟨k, n, v⟩) (hw : BVal.WF ⟨k', n, w⟩) :
    BVal.bvslt ⟨k, n, v⟩ (.bv ⟨k', n, w⟩) = .ok (decide (signed n v < signed n w)) := by
  rw [C10_bvslt _ (.bv _) hv hw, v_op]
  show (if n = 0 then _ else _) = _
  rw [if_neg (by omega)]

variable {c : Int} (hc : 0 ≤ c ∧ c < 2 ^ n)
include hc

theorem v_and_int : BVal.bvand ⟨k, n, v⟩ (.int c) = .ok ⟨k, n, pyAnd v c % 2 ^ n⟩ := by
  rw [v_and0, operand_int hc.1 hc.2]; rfl

theorem v_xor_int : BVal.bvxor ⟨k, n, v⟩ (.int c) = .ok ⟨k, n, pyXor v c % 2 ^ n⟩ := by
  rw [v_xor0, operand_int hc.1 hc.2]; rfl

theorem v_add_int : BVal.bvadd ⟨k, n, v⟩ (.int c) = .ok ⟨k, n, (v + c) % 2 ^ n⟩ := by
  rw [C05_bvadd, operand_int hc.1 hc.2]; rfl

theorem v_mul_int : BVal.bvmul ⟨k, n, v⟩ (.int c) = .ok ⟨k, n, (v * c) % 2 ^ n⟩ := by
  rw [C05_bvmul, operand_int hc.1 hc.2]; rfl

theorem v_shl_int : BVal.bvshl ⟨k, n, v⟩ (.int c) = .ok ⟨k, n, (v * 2 ^ c.toNat) % 2 ^ n⟩ := by
  rw [C07_bvshl _ (o := .int c) trivial, operand_int hc.1 hc.2]; rfl

variable (hv : 0 ≤ v ∧ v < 2 ^ n)
include hv

theorem v_lshr_int : BVal.bvlshr ⟨k, n, v⟩ (.int c) = .ok ⟨k, n, v / 2 ^ c.toNat⟩ := by
  rw [C07_bvlshr (x := ⟨k, n, v⟩) hv (o := .int c) trivial, operand_int hc.1 hc.2]; rfl

theorem v_ashr_int (hn : 0 < n) :
    BVal.bvashr ⟨k, n, v⟩ (.int c) = .ok ⟨k, n, (signed n v / 2 ^ c.toNat) % 2 ^ n⟩ := by
  rw [C07_bvashr (x := ⟨k, n, v⟩) hv (o := .int c) trivial, operand_int hc.1 hc.2]
  show (if n = 0 then _ else _) = _
  rw [if_neg (by omega)]; rfl

theorem v_udiv_int (h : c ≠ 0) : BVal.bvudiv ⟨k, n, v⟩ (.int c) = .ok ⟨k, n, v / c⟩ := by
  rw [C11_bvudiv (x := ⟨k, n, v⟩) hv (o := .int c) trivial, operand_int hc.1 hc.2]
  refine okv ?_
  show (if c = 0 then _ else ((v.toNat / c.toNat : Nat) : Int)) = _
  rw [if_neg h]
  push_cast
  rw [Int.toNat_of_nonneg hv.1, Int.toNat_of_nonneg hc.1]

theorem v_urem_int (h : c ≠ 0) : BVal.bvurem ⟨k, n, v⟩ (.int c) = .ok ⟨k, n, v % c⟩ := by
  rw [C11_bvurem (x := ⟨k, n, v⟩) hv (o := .int c) trivial, operand_int hc.1 hc.2]
  refine okv ?_
  show (if c = 0 then _ else ((v.toNat % c.toNat : Nat) : Int)) = _
  rw [if_neg h]
  push_cast
  rw [Int.toNat_of_nonneg hv.1, Int.toNat_of_nonneg hc.1]

omit hc in
theorem v_zext (m : Nat) : BVal.zext ⟨k, n, v⟩ m = .ok ⟨k, n + m, v⟩ := by
  rw [C17_zext (x := ⟨k, n, v⟩) hv, if_neg (by omega)]; rfl

end

theorem mod_bounds (a : Int) (n : Nat) : 0 ≤ a % 2 ^ n ∧ a % 2 ^ n < 2 ^ n :=
  ⟨Int.emod_nonneg _ (by positivity), Int.emod_lt_of_pos _ (by positivity)⟩

/-- Sum of the `n` bits from `i` on, without and with carries kept apart. -/
theorem seg_add_xor (a b : Int) (n : Nat) : ∀ i, seg a i n + seg b i n = seg (pyXor a b) i n + 2 * seg (pyAnd a b) i n := by
  induction n with
  | zero => intro i; simp [seg_zero]
  | succ n ih =>
    intro i
    rw [seg_succ, seg_succ, seg_succ, seg_succ, ibit_pyXor, ibit_pyAnd]
    have := ih (i + 1)
    cases ibit a i <;> cases ibit b i <;> simp [bi] <;> omega

theorem seg_or_xor (a b : Int) (n : Nat) : ∀ i, seg (pyOr a b) i n = seg (pyXor a b) i n + seg (pyAnd a b) i n := by
  induction n with
  | zero => intro i; simp [seg_zero]
  | succ n ih =>
    intro i
    rw [seg_succ, seg_succ, seg_succ, ibit_pyXor, ibit_pyAnd, ibit_pyOr]
    have := ih (i + 1)
    cases ibit a i <;> cases ibit b i <;> simp [bi] <;> omega

theorem seg0 (v : Int) (n : Nat) : seg v 0 n = v % 2 ^ n := by simp [seg]

/-- The bitwise operations on two `n`-bit numbers. -/
theorem add_xor {n : Nat} {a b : Int} (a0 : 0 ≤ a) (a1 : a < 2 ^ n) (b0 : 0 ≤ b) (b1 : b < 2 ^ n) :
    a + b = pyXor a b % 2 ^ n + 2 * (pyAnd a b % 2 ^ n) ∧ pyOr a b % 2 ^ n = pyXor a b % 2 ^ n + pyAnd a b % 2 ^ n := by
  have h := seg_add_xor a b n 0
  have h' := seg_or_xor a b n 0
  rw [seg_full a0 a1, seg_full b0 b1] at h
  rw [seg0, seg0] at h
  rw [seg0, seg0, seg0] at h'
  exact ⟨h, h'⟩

end Gates

/-! ### The rewrites -/

/-- `-x` is `~x + 1`. -/
theorem C163_neg : InAll fun F RV _ => ∀ r n x X, One r n X → RV x X →
    SameResult F RV (F.un .neg x) (do F.bin .add (← F.un .not x) (.int 1)) := by
  refine .of fun F E RV RB H r n x X ⟨wx, kx, nx, hn⟩ hx => ?_
  obtain ⟨K, N, v⟩ := X
  dsimp only at kx nx
  subst kx nx
  refine .of (H.un .neg hx) (RelP.bind (H.un .not hx) fun _ _ h => H.bin .add h .int) (v_neg _ _ _) ?_
  show (BVal.bvnot ⟨_, N, v⟩ >>= fun a => a.bvadd (.int 1)) = _
  rw [v_not, ok_then, v_add_int _ (one_fits hn)]
  refine okv ?_
  rw [Int.emod_add_emod]
  congr 1
  simp only [pyNot]; omega

/-- `x - y` is `x + -y`. -/
theorem C163_sub : InAll fun F RV _ => ∀ r n x y X Y, Pair r n X Y → RV x X → RV y Y →
    SameResult F RV (F.bin .sub x (.vec y)) (do F.bin .add x (.vec (← F.un .neg y))) := by
  refine .of fun F E RV RB H r n x y X Y ⟨wx, wy, kx, ky, nx, ny, hn⟩ hx hy => ?_
  obtain ⟨K, N, v⟩ := X
  obtain ⟨K', N', w⟩ := Y
  dsimp only at kx nx ky ny
  subst kx ky ny
  subst nx
  refine .of (H.bin .sub hx (.vec hy)) (RelP.bind (H.un .neg hy) fun _ _ h => H.bin .add hx (.vec h))
    (v_sub (.root r) (.root r) N v w) ?_
  show (BVal.bvneg ⟨.root r, N, w⟩ >>= fun a => BVal.bvadd ⟨.root r, N, v⟩ (.bv a)) = _
  rw [v_neg, ok_then, v_add]
  refine okv ?_
  rw [Int.add_emod_emod, Int.sub_eq_add_neg]

/-- `x * 2**k` is `x << k`. -/
theorem C163_mul_pow : InAll fun F RV _ => ∀ r n x X, One r n X → RV x X → ∀ k : Nat, k < n →
    SameResult F RV (F.bin .mul x (.int (2 ^ k))) (F.bin .shl x (.int k)) := by
  refine .of fun F E RV RB H r n x X ⟨wx, kx, nx, hn⟩ hx => ?_
  obtain ⟨K, N, v⟩ := X
  dsimp only at kx nx
  subst kx nx
  intro k hk
  exact .of (H.bin .mul hx .int) (H.bin .shl hx .int) (v_mul_int _ (pow_fits hk)) (v_shl_int _ (nat_fits (by omega)))

/-- `x // 2**k` is `x >> k`. -/
theorem C163_udiv_pow : InAll fun F RV _ => ∀ r n x X, One r n X → RV x X → ∀ k : Nat, k < n →
    SameResult F RV (F.bin .udiv x (.int (2 ^ k))) (F.bin .lshr x (.int k)) := by
  refine .of fun F E RV RB H r n x X ⟨wx, kx, nx, hn⟩ hx => ?_
  obtain ⟨K, N, v⟩ := X
  dsimp only at kx nx
  subst kx nx
  intro k hk
  exact .of (H.bin .udiv hx .int) (H.bin .lshr hx .int) (v_udiv_int _ (pow_fits hk) wx (by positivity))
    (v_lshr_int _ (nat_fits (by omega)) wx)

/-- `x % 2**k` is `x & (2**k - 1)`. -/
theorem C163_urem_pow : InAll fun F RV _ => ∀ r n x X, One r n X → RV x X → ∀ k : Nat, k < n →
    SameResult F RV (F.bin .urem x (.int (2 ^ k))) (F.bin .and x (.int (2 ^ k - 1))) := by
  refine .of fun F E RV RB H r n x X ⟨wx, kx, nx, hn⟩ hx => ?_
  obtain ⟨K, N, v⟩ := X
  dsimp only at kx nx
  subst kx nx
  intro k hk
  have hf := pow_fits hk
  have hp : (0 : Int) < 2 ^ k := by positivity
  refine .of (H.bin .urem hx .int) (H.bin .and hx .int) (v_urem_int _ hf wx hp.ne') ?_
  refine (v_and_int (.root r) (n := N) (v := v) (c := 2 ^ k - 1) (by omega)).trans (okv ?_)
  refine ibit_ext fun i => ?_
  rw [ibit_emod, ibit_pyAnd, ibit_mask, ibit_emod]
  by_cases hi : i < k
  · simp [hi, show i < N by omega]
  · simp [hi]

/-- `x.sext(m)` is `x.zext(m) << m >> m` with an arithmetic right shift. -/
theorem C163_sext : InAll fun F RV _ => ∀ r n x X, One r n X → RV x X → ∀ m : Nat, 0 < m →
    SameResult F RV (F.sext x m) (do
      let y ← F.zext x m
      let y ← F.bin .shl y (.int m)
      F.bin .ashr y (.int m)) := by
  refine .of fun F E RV RB H r n x X ⟨wx, kx, nx, hn⟩ hx => ?_
  obtain ⟨K, N, v⟩ := X
  dsimp only at kx nx
  subst kx nx
  intro m hm
  obtain ⟨⟨K, M, V⟩, y1, y2, y3, y4, y5, y6⟩ := C18_sext_partial wx hn m (by omega)
  refine .of (H.sext hx (by omega)) (RelP.bind (H.zext hx) fun _ _ h => RelP.bind (H.bin .shl h .int) fun _ _ h =>
    H.bin .ashr h .int) y1 ?_
  have y3 : M = N + m := by simpa using y3
  dsimp only at y2
  subst y2 y3
  have hX : 0 ≤ v := wx.1
  have hX' : v < 2 ^ N := wx.2
  have hlt : v * 2 ^ m < 2 ^ (N + m) := by
    rw [pow_add]
    exact Int.mul_lt_mul_of_pos_right hX' (by positivity)
  have h0 : 0 ≤ v * 2 ^ m := Int.mul_nonneg hX (by positivity)
  show (BVal.zext ⟨.root r, N, v⟩ m >>= fun a => a.bvshl (.int m) >>= fun a => a.bvashr (.int m)) = _
  rw [v_zext _ wx, ok_then, v_shl_int _ (nat_fits (by omega)), ok_then, Int.toNat_natCast, Int.emod_eq_of_lt h0 hlt,
    v_ashr_int _ (nat_fits (by omega)) ⟨h0, hlt⟩ (by omega)]
  refine okv ?_
  have y5 := y5.trans y6
  rw [asSint_eq y4] at y5
  have h1 : 0 ≤ V := y4.1
  have h2 : V < 2 ^ (N + m) := y4.2
  have y5 : signed (N + m) V = signed N v := by
    dsimp only at y5
    rw [if_neg (by omega)] at y5
    injection y5
  have e : signed (N + m) (v * 2 ^ m) = signed N v * 2 ^ m := by
    unfold signed
    rw [pow_add]
    have hp : (0 : Int) < 2 ^ m := by positivity
    by_cases hc : 2 * v < 2 ^ N
    · rw [if_pos hc, if_pos]
      have := Int.mul_lt_mul_of_pos_right hc hp
      linarith
    · rw [if_neg hc, if_neg, Int.sub_mul]
      have := Int.mul_le_mul_of_nonneg_right (Int.not_lt.1 hc) hp.le
      linarith
  rw [e, Int.toNat_natCast, Int.mul_ediv_cancel _ (by positivity), ← y5, signed_mod, Int.emod_eq_of_lt h1 h2]

/-- `x.bvrol(k)` is `(x << k) | (x >> (n - k))`. -/
theorem C163_rol : InAll fun F RV _ => ∀ r n x X, One r n X → RV x X → ∀ k : Nat, k ≤ n →
    SameResult F RV (F.rol x k) (do
      let a ← F.bin .shl x (.int k)
      let b ← F.bin .lshr x (.int (n - k : Nat))
      F.bin .or a (.vec b)) := by
  refine .of fun F E RV RB H r n x X ⟨wx, kx, nx, hn⟩ hx => ?_
  obtain ⟨K, N, v⟩ := X
  dsimp only at kx nx
  subst kx nx
  intro k hk
  have hf := nat_fits hk
  obtain ⟨Y, y1, y2, y3, y4, y5⟩ := C08_bvrol ⟨.root r, N, v⟩ hn (o := .int k) trivial (operand_int hf.1 hf.2)
  refine .of (H.rol hx (by omega) (by show (k : Int) ≤ N; omega)) (RelP.bind (H.bin .shl hx .int) fun _ _ ha =>
    RelP.bind (H.bin .lshr hx .int) fun _ _ hb => H.bin .or ha (.vec hb)) y1 ?_
  show (BVal.bvshl ⟨.root r, N, v⟩ (.int k) >>= fun a => BVal.bvlshr ⟨.root r, N, v⟩ (.int (N - k : Nat)) >>= fun b =>
    a.bvor (.bv b)) = _
  rw [v_shl_int _ hf, ok_then, v_lshr_int _ (nat_fits (Nat.sub_le _ _)) wx, ok_then, v_or]
  congr 1
  refine C06_bits_determine (mod_WF _ _ _) y4 y2.symm y3.symm fun j hj => ?_
  have hj : j < N := hj
  show ibit (pyOr (v * 2 ^ (k : Int).toNat % 2 ^ N) (v / 2 ^ ((N - k : Nat) : Int).toNat) % 2 ^ N) j = _
  rw [Int.toNat_natCast, Int.toNat_natCast, ibit_emod, ibit_pyOr, ibit_emod, ibit_mul, ibit_div]
  simp only [hj, decide_true, Bool.true_and]
  dsimp only at y5
  by_cases hjk : j < k
  · have e := y5 (N - k + j) (by omega)
    have e' : (N - k + j + (k : Int).toNat) % N = j := by
      rw [Int.toNat_natCast, show N - k + j + k = j + N by omega, Nat.add_mod_right, Nat.mod_eq_of_lt hj]
    rw [e'] at e
    rw [e]
    simp [hjk]
  · have e := y5 (j - k) (by omega)
    have e' : (j - k + (k : Int).toNat) % N = j := by
      rw [Int.toNat_natCast, show j - k + k = j by omega, Nat.mod_eq_of_lt hj]
    rw [e'] at e
    rw [e, ibit_lt (n := N) (v := v) wx.1 wx.2 (i := N - k + j) (by omega)]
    simp [show k ≤ j by omega]

/-- `x + y` is `(x ^ y) + ((x & y) << 1)`. -/
theorem C163_carry_save : InAll fun F RV _ => ∀ r n x y X Y, Pair r n X Y → RV x X → RV y Y →
    SameResult F RV (F.bin .add x (.vec y)) (do
      let s ← F.bin .xor x (.vec y)
      let c ← F.bin .and x (.vec y)
      let c ← F.bin .shl c (.int 1)
      F.bin .add s (.vec c)) := by
  refine .of fun F E RV RB H r n x y X Y ⟨wx, wy, kx, ky, nx, ny, hn⟩ hx hy => ?_
  obtain ⟨K, N, v⟩ := X
  obtain ⟨K', N', w⟩ := Y
  dsimp only at kx nx ky ny
  subst kx ky ny
  subst nx
  have key := add_xor wx.1 wx.2 wy.1 wy.2
  refine .of (H.bin .add hx (.vec hy)) (RelP.bind (H.bin .xor hx (.vec hy)) fun _ _ hs =>
    RelP.bind (H.bin .and hx (.vec hy)) fun _ _ hc => RelP.bind (H.bin .shl hc .int) fun _ _ hc => H.bin .add hs (.vec hc))
    (v_add (.root r) (.root r) N v w) ?_
  show (BVal.bvxor ⟨.root r, N, v⟩ (.bv ⟨.root r, N, w⟩) >>= fun s => BVal.bvand ⟨.root r, N, v⟩ (.bv ⟨.root r, N, w⟩) >>= fun c =>
    c.bvshl (.int 1) >>= fun c => s.bvadd (.bv c)) = _
  rw [v_xor, ok_then, v_and, ok_then, v_shl_int _ (one_fits hn), ok_then, v_add]
  refine okv ?_
  dsimp only at key
  rw [Int.add_emod_emod, key.1, show (1 : Int).toNat = 1 from rfl, pow_one, Int.mul_comm]

/-- `x | y` is `(x ^ y) + (x & y)`. -/
theorem C163_or : InAll fun F RV _ => ∀ r n x y X Y, Pair r n X Y → RV x X → RV y Y →
    SameResult F RV (F.bin .or x (.vec y)) (do
      let s ← F.bin .xor x (.vec y)
      let c ← F.bin .and x (.vec y)
      F.bin .add s (.vec c)) := by
  refine .of fun F E RV RB H r n x y X Y ⟨wx, wy, kx, ky, nx, ny, hn⟩ hx hy => ?_
  obtain ⟨K, N, v⟩ := X
  obtain ⟨K', N', w⟩ := Y
  dsimp only at kx nx ky ny
  subst kx ky ny
  subst nx
  have key := add_xor wx.1 wx.2 wy.1 wy.2
  refine .of (H.bin .or hx (.vec hy)) (RelP.bind (H.bin .xor hx (.vec hy)) fun _ _ hs =>
    RelP.bind (H.bin .and hx (.vec hy)) fun _ _ hc => H.bin .add hs (.vec hc))
    (v_or (.root r) (.root r) N v w) ?_
  show (BVal.bvxor ⟨.root r, N, v⟩ (.bv ⟨.root r, N, w⟩) >>= fun s => BVal.bvand ⟨.root r, N, v⟩ (.bv ⟨.root r, N, w⟩) >>= fun c =>
    s.bvadd (.bv c)) = _
  rw [v_xor, ok_then, v_and, ok_then, v_add]
  refine okv ?_
  dsimp only at key
  rw [← key.2, Int.emod_emod_of_dvd _ (Int.dvd_refl _)]

/-- The average of two vectors without a wider vector: `(x & y) + ((x ^ y) >> 1)` is `(x + y) >> 1` computed with one
more bit. -/
theorem C163_average : InAll fun F RV _ => ∀ r n x y X Y, Pair r n X Y → RV x X → RV y Y →
    SameResult F RV
      (do
        let s ← F.bin .xor x (.vec y)
        let h ← F.bin .lshr s (.int 1)
        let c ← F.bin .and x (.vec y)
        F.zext (← F.bin .add c (.vec h)) 1)
      (do
        let a ← F.zext x 1
        let b ← F.zext y 1
        F.bin .lshr (← F.bin .add a (.vec b)) (.int 1)) := by
  refine .of fun F E RV RB H r n x y X Y ⟨wx, wy, kx, ky, nx, ny, hn⟩ hx hy => ?_
  obtain ⟨K, N, v⟩ := X
  obtain ⟨K', N', w⟩ := Y
  dsimp only at kx nx ky ny
  subst kx ky ny
  subst nx
  have hX : 0 ≤ v := wx.1
  have hX' : v < 2 ^ N := wx.2
  have hY : 0 ≤ w := wy.1
  have hY' : w < 2 ^ N := wy.2
  have key := (add_xor hX hX' hY hY').1
  have hc0 := mod_bounds (pyAnd v w) N
  have hs0 := mod_bounds (pyXor v w) N
  have hp : (2 : Int) ^ (N + 1) = 2 * 2 ^ N := by rw [pow_succ]; ring
  refine .of (RelP.bind (H.bin .xor hx (.vec hy)) fun _ _ hs => RelP.bind (H.bin .lshr hs .int) fun _ _ hh =>
      RelP.bind (H.bin .and hx (.vec hy)) fun _ _ hc => RelP.bind (H.bin .add hc (.vec hh)) fun _ _ h => H.zext h)
    (RelP.bind (H.zext hx) fun _ _ ha => RelP.bind (H.zext hy) fun _ _ hb => RelP.bind (H.bin .add ha (.vec hb)) fun _ _ h =>
      H.bin .lshr h .int)
    (Z := ⟨.root r, N + 1, (v + w) / 2⟩) ?_ ?_
  · show (BVal.bvxor ⟨.root r, N, v⟩ (.bv ⟨.root r, N, w⟩) >>= fun s => s.bvlshr (.int 1) >>= fun h =>
      BVal.bvand ⟨.root r, N, v⟩ (.bv ⟨.root r, N, w⟩) >>= fun c => c.bvadd (.bv h) >>= fun a => a.zext (1 : Nat)) = _
    rw [v_xor, ok_then, v_lshr_int _ (one_fits hn) hs0, ok_then, v_and, ok_then, v_add, ok_then, v_zext _ (mod_bounds _ _)]
    refine okv ?_
    rw [show (1 : Int).toNat = 1 from rfl, pow_one]
    generalize pyAnd v w % 2 ^ N = c at *
    generalize pyXor v w % 2 ^ N = s at *
    rw [Int.emod_eq_of_lt (by omega) (by omega)]
    omega
  · show (BVal.zext ⟨.root r, N, v⟩ (1 : Nat) >>= fun a => BVal.zext ⟨.root r, N, w⟩ (1 : Nat) >>= fun b =>
      a.bvadd (.bv b) >>= fun s => s.bvlshr (.int 1)) = _
    rw [v_zext _ wx, ok_then, v_zext _ wy, ok_then, v_add, ok_then, v_lshr_int _ (one_fits (by omega)) (mod_bounds _ _)]
    refine okv ?_
    dsimp only
    rw [show (1 : Int).toNat = 1 from rfl, pow_one, Int.emod_eq_of_lt (by omega) (by omega)]

/-- De Morgan. -/
theorem C163_de_morgan : InAll fun F RV _ => ∀ r n x y X Y, Pair r n X Y → RV x X → RV y Y →
    SameResult F RV (do F.un .not (← F.bin .and x (.vec y)))
      (do
        let a ← F.un .not x
        let b ← F.un .not y
        F.bin .or a (.vec b)) := by
  refine .of fun F E RV RB H r n x y X Y ⟨wx, wy, kx, ky, nx, ny, hn⟩ hx hy => ?_
  obtain ⟨K, N, v⟩ := X
  obtain ⟨K', N', w⟩ := Y
  dsimp only at kx nx ky ny
  subst kx ky ny
  subst nx
  refine .of (RelP.bind (H.bin .and hx (.vec hy)) fun _ _ h => H.un .not h)
    (RelP.bind (H.un .not hx) fun _ _ ha => RelP.bind (H.un .not hy) fun _ _ hb => H.bin .or ha (.vec hb))
    (Z := ⟨.root r, N, pyNot (pyAnd v w) % 2 ^ N⟩) ?_ ?_
  · show (BVal.bvand ⟨.root r, N, v⟩ (.bv ⟨.root r, N, w⟩) >>= fun a => a.bvnot) = _
    rw [v_and, ok_then, v_not]
    refine okv (ibit_ext fun i => ?_)
    rw [ibit_emod, ibit_emod, ibit_pyNot, ibit_pyNot, ibit_emod]
    by_cases hi : i < N <;> simp [hi]
  · show (BVal.bvnot ⟨.root r, N, v⟩ >>= fun a => BVal.bvnot ⟨.root r, N, w⟩ >>= fun b => a.bvor (.bv b)) = _
    rw [v_not, ok_then, v_not, ok_then, v_or]
    refine okv (ibit_ext fun i => ?_)
    rw [ibit_emod, ibit_emod, ibit_pyOr, ibit_emod, ibit_emod, ibit_pyNot, ibit_pyNot, ibit_pyNot, ibit_pyAnd]
    by_cases hi : i < N <;> simp [hi]

/-- `c.ite(x, y)` is `y ^ ((x ^ y) & c.ite(-1, 0))`. -/
theorem C163_ite_mask : InAll fun F RV RB => ∀ r n x y X Y, Pair r n X Y → RV x X → RV y Y → ∀ c C, RB c C →
    SameResult F RV (F.mux c x y)
      (do
        let m ← F.mux c (← F.const r n (-1)) (← F.const r n 0)
        let d ← F.bin .xor x (.vec y)
        F.bin .xor y (.vec (← F.bin .and d (.vec m)))) := by
  refine .of fun F E RV RB H r n x y X Y ⟨wx, wy, kx, ky, nx, ny, hn⟩ hx hy => ?_
  obtain ⟨K, N, v⟩ := X
  obtain ⟨K', N', w⟩ := Y
  dsimp only at kx nx ky ny
  subst kx ky ny
  subst nx
  intro c C hc
  obtain ⟨p, p1, p2⟩ := g_const H r hn (-1)
  obtain ⟨q, q1, q2⟩ := g_const H r hn 0
  obtain ⟨m, m1, m2⟩ := g_mux H hc p2 q2 (mod_WF _ _ _) (mod_WF _ _ _) rfl rfl
  obtain ⟨z, z1, z2⟩ := g_mux H hc hx hy wx wy rfl rfl
  have m2 : RV m ⟨.root r, N, (if C then -1 else 0) % 2 ^ N⟩ := by cases C <;> exact m2
  have z2 : RV z ⟨.root r, N, if C then v else w⟩ := by cases C <;> exact z2
  have hprog := RelP.bind (H.bin .xor hx (.vec hy)) fun _ _ hd =>
    RelP.bind (H.bin .and hd (.vec m2)) fun _ _ h => H.bin .xor hy (.vec h)
  have hv : (BVal.bvxor ⟨.root r, N, v⟩ (.bv ⟨.root r, N, w⟩) >>= fun d =>
      d.bvand (.bv ⟨.root r, N, (if C then -1 else 0) % 2 ^ N⟩) >>= fun a =>
      BVal.bvxor ⟨.root r, N, w⟩ (.bv a)) = .ok ⟨.root r, N, if C then v else w⟩ := by
    rw [v_xor, ok_then, v_and, ok_then, v_xor]
    refine okv ?_
    have hz : ∀ a : Int, 0 ≤ a → a < 2 ^ N → a = a % 2 ^ N := fun a h h' => (Int.emod_eq_of_lt h h').symm
    have e : (if C then v else w) = (if C then v else w) % 2 ^ N := by
      cases C
      · exact hz w wy.1 wy.2
      · exact hz v wx.1 wx.2
    rw [e]
    refine ibit_ext fun i => ?_
    rw [ibit_emod, ibit_pyXor, ibit_emod, ibit_pyAnd, ibit_emod, ibit_pyXor, ibit_emod, ibit_emod]
    have hone : ibit (-1) i = true := by
      have := ibit_pyNot 0 i
      rw [ibit_zero] at this
      exact this
    cases C
    · simp [ibit_zero]
    · simp only [if_true, hone]
      cases decide (i < N) <;> cases ibit v i <;> cases ibit w i <;> rfl
  obtain ⟨u, u1, u2⟩ := RelP.ok_right hprog hv
  refine ⟨z, u, z1, ?_, _, z2, u2⟩
  rw [p1, q1]
  show (F.mux c p q >>= _) = _
  rw [m1]
  exact u1

/-- `x < y` signed is `x ^ s < y ^ s` unsigned, where `s` is the sign bit. -/
theorem C163_slt_flip : InAll fun F RV RB => ∀ r n x y X Y, Pair r n X Y → RV x X → RV y Y →
    SameResultBit F RB (F.cmp .slt x (.vec y))
      (do
        let a ← F.bin .xor x (.int (2 ^ (n - 1)))
        let b ← F.bin .xor y (.int (2 ^ (n - 1)))
        F.cmp .ult a (.vec b)) := by
  refine .of fun F E RV RB H r n x y X Y ⟨wx, wy, kx, ky, nx, ny, hn⟩ hx hy => ?_
  obtain ⟨K, N, v⟩ := X
  obtain ⟨K', N', w⟩ := Y
  dsimp only at kx nx ky ny
  subst kx ky ny
  subst nx
  obtain ⟨m, rfl⟩ : ∃ m, N = m + 1 := ⟨N - 1, by omega⟩
  have hp : (0 : Int) < 2 ^ m := by positivity
  have hp' : (2 : Int) ^ (m + 1) = 2 * 2 ^ m := by rw [pow_succ]; ring
  have flip : ∀ v : Int, 0 ≤ v → v < 2 ^ (m + 1) → pyXor v (2 ^ m) % 2 ^ (m + 1) = signed (m + 1) v + 2 ^ m := by
    intro v h0 h1
    have bit2 : ∀ i, ibit (2 ^ m) i = decide (i = m) := by
      intro i
      have h := ibit_mul 1 m i
      rw [Int.one_mul] at h
      rw [h]
      by_cases h1 : i < m
      · simp [show ¬ m ≤ i by omega, show i ≠ m by omega]
      · by_cases h2 : i = m
        · subst h2; simp [ibit]
        · have : ibit 1 (i - m) = false := ibit_lt (n := 1) (by decide) (by decide) (by omega)
          simp [h2, this]
    have e1 : pyXor v (2 ^ m) % 2 ^ m = v % 2 ^ m := by
      refine ibit_ext fun i => ?_
      rw [ibit_emod, ibit_emod, ibit_pyXor, bit2]
      by_cases hi : i < m
      · simp [hi, show i ≠ m by omega]
      · simp [hi]
    rw [low_succ, e1, ibit_pyXor, bit2]
    have e2 := low_succ v m
    rw [Int.emod_eq_of_lt h0 h1] at e2
    have b1 := Int.emod_nonneg v (b := 2 ^ m) hp.ne'
    have b2 := Int.emod_lt_of_pos v (b := 2 ^ m) hp
    unfold signed
    rw [hp'] at h1 ⊢
    cases hb : ibit v m <;> rw [hb] at e2 <;> simp [bi] at e2 ⊢
    · rw [if_pos (by omega)]; omega
    · rw [if_neg (by omega)]; omega
  refine .of (H.cmp .slt hx (.vec hy)) (RelP.bind (H.bin .xor hx .int) fun _ _ ha => RelP.bind (H.bin .xor hy .int) fun _ _ hb =>
    H.cmp .ult ha (.vec hb)) (v_slt _ _ hn wx wy) ?_
  show (BVal.bvxor ⟨.root r, m + 1, v⟩ (.int (2 ^ m)) >>= fun a => BVal.bvxor ⟨.root r, m + 1, w⟩ (.int (2 ^ m)) >>= fun b =>
    a.bvult (.bv b)) = _
  rw [v_xor_int _ (pow_fits (by omega)), ok_then, v_xor_int _ (pow_fits (by omega)), ok_then, v_ult,
    flip _ wx.1 wx.2, flip _ wy.1 wy.2]
  congr 1
  rw [Bool.eq_iff_iff]
  simp

/-- The carry out of `x + y` is `x + y < x`. -/
theorem C163_carry : InAll fun F RV RB => ∀ r n x y X Y, Pair r n X Y → RV x X → RV y Y → ∀ c, RB c false →
    SameResultBit F RB (do return (← F.adc x (.vec y) (.bit c)).2)
      (do F.cmp .ult (← F.bin .add x (.vec y)) (.vec x)) := by
  refine .of fun F E RV RB H r n x y X Y ⟨wx, wy, kx, ky, nx, ny, hn⟩ hx hy => ?_
  obtain ⟨K, N, v⟩ := X
  obtain ⟨K', N', w⟩ := Y
  dsimp only at kx nx ky ny
  subst kx ky ny
  subst nx
  intro c hc
  obtain ⟨S, SO, s1, s2, s3, s4, s5⟩ := C20_adc wx (o := .bv ⟨.root r, N, w⟩) (c := .bit false) wy trivial
    (b := w) (cin := 0) (v_op _ _ _) rfl
  obtain ⟨⟨z, cz⟩, g1, g2⟩ := RelP.ok_right (H.adc hx (.vec hy) (.bit hc)) s1
  obtain ⟨a, a1, a2⟩ := RelP.ok_right (H.bin .add hx (.vec hy)) (v_add (.root r) (.root r) N v w)
  have hX : 0 ≤ v := wx.1
  have hX' : v < 2 ^ N := wx.2
  have hY : 0 ≤ w := wy.1
  have hY' : w < 2 ^ N := wy.2
  have hS := s4.1
  have hS' : S.value < 2 ^ N := WF.lt s4 s3
  dsimp only at s5
  have hlt : concrete.cmp .ult (⟨.root r, N, (v + w) % 2 ^ N⟩ : BVal) (.vec (⟨.root r, N, v⟩ : BVal)) = .ok SO := by
    refine (v_ult (.root r) (.root r) N _ _).trans ?_
    congr 1
    have e : (v + w) % 2 ^ N = S.value := by
      have e : v + w = S.value + 2 ^ N * (if SO then 1 else 0) := by
        cases SO <;> simp at s5 ⊢ <;> omega
      rw [e, Int.add_mul_emod_self_left, Int.emod_eq_of_lt hS hS']
    rw [e, Bool.eq_iff_iff]
    cases SO <;> simp at s5 ⊢ <;> omega
  obtain ⟨t, t1, t2⟩ := RelP.ok_right (H.cmp .ult a2 (.vec hx)) hlt
  refine ⟨cz, t, ?_, ?_, SO, g2.2, t2⟩
  · rw [g1]; rfl
  · rw [a1]; exact t1

/-- The hypotheses are met by every canonical vector of a predefined class. -/
example : One .sint 4 ⟨.root .sint, 4, 13⟩ := ⟨⟨by decide, by decide⟩, rfl, rfl, by decide⟩

/-- The average of 13 and 6 is 9. -/
example : Except.toOption (α := BVal) (do
      let s ← BVal.bvxor ⟨.root .bv, 4, 13⟩ (.bv ⟨.root .bv, 4, 6⟩)
      let h ← s.bvlshr (.int 1)
      let c ← BVal.bvand ⟨.root .bv, 4, 13⟩ (.bv ⟨.root .bv, 4, 6⟩)
      c.bvadd (.bv h)) = some ⟨.root .bv, 4, 9⟩ := by decide +kernel

end HW
