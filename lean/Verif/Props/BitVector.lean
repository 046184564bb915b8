import Verif.Lemmas.Methods

/-!
# Properties C02 – C21: concrete bit vectors

`operand n o` (Spec/Vector.lean) is the number a right operand contributes; `wrap`, `ibit`,
`signed`, `ofBits`, `toBits` (Spec/Bits.lean) are plain arithmetic.
-/

namespace HW
open Spec

/-! ## C02 constructor -/

/-- **C02** `T[n](o)` is the denoted number mod `2^n`, of class `T[n]`; objects denoting no number
are rejected with `TypeError`. -/
theorem C02_construct (k : Kind) (n : Nat) (o : Obj) :
    mkBV k n o = match o.denotes with
      | some v => .ok ⟨k, n, wrap n v⟩
      | none => .error .typeError := mkBV_eq k n o

example : mkBV (.root .bv) 3 (.int (-1)) = .ok ⟨.root .bv, 3, 7⟩ := by decide
example : mkBV (.root .bv) 2 (.seq [true, false, true]) = .ok ⟨.root .bv, 2, 1⟩ := by decide

/-- **C02** bit `i` of a vector built from a sequence is the truth value of element `i`. -/
theorem C02_construct_seq_bit (k : Kind) (n : Nat) (l : List Bool) :
    ∃ x, mkBV k n (.seq l) = .ok x ∧ ∀ i, i < n → ibit x.value i = l[i]?.getD false := by
  refine ⟨_, by rw [C02_construct]; rfl, fun i hi => ?_⟩
  simp only [wrap, ibit_emod, hi, decide_true, Bool.true_and, ibit_ofBits]

/-! ## C03 two's complement -/

/-- **C03** `as_sint` is the signed reading; zero-width vectors raise `IndexError`. -/
theorem C03_as_sint {x : BVal} (h : x.WF) :
    x.asSint = if x.size = 0 then .error .indexError else .ok (signed x.size x.value) := asSint_eq h

/-- **C03** the signed reading is the *unique* number in the signed range congruent to the value. -/
theorem C03_unique {x : BVal} (h : x.WF) (hn : 0 < x.size) (s : Int) :
    x.asSint = .ok s ↔
      (-(2 ^ (x.size - 1)) ≤ s ∧ s < 2 ^ (x.size - 1) ∧ s % 2 ^ x.size = x.value) := by
  rw [C03_as_sint h, if_neg (by omega), Except.ok.injEq]
  have hb := signed_bounds hn h.1 h.2
  have hm := signed_mod x.size x.value
  rw [h.mod_eq] at hm
  constructor
  · rintro rfl; exact ⟨hb.1, hb.2, hm⟩
  · rintro ⟨h1, h2, h3⟩
    have hd : (2 : Int) ^ x.size ∣ signed x.size x.value - s :=
      Int.dvd_of_emod_eq_zero (Int.emod_eq_emod_iff_emod_sub_eq_zero.mp (by rw [h3, hm]))
    have hp : (2 : Int) ^ x.size = 2 * 2 ^ (x.size - 1) := by
      rw [← Int.pow_succ', Nat.sub_add_cancel (by omega : 1 ≤ x.size)]
    obtain ⟨c, hc⟩ := hd
    have hpos := two_pow_pos (x.size - 1)
    have : c = 0 := by
      by_contra hne
      rcases Int.lt_or_gt_of_ne hne with h4 | h4 <;> nlinarith
    subst this; omega

example : BVal.WF ⟨.root .sint, 8, 0xF0⟩ ∧ (⟨.root .sint, 8, 0xF0⟩ : BVal).asSint = .ok (-16) := by
  decide

/-- **C03** re-construction from either integer view gives the vector back. -/
theorem C03_reconstruct {x : BVal} (h : x.WF) :
    mkBV x.kind x.size (.int x.asUint) = .ok x ∧
    ∀ s, x.asSint = .ok s → mkBV x.kind x.size (.int s) = .ok x := by
  constructor
  · rw [mkBV_int, BVal.asUint, h.mod_eq]
  · intro s hs
    have hn : 0 < x.size := by
      rw [C03_as_sint h] at hs
      by_contra h0
      rw [if_pos (by omega)] at hs; cases hs
    have := ((C03_unique h hn s).mp hs).2.2
    rw [mkBV_int, this]

/-- **C03** `int(x)` is the signed value for `SIntVector`, the unsigned one for the other classes. -/
theorem C03_int (r : Root) (n : Nat) (v : Int) :
    (BVal.mk (.root r) n v).toInt =
      match r with
      | .sint => (BVal.mk (.root r) n v).asSint
      | .bv | .num | .uint => .ok v := by
  cases r <;> simp [BVal.toInt, Kind.base, BVal.asUint]

/-! ## C04 bit lists and strings -/

/-- **C04** `bits()` is the `n` low bits, least significant first, each 0 or 1. -/
theorem C04_bits (x : BVal) : x.bits = (toBits x.size x.value).map (fun b => if b then 1 else 0) :=
  bits_eq x

theorem C04_bits_length (x : BVal) : x.bits.length = x.size := by
  simp [C04_bits, length_toBits]

/-- **C04** `T(x.bits()) == x`. -/
theorem C04_bits_roundtrip {x : BVal} (h : x.WF) :
    mkBV x.kind x.size (.seq (x.bits.map truthy)) = .ok x := by
  rw [C02_construct]
  simp only [Obj.denotes, wrap]
  rw [bits_eq, map_truthy_b2i, ofBits_toBits, Int.emod_emod_of_dvd _ (dvd_refl _), h.mod_eq]

/-- **C04** `seq2int` and `int2seq` are mutually inverse on `n`-bit numbers / lists of length `n`. -/
theorem C04_seq2int_int2seq (n : Nat) (v : Int) (h0 : 0 ≤ v) (h1 : v < 2 ^ n) :
    seq2int ((int2seq v n).map truthy) = v := by
  rw [int2seq_eq, map_truthy_b2i, seq2int_eq, ofBits_toBits, Int.emod_eq_of_lt h0 h1]

theorem C04_int2seq_seq2int (l : List Bool) :
    (int2seq (seq2int l) l.length).map truthy = l := by
  rw [int2seq_eq, map_truthy_b2i, seq2int_eq, toBits_ofBits]

theorem parseBin_digits (l : List Bool) (acc : Int) :
    parseBin acc (l.map fun b => if b then '1' else '0') =
      some (acc * 2 ^ l.length + ofBits l.reverse) := by
  induction l generalizing acc with
  | nil => simp [parseBin, ofBits]
  | cons b l ih =>
    simp only [List.map_cons, List.reverse_cons, ofBits_append, List.length_cons, List.length_reverse]
    cases b <;> simp [parseBin, ih, ofBits, Int.pow_succ] <;> ring

theorem binaryString_eq (x : BVal) :
    x.binaryString = (toBits x.size x.value).reverse.map fun b => if b then '1' else '0' := by
  unfold BVal.binaryString
  rw [bits_eq, ← List.map_reverse, List.map_map]
  generalize (toBits x.size x.value).reverse = l
  induction l with
  | nil => rfl
  | cons b l ih =>
    simp only [List.map_cons, List.flatten_cons, ih, Function.comp]
    cases b
    · rfl
    · rfl

/-- **C04** `binary_string()` has `n` digits and reads back, in base 2, as the unsigned value. -/
theorem C04_binary_string {x : BVal} (h : x.WF) :
    x.binaryString.length = x.size ∧ parseBin 0 x.binaryString = some x.asUint := by
  rw [binaryString_eq]
  refine ⟨by simp [length_toBits], ?_⟩
  rw [parseBin_digits, List.reverse_reverse, ofBits_toBits, h.mod_eq]
  simp [BVal.asUint]

example : (⟨.root .bv, 4, 10⟩ : BVal).binaryString = "1010".toList := by decide

/-- **C04** `as_binary_string()` is `0b` followed by those digits. -/
theorem C04_as_binary_string {x : BVal} (h : x.WF) : ∃ d, x.asBinaryString = '0' :: 'b' :: d ∧ d.length = x.size ∧
    parseBin 0 d = some x.value := ⟨_, rfl, (C04_binary_string h).1, (C04_binary_string h).2⟩

/-- **C04** `as_bool_list()` has one bool per bit, the least significant first, and `T(x.as_bool_list()) == x`. -/
theorem C04_as_bool_list {x : BVal} (h : x.WF) : x.asBoolList.length = x.size ∧
    (∀ j, j < x.size → x.asBoolList[j]? = some (decide (x.value / 2 ^ j % 2 = 1))) ∧
    mkBV x.kind x.size (.seq x.asBoolList) = .ok x := by
  have hl : x.asBoolList = toBits x.size x.value := by rw [BVal.asBoolList, bits_eq, map_truthy_b2i]
  refine ⟨by rw [hl, length_toBits], fun j hj => ?_, C04_bits_roundtrip h⟩
  rw [hl, getElem?_toBits, if_pos hj]
  rfl

example : (⟨.root .bv, 4, 11⟩ : BVal).asBoolList = [true, true, false, true] := by decide
example : (⟨.root .bv, 4, 10⟩ : BVal).asBinaryString = ['0', 'b', '1', '0', '1', '0'] := by decide

/-! ## C05 modular arithmetic -/

theorem C05_bvadd (x : BVal) (o : Obj) :
    x.bvadd o = (operand x.size o).map fun b => ⟨x.kind, x.size, wrap x.size (x.value + b)⟩ := by
  rw [← bind_ok_map]
  exact cast_eq' _ fun y _ => by simp [BVal.asUint, wrap]

theorem C05_bvsub (x : BVal) (o : Obj) :
    x.bvsub o = (operand x.size o).map fun b => ⟨x.kind, x.size, wrap x.size (x.value - b)⟩ := by
  rw [← bind_ok_map]
  exact cast_eq' _ fun y _ => by simp [BVal.asUint, wrap]

theorem C05_bvmul (x : BVal) (o : Obj) :
    x.bvmul o = (operand x.size o).map fun b => ⟨x.kind, x.size, wrap x.size (x.value * b)⟩ := by
  rw [← bind_ok_map]
  exact cast_eq' _ fun y _ => by simp [BVal.asUint, wrap]

theorem C05_bvneg (x : BVal) : x.bvneg = .ok ⟨x.kind, x.size, wrap x.size (-x.value)⟩ := by
  simp [BVal.bvneg, pyNot, BVal.asUint, wrap]

/-- **C05** commutative-ring laws, as equations between programs on vectors of one type. -/
theorem C05_ring {k : Kind} {n : Nat} {a b c : Int} (ha : BVal.WF ⟨k, n, a⟩) :
    let x : BVal := ⟨k, n, a⟩
    let y : BVal := ⟨k, n, b⟩
    let z : BVal := ⟨k, n, c⟩
    x.bvadd (.bv y) = y.bvadd (.bv x) ∧
    x.bvmul (.bv y) = y.bvmul (.bv x) ∧
    (do (← x.bvadd (.bv y)).bvadd (.bv z)) = (do x.bvadd (.bv (← y.bvadd (.bv z)))) ∧
    (do (← x.bvmul (.bv y)).bvmul (.bv z)) = (do x.bvmul (.bv (← y.bvmul (.bv z)))) ∧
    (do x.bvmul (.bv (← y.bvadd (.bv z)))) =
      (do (← x.bvmul (.bv y)).bvadd (.bv (← x.bvmul (.bv z)))) ∧
    x.bvadd (.int 0) = .ok x ∧ x.bvmul (.int 1) = .ok x ∧
    (do x.bvadd (.bv (← x.bvneg))) = .ok ⟨k, n, 0⟩ ∧
    x.bvsub (.bv y) = (do x.bvadd (.bv (← y.bvneg))) := by
  have hm := ha.mod_eq
  dsimp only at hm ⊢
  simp only [C05_bvadd, C05_bvmul, C05_bvneg, C05_bvsub, operand, if_true, Except.map, bind, Except.bind,
    Obj.denotes, wrap, Except.ok.injEq, BVal.mk.injEq, true_and]
  refine ⟨by rw [Int.add_comm], by rw [Int.mul_comm], ?_, ?_, ?_, ?_, ?_, ?_, ?_⟩
  · simp [Int.add_assoc]
  · rw [Int.mul_emod (a * b % 2 ^ n), Int.emod_emod, ← Int.mul_emod, Int.mul_emod a (b * c % 2 ^ n),
      Int.emod_emod, ← Int.mul_emod, Int.mul_assoc]
  · have e : a * (b + c) = a * b + a * c := Int.mul_add _ _ _
    rw [Int.mul_emod, Int.emod_emod, ← Int.mul_emod, e]; simp
  · simp [hm]
  · by_cases h : n = 0
    · subst h; simp at hm ⊢; omega
    · have : (1 : Int) % 2 ^ n = 1 := by
        apply Int.emod_eq_of_lt (by decide)
        have : (2 : Int) ^ 1 ≤ 2 ^ n := by
          apply pow_le_pow_right₀ (by decide); omega
        simp only [pow_one] at this; omega
      rw [this, Int.mul_one, hm]
  · simp
  · rw [Int.add_emod_emod]; rw [Int.sub_eq_add_neg]

/-- **C05** the signed reading gives the same result bits. -/
theorem C05_signed (x y : BVal) (hs : y.size = x.size) :
    x.bvadd (.bv y) = .ok ⟨x.kind, x.size, wrap x.size (signed x.size x.value + signed x.size y.value)⟩ ∧
    x.bvsub (.bv y) = .ok ⟨x.kind, x.size, wrap x.size (signed x.size x.value - signed x.size y.value)⟩ ∧
    x.bvmul (.bv y) = .ok ⟨x.kind, x.size, wrap x.size (signed x.size x.value * signed x.size y.value)⟩ ∧
    x.bvneg = .ok ⟨x.kind, x.size, wrap x.size (-signed x.size x.value)⟩ := by
  have h1 := signed_mod x.size x.value
  have h2 := signed_mod x.size y.value
  simp only [C05_bvadd, C05_bvmul, C05_bvneg, C05_bvsub, operand, hs, if_true, Except.map, wrap,
    Except.ok.injEq, BVal.mk.injEq, true_and]
  refine ⟨?_, ?_, ?_, ?_⟩
  · rw [Int.add_emod, ← h1, ← h2, ← Int.add_emod]
  · rw [Int.sub_emod, ← h1, ← h2, ← Int.sub_emod]
  · rw [Int.mul_emod, ← h1, ← h2, ← Int.mul_emod]
  · have e (v : Int) : -v = 0 - v := by omega
    rw [e, e, Int.sub_emod, ← h1, ← Int.sub_emod]

example : (⟨.root .bv, 8, 200⟩ : BVal).bvadd (.int 100) = .ok ⟨.root .bv, 8, 44⟩ := by decide

/-! ## C06 bitwise operations -/

/-- Statement of "bit `i` of the result is `f` of bit `i` of the operands, for every `i < n`, and
the result is a canonical vector of the same class". -/
def Pointwise2 (m : BVal → Obj → PyM BVal) (f : Bool → Bool → Bool) : Prop :=
  ∀ (x : BVal) (o : Obj), match operand x.size o with
    | .error e => m x o = .error e
    | .ok b => ∃ r, m x o = .ok r ∧ r.kind = x.kind ∧ r.size = x.size ∧ r.WF ∧
        ∀ i, i < x.size → ibit r.value i = f (ibit x.value i) (ibit b i)

theorem pointwise2_of {g : Int → Int → Int} {f : Bool → Bool → Bool} {m : BVal → Obj → PyM BVal}
    (hm : ∀ x o, m x o = x.cast o fun y => x.mk' (g x.asUint y.asUint))
    (hg : ∀ a b i, ibit (g a b) i = f (ibit a i) (ibit b i)) : Pointwise2 m f := by
  intro x o
  rw [hm, cast_eq' (fun b => .ok ⟨x.kind, x.size, g x.value b % 2 ^ x.size⟩)
    (fun y _ => by simp [BVal.asUint])]
  cases operand x.size o with
  | error e => rfl
  | ok b =>
    refine ⟨_, rfl, rfl, rfl, mod_WF _ _ _, fun i hi => ?_⟩
    rw [ibit_emod, hg]; simp [hi]

theorem C06_bvnot (x : BVal) :
    ∃ r, x.bvnot = .ok r ∧ r.kind = x.kind ∧ r.size = x.size ∧ r.WF ∧
      ∀ i, i < x.size → ibit r.value i = !ibit x.value i := by
  refine ⟨_, mk'_eq _ _, rfl, rfl, mod_WF _ _ _, fun i hi => ?_⟩
  rw [ibit_emod, ibit_pyNot]; simp [hi, BVal.asUint]

theorem C06_bvand : Pointwise2 BVal.bvand (· && ·) := pointwise2_of (fun _ _ => rfl) ibit_pyAnd
theorem C06_bvor : Pointwise2 BVal.bvor (· || ·) := pointwise2_of (fun _ _ => rfl) ibit_pyOr
theorem C06_bvxor : Pointwise2 BVal.bvxor (fun a b => a ^^ b) :=
  pointwise2_of (fun _ _ => rfl) ibit_pyXor

theorem pointwise2_not {m : BVal → Obj → PyM BVal} {f : Bool → Bool → Bool} (h : Pointwise2 m f) :
    Pointwise2 (fun x o => do (← m x o).bvnot) (fun a b => !f a b) := by
  intro x o
  have := h x o
  cases hop : operand x.size o with
  | error e => rw [hop] at this; simp only at this ⊢; simp [this, bind, Except.bind]
  | ok b =>
    rw [hop] at this
    obtain ⟨r, h1, h2, h3, h4, h5⟩ := this
    obtain ⟨r', g1, g2, g3, g4, g5⟩ := C06_bvnot r
    refine ⟨r', by simp [h1, bind, Except.bind, g1], by rw [g2, h2], by rw [g3, h3], g4, ?_⟩
    intro i hi
    rw [g5 i (by omega), h5 i hi]

theorem C06_bvnand : Pointwise2 BVal.bvnand (fun a b => !(a && b)) := pointwise2_not C06_bvand
theorem C06_bvnor : Pointwise2 BVal.bvnor (fun a b => !(a || b)) := pointwise2_not C06_bvor
theorem C06_bvxnor : Pointwise2 BVal.bvxnor (fun a b => a == b) := by
  have := pointwise2_not C06_bvxor
  have e : (fun a b : Bool => !(a ^^ b)) = (fun a b => a == b) := by
    funext a b; cases a <;> cases b <;> rfl
  rw [e] at this; exact this

example : (⟨.root .bv, 4, 12⟩ : BVal).bvnand (.bv ⟨.root .bv, 4, 10⟩) = .ok ⟨.root .bv, 4, 7⟩ := by
  decide

/-- A canonical vector is determined by its bits, so the laws above determine the results. -/
theorem C06_bits_determine {x y : BVal} (hx : x.WF) (hy : y.WF) (hk : x.kind = y.kind)
    (hs : x.size = y.size) (h : ∀ i, i < x.size → ibit x.value i = ibit y.value i) : x = y := by
  have : x.value = y.value := by
    apply ibit_ext; intro i
    by_cases hi : i < x.size
    · exact h i hi
    · rw [ibit_lt hx.1 hx.2 (by omega), ibit_lt hy.1 hy.2 (by omega)]
  cases x; cases y; simp_all

end HW
