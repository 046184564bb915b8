import Verif.Props.BitVector

/-!
# Properties C07, C08: shifts and rotations
-/

namespace HW
open Spec

/-! ## C07 shifts -/

/-- **C07** `bvshl` multiplies by `2^k` modulo `2^n`, for every amount. -/
theorem C07_bvshl (x : BVal) {o : Obj} (ho : o.WF) :
    x.bvshl o = (operand x.size o).map fun k =>
      ⟨x.kind, x.size, wrap x.size (x.value * 2 ^ k.toNat)⟩ := by
  rw [← bind_ok_map]
  exact cast_eq _ ho fun y hy _ => by
    have h0 : ¬ y.value < 0 := Int.not_lt.mpr hy.1
    simp only [pyShl, BVal.asUint, h0, if_false, bind, Except.bind, mk'_eq, wrap]

/-- **C07** `bvlshr` is floor division of the unsigned value by `2^k`. -/
theorem C07_bvlshr {x : BVal} (hx : x.WF) {o : Obj} (ho : o.WF) :
    x.bvlshr o = (operand x.size o).map fun k => ⟨x.kind, x.size, x.value / 2 ^ k.toNat⟩ := by
  rw [← bind_ok_map]
  refine cast_eq _ ho fun y hy _ => ?_
  simp only [pyShr, BVal.asUint, if_neg (Int.not_lt.mpr hy.1), bind, Except.bind, mk'_eq,
    fdiv_two_pow]
  have hp := two_pow_pos y.value.toNat
  rw [Int.emod_eq_of_lt (Int.ediv_nonneg hx.1 (by omega))]
  exact Int.lt_of_le_of_lt (Int.ediv_le_self _ hx.1) hx.2

/-- **C07** `bvashr` is floor division of the signed value by `2^k` (a zero-width vector has no sign
and raises `IndexError`). -/
theorem C07_bvashr {x : BVal} (hx : x.WF) {o : Obj} (ho : o.WF) :
    x.bvashr o = (operand x.size o).bind fun k =>
      if x.size = 0 then .error .indexError
      else .ok ⟨x.kind, x.size, wrap x.size (signed x.size x.value / 2 ^ k.toNat)⟩ := by
  refine cast_eq _ ho fun y hy _ => ?_
  rw [asSint_eq hx]
  by_cases hn : x.size = 0
  · simp [hn, bind, Except.bind]
  · simp only [hn, if_false, pyShr, BVal.asUint, if_neg (Int.not_lt.mpr hy.1), bind, Except.bind,
      mk'_eq, fdiv_two_pow, wrap]

/-- Arithmetic behind C07 for amounts at least the width. -/
theorem C07_overshift_num {n : Nat} {v : Int} (h0 : 0 ≤ v) (h1 : v < 2 ^ n) {k : Nat} (hk : n ≤ k) :
    wrap n (v * 2 ^ k) = 0 ∧ v / 2 ^ k = 0 ∧
    (0 < n → signed n v / 2 ^ k = if signed n v < 0 then -1 else 0) := by
  have hp : (2 : Int) ^ n ≤ 2 ^ k := by exact_mod_cast Nat.pow_le_pow_right (by omega) hk
  have hpn := two_pow_pos n
  refine ⟨?_, Int.ediv_eq_zero_of_lt h0 (by omega), fun hn => ?_⟩
  · obtain ⟨j, rfl⟩ : ∃ j, k = n + j := ⟨k - n, by omega⟩
    rw [wrap, Int.pow_add, ← Int.mul_assoc, Int.mul_right_comm, Int.mul_emod_left]
  · have hb := signed_bounds hn h0 h1
    have hh : (2 : Int) ^ (n - 1) ≤ 2 ^ n := by
      exact_mod_cast Nat.pow_le_pow_right (by omega) (by omega)
    split
    · rw [Int.ediv_eq_iff_of_pos (by omega)]; omega
    · rw [Int.ediv_eq_zero_of_lt (by omega) (by omega)]

/-- **C07** shifting by at least the width: 0, 0, and the sign fill. -/
theorem C07_overshift {x y : BVal} (hx : x.WF) (hy : y.WF) (hs : y.size = x.size)
    (hk : x.size ≤ y.value) :
    x.bvshl (.bv y) = .ok ⟨x.kind, x.size, 0⟩ ∧
    x.bvlshr (.bv y) = .ok ⟨x.kind, x.size, 0⟩ ∧
    (0 < x.size → x.bvashr (.bv y) =
      .ok ⟨x.kind, x.size, if signed x.size x.value < 0 then 2 ^ x.size - 1 else 0⟩) := by
  have ho : Obj.WF (.bv y) := hy
  have h := C07_overshift_num hx.1 hx.2 (k := y.value.toNat) (by omega)
  have hop : operand x.size (.bv y) = .ok y.value := by simp [operand, hs]
  refine ⟨?_, ?_, fun hn => ?_⟩
  · rw [C07_bvshl x ho, hop, Except.map, h.1]
  · rw [C07_bvlshr hx ho, hop, Except.map, h.2.1]
  · rw [C07_bvashr hx ho, hop, Except.bind, if_neg (by omega), h.2.2 hn]
    have h1 : (1 : Int) < 2 ^ x.size := by
      obtain ⟨j, hj⟩ : ∃ j, x.size = j + 1 := ⟨x.size - 1, by omega⟩
      have := two_pow_pos j
      rw [hj, Int.pow_succ]; omega
    split
    · rw [wrap, ← Int.add_emod_right, Int.emod_eq_of_lt (by omega) (by omega)]
      simp; omega
    · simp [wrap]

example : (⟨.root .bv, 4, 9⟩ : BVal).bvashr (.bv ⟨.root .bv, 4, 12⟩) = .ok ⟨.root .bv, 4, 15⟩ := by
  decide

/-- **C07, int amounts (partial).**  Full claim: `x.bvshl(k)` for a Python int `k ≥ 0` shifts by `k`.
Proved for `k < 2^n`; `C07_int_amount_refuted` shows it is false beyond. -/
theorem C07_int_amount_partial (x : BVal) (hx : x.WF) (k : Nat) (hk : (k : Int) < 2 ^ x.size) :
    x.bvshl (.int k) = .ok ⟨x.kind, x.size, wrap x.size (x.value * 2 ^ k)⟩ ∧
    x.bvlshr (.int k) = .ok ⟨x.kind, x.size, x.value / 2 ^ k⟩ ∧
    (0 < x.size →
      x.bvashr (.int k) = .ok ⟨x.kind, x.size, wrap x.size (signed x.size x.value / 2 ^ k)⟩) := by
  have hop : operand x.size (.int k) = .ok (k : Int) := by
    simp only [operand, Obj.denotes, wrap]
    rw [Int.emod_eq_of_lt (by omega) hk]
  refine ⟨?_, ?_, fun hn => ?_⟩
  · rw [C07_bvshl x (o := .int k) trivial, hop]; rfl
  · rw [C07_bvlshr hx (o := .int k) trivial, hop]; rfl
  · rw [C07_bvashr hx (o := .int k) trivial, hop, Except.bind, if_neg (by omega)]; rfl

example : BVal.WF ⟨.root .bv, 8, 3⟩ ∧ ((200 : Nat) : Int) < 2 ^ 8 := by decide

/-- **C07, int amounts, refuted**: `BitVector[3](1) << 8` is `1`, not `0`: the amount itself is
reduced mod `2^n` before shifting. -/
theorem C07_int_amount_refuted :
    ¬ ∀ (x : BVal) (k : Nat), x.WF →
      x.bvshl (.int k) = .ok ⟨x.kind, x.size, wrap x.size (x.value * 2 ^ k)⟩ := by
  intro h
  have := h ⟨.root .bv, 3, 1⟩ 8 (by decide)
  exact absurd this (by decide)

/-! ## C08 rotations -/

theorem rotate_lists {k : Kind} {n : Nat} (l : List Bool) (hl : l.length = n) (m : Nat) (hm : m ≤ n) :
    (BVal.mk k (l.drop m).length (ofBits (l.drop m))).concat
        ⟨k, (l.take m).length, ofBits (l.take m)⟩
      = .ok ⟨k, n, ofBits (l.drop m ++ l.take m)⟩ := by
  have w (l : List Bool) : BVal.WF ⟨k, l.length, ofBits l⟩ := ofBits_bounds l
  rw [concat_eq (w _) (w _), if_pos (Kind.isSub_refl _), ofBits_append]
  congr 2
  simp; omega

theorem getSlice_from (x : BVal) (m : Nat) :
    x.getSlice ⟨some m, none, none⟩ =
      .ok ⟨x.kind, ((toBits x.size x.value).drop m).length, ofBits ((toBits x.size x.value).drop m)⟩ := by
  rw [getSlice_eq, pySliceList_step1]
  have : slicePos (toBits x.size x.value).length (m : Int) = m := by simp [slicePos]
  simp only [Option.map_none, Option.getD_none, Option.map_some, Option.getD_some, this,
    List.take_length, Except.map]

theorem getSlice_upto (x : BVal) (m : Nat) :
    x.getSlice ⟨none, some m, none⟩ =
      .ok ⟨x.kind, ((toBits x.size x.value).take m).length, ofBits ((toBits x.size x.value).take m)⟩ := by
  rw [getSlice_eq, pySliceList_step1]
  have : slicePos (toBits x.size x.value).length (m : Int) = m := by simp [slicePos]
  simp only [Option.map_none, Option.getD_none, Option.map_some, Option.getD_some, this,
    List.drop_zero, Except.map]

theorem rotate_core (x : BVal) (m : Nat) (hm : m ≤ x.size) :
    (do (← x.getSlice ⟨some (m : Int), none, none⟩).concat
          (← x.getSlice ⟨none, some (m : Int), none⟩) : PyM BVal) =
      .ok ⟨x.kind, x.size, ofBits ((toBits x.size x.value).drop m ++ (toBits x.size x.value).take m)⟩ := by
  rw [getSlice_from, getSlice_upto]
  simp only [bind, Except.bind]
  exact rotate_lists _ (length_toBits _ _) _ hm

theorem rotate_bit (n : Nat) (v : Int) (m i : Nat) (hm : m ≤ n) (hi : i < n) :
    ibit (ofBits ((toBits n v).drop m ++ (toBits n v).take m)) i = ibit v ((i + m) % n) := by
  rw [ibit_ofBits, List.getElem?_append, List.length_drop, length_toBits]
  split
  · rw [List.getElem?_drop, getElem?_toBits, if_pos (by omega)]
    simp only [Option.getD_some]
    rw [Nat.mod_eq_of_lt (by omega), Nat.add_comm]
  · rw [List.getElem?_take, if_pos (by omega), getElem?_toBits, if_pos (by omega)]
    simp only [Option.getD_some]
    congr 1
    rw [Nat.mod_eq_sub_mod (by omega), Nat.mod_eq_of_lt (by omega)]
    omega

/-- Statement of a rotation law: for a canonical amount `k` the result has the class of `x`, is
canonical, and its bit `i` is bit `src i k` of `x`. -/
def RotatesBy (x : BVal) (r : PyM BVal) (src : Nat → Nat) : Prop :=
  ∃ y, r = .ok y ∧ y.kind = x.kind ∧ y.size = x.size ∧ y.WF ∧
    ∀ i, i < x.size → ibit y.value i = ibit x.value (src i)

theorem rotate_WF {k : Kind} {n m : Nat} {v : Int} (hm : m ≤ n) :
    BVal.WF ⟨k, n, ofBits ((toBits n v).drop m ++ (toBits n v).take m)⟩ := by
  have := ofBits_bounds ((toBits n v).drop m ++ (toBits n v).take m)
  have e : ((toBits n v).drop m ++ (toBits n v).take m).length = n := by
    simp [length_toBits]; omega
  rw [e] at this
  exact this

/-- **C08** `x.bvror(k)`: bit `i` of the result is bit `(i + k) mod n` of `x`. -/
theorem C08_bvror (x : BVal) (hn : 0 < x.size) {o : Obj} (ho : o.WF) {k : Int}
    (hk : operand x.size o = .ok k) :
    RotatesBy x (x.bvror o) (fun i => (i + k.toNat) % x.size) := by
  have hb := operand_bounds ho hk
  have hm : k.toNat % x.size < x.size := Nat.mod_lt _ hn
  have e : x.bvror o = .ok ⟨x.kind, x.size, ofBits ((toBits x.size x.value).drop (k.toNat % x.size)
      ++ (toBits x.size x.value).take (k.toNat % x.size))⟩ := by
    have e1 : x.bvror o = _ := cast_eq (x := x) (fun v => do
      let k ← pyMod v x.size
      (← x.getSlice ⟨some k, none, none⟩).concat (← x.getSlice ⟨none, some k, none⟩)) ho
      (fun y _ _ => rfl)
    rw [e1, hk]
    have e2 : pyMod k x.size = .ok ((k.toNat % x.size : Nat) : Int) := by
      unfold pyMod
      rw [if_neg (by omega), Int.fmod_eq_emod_of_nonneg _ (by omega)]
      congr 1
      push_cast
      rw [Int.toNat_of_nonneg hb.1]
    simp only [Except.bind, e2, bind]
    exact rotate_core x _ (by omega)
  refine ⟨_, e, rfl, rfl, rotate_WF (by omega), fun i hi => ?_⟩
  rw [rotate_bit _ _ _ _ (by omega) hi, Nat.add_mod_mod]

/-- **C08** `x.bvrol(k)`: bit `(i + k) mod n` of the result is bit `i` of `x`. -/
theorem C08_bvrol (x : BVal) (hn : 0 < x.size) {o : Obj} (ho : o.WF) {k : Int}
    (hk : operand x.size o = .ok k) :
    ∃ y, x.bvrol o = .ok y ∧ y.kind = x.kind ∧ y.size = x.size ∧ y.WF ∧
      ∀ i, i < x.size → ibit y.value ((i + k.toNat) % x.size) = ibit x.value i := by
  have hb := operand_bounds ho hk
  let m : Nat := (((x.size : Int) - k) % x.size).toNat
  have hm0 : 0 ≤ ((x.size : Int) - k) % x.size := Int.emod_nonneg _ (by omega)
  have hm1 : ((x.size : Int) - k) % x.size < x.size := Int.emod_lt_of_pos _ (by omega)
  have hm : m < x.size := by omega
  have e : x.bvrol o = .ok ⟨x.kind, x.size, ofBits ((toBits x.size x.value).drop m
      ++ (toBits x.size x.value).take m)⟩ := by
    have e1 : x.bvrol o = _ := cast_eq (x := x) (fun v => do
      let k ← pyMod (x.size - v) x.size
      (← x.getSlice ⟨some k, none, none⟩).concat (← x.getSlice ⟨none, some k, none⟩)) ho
      (fun y _ _ => rfl)
    rw [e1, hk]
    have e2 : pyMod (x.size - k) x.size = .ok (m : Int) := by
      unfold pyMod
      rw [if_neg (by omega), Int.fmod_eq_emod_of_nonneg _ (by omega)]
      congr 1
      omega
    simp only [Except.bind, e2, bind]
    exact rotate_core x _ (by omega)
  refine ⟨_, e, rfl, rfl, rotate_WF (by omega), fun i hi => ?_⟩
  rw [rotate_bit _ _ _ _ (by omega) (Nat.mod_lt _ hn), Nat.mod_add_mod]
  congr 1
  -- (i + k + m) % n = i, because k + m ≡ 0 (mod n)
  have hd : (x.size : Int) ∣ k + m := by
    have hme : (m : Int) = ((x.size : Int) - k) % x.size := by omega
    rw [hme]
    apply Int.dvd_of_emod_eq_zero
    rw [Int.add_emod_emod]
    simp
  obtain ⟨c, hc⟩ := hd
  have hc0 : 0 ≤ c := by
    by_contra hneg
    have : (x.size : Int) * c < 0 := by nlinarith
    omega
  have hn' : k.toNat + m = x.size * c.toNat := by
    zify
    rw [Int.toNat_of_nonneg hc0, Int.toNat_of_nonneg hb.1, hc]
  rw [Nat.add_assoc, hn', Nat.add_mul_mod_self_left, Nat.mod_eq_of_lt hi]

/-- **C08** rotating left then right (and right then left) by the same vector amount is the
identity. -/
theorem C08_inverse {x y : BVal} (hx : x.WF) (hy : y.WF) (hn : 0 < x.size) (hs : y.size = x.size) :
    (do (← x.bvrol (.bv y)).bvror (.bv y) : PyM BVal) = .ok x ∧
    (do (← x.bvror (.bv y)).bvrol (.bv y) : PyM BVal) = .ok x := by
  have hk : operand x.size (.bv y) = .ok y.value := by simp [operand, hs]
  constructor
  · obtain ⟨a, h1, h2, h3, h4, h5⟩ := C08_bvrol x hn (o := .bv y) hy hk
    obtain ⟨b, g1, g2, g3, g4, g5⟩ := C08_bvror a (by omega) (o := .bv y) hy (by rw [h3]; exact hk)
    simp only [bind, Except.bind, h1, g1, Except.ok.injEq]
    refine C06_bits_determine g4 hx (by rw [g2, h2]) (by omega) fun i hi => ?_
    rw [g5 i (by omega), h3]
    exact h5 i (by omega)
  · obtain ⟨a, h1, h2, h3, h4, h5⟩ := C08_bvror x hn (o := .bv y) hy hk
    obtain ⟨b, g1, g2, g3, g4, g5⟩ := C08_bvrol a (by omega) (o := .bv y) hy (by rw [h3]; exact hk)
    simp only [bind, Except.bind, h1, g1, Except.ok.injEq]
    refine C06_bits_determine g4 hx (by rw [g2, h2]) (by omega) fun i hi => ?_
    -- choose the preimage of i
    obtain ⟨j, hj, hji⟩ : ∃ j, j < x.size ∧ (j + y.value.toNat) % x.size = i := by
      refine ⟨(i + (x.size - y.value.toNat % x.size)) % x.size, Nat.mod_lt _ hn, ?_⟩
      have hlt := Nat.mod_lt y.value.toNat hn
      rw [Nat.mod_add_mod, Nat.add_assoc, Nat.add_mod]
      have : (x.size - y.value.toNat % x.size + y.value.toNat) % x.size = 0 := by
        rw [← Nat.add_mod_mod, Nat.sub_add_cancel (by omega), Nat.mod_self]
      rw [this, Nat.add_zero, Nat.mod_mod, Nat.mod_eq_of_lt (by omega)]
    have := g5 j (by omega)
    rw [h3, hji] at this
    rw [this, h5 j hj]
    simp only [hji]

example : (⟨.root .uint, 5, 19⟩ : BVal).bvrol (.int 2) = .ok ⟨.root .uint, 5, 14⟩ := by decide

/-- **C08, zero width**: the code raises `ZeroDivisionError`. -/
theorem C08_zero_width (x : BVal) (hn : x.size = 0) {o : Obj} {k : Int}
    (hk : operand x.size o = .ok k) :
    x.bvrol o = .error .zeroDivisionError ∧ x.bvror o = .error .zeroDivisionError := by
  constructor
  · unfold BVal.bvrol
    rw [cast_eq' (fun v => .error .zeroDivisionError) (fun y _ => by
      simp [pyMod, hn, bind, Except.bind]), hk]; rfl
  · unfold BVal.bvror
    rw [cast_eq' (fun v => .error .zeroDivisionError) (fun y _ => by
      simp [pyMod, hn, bind, Except.bind]), hk]; rfl

/-- **C08, int amounts (partial)**: as for shifts, a Python int amount is first reduced mod `2^n`;
below `2^n` rotation by `k` is right for every `k`. -/
theorem C08_int_amount_partial (x : BVal) (hn : 0 < x.size) (k : Nat) (hk : (k : Int) < 2 ^ x.size) :
    RotatesBy x (x.bvror (.int k)) (fun i => (i + k) % x.size) := by
  have hop : operand x.size (.int k) = .ok (k : Int) := by
    simp only [operand, Obj.denotes, wrap]
    rw [Int.emod_eq_of_lt (by omega) hk]
  simpa using C08_bvror x hn (o := .int k) trivial hop

/-- **C08, int amounts, refuted**: at width 3, rotating by the int `8` (= 2 mod 3) does nothing. -/
theorem C08_int_amount_refuted :
    ¬ ∀ (x : BVal) (k : Nat), x.WF → 0 < x.size →
      RotatesBy x (x.bvror (.int k)) (fun i => (i + k) % x.size) := by
  intro h
  obtain ⟨y, h1, -, -, -, h5⟩ := h ⟨.root .bv, 3, 1⟩ 8 (by decide) (by decide)
  have e : (⟨.root .bv, 3, 1⟩ : BVal).bvror (.int (8 : Nat)) = .ok ⟨.root .bv, 3, 1⟩ := by decide
  rw [e] at h1
  injection h1 with h1
  subst h1
  exact absurd (h5 0 (by decide)) (by decide)

end HW
