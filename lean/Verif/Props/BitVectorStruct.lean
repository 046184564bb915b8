import Verif.Props.BitVectorArith
import Mathlib.Tactic.LinearCombination

/-!
# Properties C14 – C21: concatenation, indexing, assignment, extension, carry, overflow
-/

namespace HW
open Spec

/-! ## C14 concatenation -/

/-- **C14** `a.concat(b)`: low part `a`, high part `b`.  The class check of the code
(`isinstance(b, type(a).unsized_t)`) is part of the statement. -/
theorem C14_concat {x y : BVal} (hx : x.WF) (hy : y.WF) :
    x.concat y = if y.kind.isSub x.kind then
        .ok ⟨x.kind, x.size + y.size, x.value + y.value * 2 ^ x.size⟩
      else .error .typeError := concat_eq hx hy

/-- **C14** the bit list of a concatenation is the concatenation of the bit lists. -/
theorem C14_bits {x y z : BVal} (hx : x.WF) (hy : y.WF) (h : x.concat y = .ok z) :
    z.bits = x.bits ++ y.bits := by
  rw [C14_concat hx hy] at h
  split at h
  · injection h with h
    subst h
    simp only [bits_eq, ← List.map_append]
    congr 1
    apply List.ext_getElem?
    intro i
    rw [getElem?_toBits, List.getElem?_append, length_toBits, getElem?_toBits, getElem?_toBits,
      ibit_add_mul hx.1 hx.2]
    repeat' split
    all_goals first | rfl | omega
  · cases h

/-- **C14** slicing recovers both parts: `z[:|x|] == x` and `z[|x|:] == y` (as values; both slices
have the class of `x`). -/
theorem C14_split {x y z : BVal} (hx : x.WF) (hy : y.WF) (h : x.concat y = .ok z) :
    z.getSlice ⟨none, some x.size, none⟩ = .ok x ∧
    z.getSlice ⟨some x.size, none, none⟩ = .ok { y with kind := x.kind } := by
  have hb := C14_bits hx hy h
  have hz : z.kind = x.kind ∧ z.size = x.size + y.size := by
    rw [C14_concat hx hy] at h
    split at h
    · injection h with h; subst h; exact ⟨rfl, rfl⟩
    · cases h
  have hb' : toBits z.size z.value = toBits x.size x.value ++ toBits y.size y.value := by
    have := congrArg (List.map truthy) hb
    rwa [bits_eq, bits_eq, bits_eq, ← List.map_append, map_truthy_b2i, map_truthy_b2i] at this
  have lx := length_toBits x.size x.value
  have ly := length_toBits y.size y.value
  rw [getSlice_upto, getSlice_from, hb', List.take_left' lx, List.drop_left' lx, ofBits_toBits,
    ofBits_toBits, hx.mod_eq, hy.mod_eq, lx, ly, hz.1]
  exact ⟨rfl, rfl⟩

/-- **C14** associativity (of one class). -/
theorem C14_assoc {x y z : BVal} (hx : x.WF) (hy : y.WF) (hz : z.WF)
    (h1 : y.kind = x.kind) (h2 : z.kind = x.kind) :
    (do (← x.concat y).concat z : PyM BVal) = (do x.concat (← y.concat z) : PyM BVal) := by
  have e1 : y.kind.isSub x.kind = true := by rw [h1]; exact Kind.isSub_refl _
  have e2 : z.kind.isSub x.kind = true := by rw [h2]; exact Kind.isSub_refl _
  have e3 : z.kind.isSub y.kind = true := by rw [h1, h2]; exact Kind.isSub_refl _
  have hpx := two_pow_pos x.size
  have hpy := two_pow_pos y.size
  obtain ⟨hx1, hx2⟩ := hx
  obtain ⟨hy1, hy2⟩ := hy
  obtain ⟨hz1, hz2⟩ := hz
  have w1 : BVal.WF ⟨x.kind, x.size + y.size, x.value + y.value * 2 ^ x.size⟩ := by
    constructor
    · dsimp only; nlinarith
    · dsimp only; rw [Int.pow_add]; nlinarith
  have w2 : BVal.WF ⟨y.kind, y.size + z.size, y.value + z.value * 2 ^ y.size⟩ := by
    constructor
    · dsimp only; nlinarith
    · dsimp only; rw [Int.pow_add]; nlinarith
  rw [C14_concat ⟨hx1, hx2⟩ ⟨hy1, hy2⟩, C14_concat ⟨hy1, hy2⟩ ⟨hz1, hz2⟩, if_pos e1, if_pos e3]
  simp only [bind, Except.bind]
  rw [C14_concat w1 ⟨hz1, hz2⟩, C14_concat ⟨hx1, hx2⟩ w2]
  dsimp only
  rw [if_pos e2, if_pos e1]
  simp only [Except.ok.injEq, BVal.mk.injEq, true_and, Nat.add_assoc]
  rw [Int.pow_add]; ring

example : (⟨.root .bv, 3, 5⟩ : BVal).concat ⟨.root .bv, 2, 2⟩ = .ok ⟨.root .bv, 5, 21⟩ := by decide

/-! ## C15 indexing and slicing -/

/-- **C15** `x[i]`: bit `i` (or `n + i`), `IndexError` elsewhere. -/
theorem C15_index (x : BVal) (i : Int) :
    x.getIdx i = match pyIndex? x.size i with
      | some j => .ok (ibit x.value j)
      | none => .error .indexError := getIdx_eq x i

/-- **C15** `x[key]` is a `Bit` for an int, a vector for a slice, and `TypeError` for anything else. -/
theorem C15_getitem (x : BVal) : (∀ i, x.getitem (.int i) = match pyIndex? x.size i with
      | some j => .ok (.bit (ibit x.value j))
      | none => .error .indexError) ∧
    (∀ s r, x.getitem (.slice s) = .ok r ↔ ∃ y, x.getSlice s = .ok y ∧ r = .bv y) ∧
    x.getitem .other = .error .typeError := by
  refine ⟨fun i => ?_, fun s r => ?_, rfl⟩
  · simp only [BVal.getitem, C15_index]
    cases pyIndex? x.size i <;> rfl
  · simp only [BVal.getitem]
    cases x.getSlice s with
    | error e => exact ⟨nofun, fun ⟨_, h, _⟩ => nomatch h⟩
    | ok y => exact ⟨fun h => ⟨y, rfl, by injection h with h; exact h.symm⟩, fun ⟨_, h1, h2⟩ => by cases h1; rw [h2]; rfl⟩

example : (⟨.root .sint, 4, 10⟩ : BVal).getitem (.int (-1)) = .ok (.bit true) := by decide

/-- **C15** `x[s]` has as bits exactly Python's list slice of `x.bits()`; a zero step raises. -/
theorem C15_slice_bits (x : BVal) (s : PySlice) :
    (x.getSlice s).map BVal.bits = pySliceList x.bits s ∧
    ∀ r, x.getSlice s = .ok r → r.kind = x.kind ∧ r.WF ∧ pySliceList x.bits s = .ok r.bits ∧
      r.size = r.bits.length := by
  have key : (x.getSlice s).map BVal.bits = pySliceList x.bits s := by
    rw [getSlice_eq, bits_eq, pySliceList_map]
    cases pySliceList (toBits x.size x.value) s with
    | error e => rfl
    | ok l => simp [Except.map, bits_eq, toBits_ofBits]
  refine ⟨key, fun r hr => ⟨?_, ?_, ?_, ?_⟩⟩
  · rw [getSlice_eq] at hr
    cases h : pySliceList (toBits x.size x.value) s with
    | error e => rw [h] at hr; cases hr
    | ok l => rw [h] at hr; injection hr with hr; rw [← hr]
  · rw [getSlice_eq] at hr
    cases h : pySliceList (toBits x.size x.value) s with
    | error e => rw [h] at hr; cases hr
    | ok l => rw [h] at hr; injection hr with hr; rw [← hr]; exact ofBits_bounds l
  · rw [← key, hr]; rfl
  · rw [C04_bits_length]

/-- **C15** bit `j` of `x[a:b:s]` is bit `start + j*s` of `x`, where `start, stop` are Python's
clamped bounds, and the width is the number of steps that fit. -/
theorem C15_slice_elem (x : BVal) (s : PySlice) {a b st : Int}
    (h : s.indices x.size = .ok (a, b, st)) :
    ∃ r, x.getSlice s = .ok r ∧
      (∀ j : Nat, j < r.size ↔ (0 < st ∧ a + j * st < b) ∨ (st < 0 ∧ b < a + j * st)) ∧
      ∀ j : Nat, j < r.size → 0 ≤ a + j * st ∧ a + j * st < x.size ∧
        ibit r.value j = ibit x.value (a + j * st).toNat := by
  have h' : s.indices (toBits x.size x.value).length = .ok (a, b, st) := by
    rw [length_toBits]; exact h
  obtain ⟨l, h1, h2, h3⟩ := pySliceList_eq h'
  refine ⟨⟨x.kind, l.length, ofBits l⟩, by rw [getSlice_eq, h1]; rfl, ?_, ?_⟩
  · intro j; rw [h2]; exact lt_rangeLen j
  · intro j hj
    dsimp only at hj ⊢
    have hb := indices_in_range h (j := j) (by omega)
    refine ⟨hb.1, hb.2, ?_⟩
    rw [ibit_ofBits, h3 j (by omega), getElem?_toBits, if_pos (by omega)]
    rfl

/-- **C15** for `0 ≤ a ≤ b ≤ n`, `x[a:b]` is `⌊x / 2^a⌋ mod 2^(b-a)`. -/
theorem C15_slice_arith (x : BVal) (a b : Nat) (hab : a ≤ b) (hb : b ≤ x.size) :
    x.getSlice ⟨some a, some b, none⟩ = .ok ⟨x.kind, b - a, (x.value / 2 ^ a) % 2 ^ (b - a)⟩ := by
  rw [getSlice_eq, pySliceList_step1]
  have e (m : Nat) : slicePos (toBits x.size x.value).length (m : Int) = m := by simp [slicePos]
  simp only [Option.map_some, Option.getD_some, e, Except.map]
  have : ((toBits x.size x.value).take b).drop a = toBits (b - a) (x.value / 2 ^ a) := by
    apply List.ext_getElem?
    intro i
    rw [List.getElem?_drop, List.getElem?_take, getElem?_toBits, getElem?_toBits, ibit_div]
    repeat' split
    all_goals first | rfl | omega
  rw [this, length_toBits, ofBits_toBits]

/-- **C15** `x[::-1]` reverses the bits. -/
theorem C15_reverse (x : BVal) :
    (x.getSlice ⟨none, none, some (-1)⟩).map BVal.bits = .ok x.bits.reverse := by
  rw [(C15_slice_bits x _).1, pySliceList_reverse]

example : (⟨.root .bv, 8, 0xB4⟩ : BVal).getSlice ⟨some (-6), some 100, some 2⟩
    = .ok ⟨.root .bv, 3, 3⟩ := by decide

/-! ## C16 item assignment -/

/-- The bit an assigned object stands for: a `Bit`, a `bool`, or the ints 0 and 1. -/
def bitLike? : Obj → Option Bool
  | .bool b => some b
  | .bit b => some b
  | .int v => if v = 0 then some false else if v = 1 then some true else none
  | _ => none

theorem isBitLike_eq (o : Obj) : BVal.isBitLike o = (bitLike? o).isSome := by
  cases o with
  | int v =>
    simp only [BVal.isBitLike, bitLike?]
    by_cases h0 : v = 0
    · simp [h0]
    · by_cases h1 : v = 1 <;> simp [h0, h1]
  | _ => rfl

theorem mkBit_of_bitLike {o : Obj} {b : Bool} (h : bitLike? o = some b) : mkBit o = .ok b := by
  cases o with
  | int v =>
    simp only [bitLike?] at h
    simp only [mkBit]
    by_cases h0 : v = 0
    · simp_all
    · by_cases h1 : v = 1 <;> simp_all
  | bool c => simp_all [bitLike?, mkBit]
  | bit c => simp_all [bitLike?, mkBit]
  | bv c => simp [bitLike?] at h
  | seq c => simp [bitLike?] at h
  | other c d => simp [bitLike?] at h

/-- **C16** a successful assignment updates exactly one bit and keeps the class. -/
theorem C16_setitem (x : BVal) {i : Int} {j : Nat} {o : Obj} {b : Bool}
    (hi : pyIndex? x.size i = some j) (ho : bitLike? o = some b) :
    ∃ r, x.setitem (.int i) o = .ok r ∧ r.kind = x.kind ∧ r.size = x.size ∧ r.WF ∧
      ∀ k, k < x.size → ibit r.value k = if k = j then b else ibit x.value k := by
  have hij : (0 ≤ (if i < 0 then (x.size : Int) + i else i) ∧
      (if i < 0 then (x.size : Int) + i else i) < x.size) ∧
      (if i < 0 then (x.size : Int) + i else i).toNat = j := by
    unfold pyIndex? at hi
    split at hi
    · injection hi with hi; split <;> omega
    · split at hi
      · injection hi with hi; split <;> omega
      · cases hi
  have hbl : BVal.isBitLike o = true := by rw [isBitLike_eq, ho]; rfl
  unfold BVal.setitem
  simp only [hbl, not_true, if_false, hij.1, and_self, pyShl, bind, Except.bind, mk'_eq,
    mkBit_of_bitLike ho]
  rw [if_neg (by omega)]
  simp only [hij.2]
  have hj : j < x.size := by omega
  have hlt : (1 : Int) * 2 ^ j < 2 ^ x.size := by
    have : (2 : Int) ^ j < 2 ^ x.size := by exact_mod_cast Nat.pow_lt_pow_right (by omega) hj
    omega
  rw [Int.emod_eq_of_lt (by have := two_pow_pos j; omega) hlt]
  have hbm (k : Nat) : ibit ((1 : Int) * 2 ^ j) k = decide (k = j) := by
    rw [ibit_mul]
    by_cases h : k = j
    · subst h; simp [ibit]
    · by_cases h2 : j ≤ k
      · obtain ⟨m, hm⟩ : ∃ m, k - j = m + 1 := ⟨k - j - 1, by omega⟩
        have : ibit 1 (m + 1) = false := ibit_lt (n := 1) (by omega) (by simp) (by omega)
        simp [h, hm, this]
      · simp [h2, h]
  have hor := C06_bvor x (.bv ⟨x.kind, x.size, 1 * 2 ^ j⟩)
  simp only [operand, if_true] at hor
  obtain ⟨t, ht1, ht2, ht3, ht4, ht5⟩ := hor
  obtain ⟨m, hm1, hm2, hm3, hm4, hm5⟩ := C06_bvnot ⟨x.kind, x.size, 1 * 2 ^ j⟩
  dsimp only at hm2 hm3 hm5
  have hand := C06_bvand x (.bv m)
  simp only [operand, hm3, if_true] at hand
  obtain ⟨f, hf1, hf2, hf3, hf4, hf5⟩ := hand
  simp only [ht1, hm1, hf1, mkBV_eq, Obj.denotes, pure, Except.pure]
  have hw : (if b then t else f).WF ∧ (if b then t else f).size = x.size := by
    cases b <;> simp [ht4, hf4, ht3, hf3]
  have hmod : (if b then t else f).value % 2 ^ x.size = (if b then t else f).value := by
    rw [← hw.2]; exact hw.1.mod_eq
  refine ⟨_, rfl, rfl, rfl, mod_WF x.kind x.size _, fun k hk => ?_⟩
  dsimp only
  rw [hmod]
  cases b with
  | true =>
    simp only [if_true, ht5 k hk, hbm]
    by_cases h : k = j <;> simp [h]
  | false =>
    simp only [Bool.false_eq_true, if_false, hf5 k hk, hm5 k hk, hbm]
    by_cases h : k = j <;> simp [h]

/-- **C16** rejected assignments, with their exceptions (checked in the order of the code). -/
theorem C16_setitem_errors (x : BVal) (o : Obj) :
    (∀ s, x.setitem (.slice s) o = .error .notImplementedError) ∧
    (∀ i, bitLike? o = none → x.setitem (.int i) o = .error .valueError) ∧
    (∀ i b, bitLike? o = some b → pyIndex? x.size i = none →
      x.setitem (.int i) o = .error .indexError) := by
  refine ⟨fun s => rfl, fun i h => ?_, fun i b h hi => ?_⟩
  · have : BVal.isBitLike o = false := by rw [isBitLike_eq, h]; rfl
    simp [BVal.setitem, this]
  · have hbl : BVal.isBitLike o = true := by rw [isBitLike_eq, h]; rfl
    have : ¬ (0 ≤ (if i < 0 then (x.size : Int) + i else i) ∧
        (if i < 0 then (x.size : Int) + i else i) < x.size) := by
      unfold pyIndex? at hi
      split at hi
      · cases hi
      · split at hi
        · cases hi
        · split <;> omega
    simp only [BVal.setitem, hbl, not_true, if_false, this, not_false_iff, if_true]

/-- One assignment statement as seen by the object: an exception leaves it as it was. -/
def assign (x : BVal) (a : BVal.Index × Obj) : BVal :=
  match x.setitem a.1 a.2 with
  | .ok r => r
  | .error _ => x

/-- Effect of one assignment on bit `k` of an `n`-bit vector, as the user sees it. -/
def writes (n k : Nat) (a : BVal.Index × Obj) : Option Bool :=
  match a.1 with
  | .int i => if pyIndex? n i = some k then bitLike? a.2 else none
  | _ => none

/-- The last value written to bit `k` in a history, `old` if none. -/
def lastWrite (n k : Nat) (old : Bool) : List (BVal.Index × Obj) → Bool
  | [] => old
  | a :: as => lastWrite n k ((writes n k a).getD old) as

theorem assign_bit {x : BVal} (hx : x.WF) (a : BVal.Index × Obj) :
    (assign x a).kind = x.kind ∧ (assign x a).size = x.size ∧ (assign x a).WF ∧
      ∀ k, k < x.size → ibit (assign x a).value k = (writes x.size k a).getD (ibit x.value k) := by
  obtain ⟨idx, o⟩ := a
  cases idx with
  | slice s =>
    simp only [assign, (C16_setitem_errors x o).1 s, writes]
    exact ⟨trivial, trivial, hx, fun k _ => rfl⟩
  | other =>
    have : ∃ e, x.setitem .other o = .error e := by
      by_cases h : BVal.isBitLike o = true
      · exact ⟨_, by simp [BVal.setitem, h]; rfl⟩
      · exact ⟨_, by simp [BVal.setitem, h]; rfl⟩
    obtain ⟨e, he⟩ := this
    simp only [assign, he, writes]
    exact ⟨trivial, trivial, hx, fun k _ => rfl⟩
  | int i =>
    cases ho : bitLike? o with
    | none =>
      simp only [assign, (C16_setitem_errors x o).2.1 i ho, writes, ho]
      refine ⟨trivial, trivial, hx, fun k _ => ?_⟩
      split <;> rfl
    | some b =>
      cases hi : pyIndex? x.size i with
      | none =>
        simp only [assign, (C16_setitem_errors x o).2.2 i b ho hi, writes, hi]
        exact ⟨trivial, trivial, hx, fun k _ => by simp⟩
      | some j =>
        obtain ⟨r, h1, h2, h3, h4, h5⟩ := C16_setitem x hi ho
        simp only [assign, h1]
        refine ⟨h2, h3, h4, fun k hk => ?_⟩
        rw [h5 k hk]
        simp only [writes, hi, ho]
        by_cases h : k = j
        · simp [h]
        · simp [h, Ne.symm h]

/-- **C16** after any history of assignments (failing ones included) the class is unchanged and
every bit holds the last value assigned to it. -/
theorem C16_history {x : BVal} (hx : x.WF) (as : List (BVal.Index × Obj)) :
    (as.foldl assign x).kind = x.kind ∧ (as.foldl assign x).size = x.size ∧
    (as.foldl assign x).WF ∧
    ∀ k, k < x.size → ibit (as.foldl assign x).value k = lastWrite x.size k (ibit x.value k) as := by
  induction as generalizing x with
  | nil => exact ⟨rfl, rfl, hx, fun k _ => rfl⟩
  | cons a as ih =>
    obtain ⟨h1, h2, h3, h4⟩ := assign_bit hx a
    obtain ⟨g1, g2, g3, g4⟩ := ih h3
    simp only [List.foldl_cons]
    refine ⟨by rw [g1, h1], by rw [g2, h2], g3, fun k hk => ?_⟩
    rw [g4 k (by omega), h2, lastWrite, h4 k hk]

example : [((.int 0 : BVal.Index), (Obj.bit true)), (.int (-1), .int 1), (.int 9, .int 1)].foldl assign
    ⟨.root .bv, 4, 2⟩ = ⟨.root .bv, 4, 11⟩ := by decide

/-! ## C17 zero extension -/

theorem C17_zext {x : BVal} (hx : x.WF) (k : Int) :
    x.zext k = if k < 0 then .error .valueError
      else .ok ⟨x.kind, x.size + k.toNat, x.value⟩ := by
  unfold BVal.zext
  by_cases h : k < 0
  · simp [h]
  · simp only [h, if_false, mkBV_int, bind, Except.bind]
    have w := mod_WF x.kind k.toNat 0
    rw [concat_eq hx w, if_pos (Kind.isSub_refl _)]
    simp

example : (⟨.root .sint, 4, 9⟩ : BVal).zext 0 = .ok ⟨.root .sint, 4, 9⟩ := by decide

/-! ## C19 repetition -/

theorem toBits_ext {n : Nat} {v : Int} {l : List Bool} (hl : l.length = n)
    (h : ∀ i, i < n → l[i]? = some (ibit v i)) : toBits n v = l := by
  apply List.ext_getElem?
  intro i
  rw [getElem?_toBits]
  split
  · rename_i hi; exact (h i hi).symm
  · rw [List.getElem?_eq_none (by omega)]

theorem flatten_replicate_length {α : Type} (r : Nat) (l : List α) :
    (List.replicate r l).flatten.length = r * l.length := by simp

theorem flatten_replicate_getElem? {α : Type} (r : Nat) (l : List α) (j : Nat)
    (hj : j < r * l.length) : (List.replicate r l).flatten[j]? = l[j % l.length]? := by
  induction r generalizing j with
  | zero => simp at hj
  | succ r ih =>
    rw [List.replicate_succ, List.flatten_cons, List.getElem?_append]
    split
    · rename_i h; rw [Nat.mod_eq_of_lt h]
    · rename_i h
      rw [ih (j - l.length) (by rw [Nat.succ_mul] at hj; omega), ← Nat.mod_eq_sub_mod (by omega)]

/-- **C19** `x.repeat(r)` for `r ≥ 1`: width `r*n`, bit `j` is bit `j mod n`; `r ≤ 0` raises. -/
theorem C19_repeat (x : BVal) (r : Int) :
    if r ≤ 0 then x.repeat_ r = .error .valueError
    else ∃ y, x.repeat_ r = .ok y ∧ y.kind = x.kind ∧ y.size = r.toNat * x.size ∧ y.WF ∧
      ∀ j, j < y.size → ibit y.value j = ibit x.value (j % x.size) := by
  split
  · rename_i h; simp [BVal.repeat_, h]
  · rename_i h
    let l := (List.replicate r.toNat (toBits x.size x.value)).flatten
    have hl : l.length = r.toNat * x.size := by
      simp only [l]; rw [flatten_replicate_length, length_toBits]
    have e : x.repeat_ r = .ok ⟨x.kind, r.toNat * x.size, ofBits l⟩ := by
      unfold BVal.repeat_ BVal.listRepeat
      rw [if_neg h, bits_eq]
      have : ((List.replicate r.toNat (List.map b2i (toBits x.size x.value))).flatten).map truthy = l := by
        rw [← List.map_replicate, ← List.map_flatten, map_truthy_b2i]
      rw [this, ← hl, mkBV_seq]
    refine ⟨_, e, rfl, rfl, ?_, fun j hj => ?_⟩
    · have := ofBits_bounds l
      rw [hl] at this; exact this
    · dsimp only at hj ⊢
      have hpos : 0 < x.size := by
        rcases Nat.eq_zero_or_pos x.size with h0 | h0
        · simp [h0] at hj
        · exact h0
      rw [ibit_ofBits, flatten_replicate_getElem? _ _ _ (by rw [length_toBits]; exact hj),
        length_toBits, getElem?_toBits, if_pos (Nat.mod_lt _ hpos)]
      rfl

example : (⟨.root .bv, 3, 5⟩ : BVal).repeat_ 2 = .ok ⟨.root .bv, 6, 45⟩ := by decide

/-! ## C18 sign extension -/

/-- **C18 (partial)**: full claim: `x.sext(k)` for every `k ≥ 0` has width `n+k` and the same signed
value.  Proved for `k ≥ 1`; `C18_zero_refuted`: at `k = 0` the code raises `ValueError`. -/
theorem C18_sext_partial {x : BVal} (hx : x.WF) (hn : 0 < x.size) (k : Int) (hk : 1 ≤ k) :
    ∃ y, x.sext k = .ok y ∧ y.kind = x.kind ∧ y.size = x.size + k.toNat ∧ y.WF ∧
      y.asSint = x.asSint ∧ x.asSint = .ok (signed x.size x.value) := by
  have hidx : x.getIdx (-1) = .ok (ibit x.value (x.size - 1)) := by
    rw [C15_index]
    have e : pyIndex? x.size (-1) = some (x.size - 1) := by
      unfold pyIndex?
      rw [if_neg (by omega), if_pos (by omega)]
      congr 1; omega
    rw [e]
  have hs : mkBV x.kind 1 (.bit (ibit x.value (x.size - 1))) =
      .ok ⟨x.kind, 1, b2i (ibit x.value (x.size - 1))⟩ := by
    rw [mkBV_eq]
    cases ibit x.value (x.size - 1) <;> simp [Obj.denotes, b2i]
  have hrep := C19_repeat ⟨x.kind, 1, b2i (ibit x.value (x.size - 1))⟩ k
  rw [if_neg (by omega)] at hrep
  obtain ⟨z, z1, z2, z3, z4, z5⟩ := hrep
  dsimp only at z2 z3 z5
  rw [Nat.mul_one] at z3
  have e : x.sext k = .ok ⟨x.kind, x.size + z.size, x.value + z.value * 2 ^ x.size⟩ := by
    unfold BVal.sext
    rw [if_neg (by omega)]
    simp only [hidx, bind, Except.bind, hs, z1]
    rw [concat_eq hx z4, if_pos (by rw [z2]; exact Kind.isSub_refl _)]
  have w : BVal.WF ⟨x.kind, x.size + z.size, x.value + z.value * 2 ^ x.size⟩ := by
    have hpx := two_pow_pos x.size
    obtain ⟨a1, a2⟩ := hx
    obtain ⟨b1, b2⟩ := z4
    constructor
    · dsimp only; nlinarith
    · dsimp only; rw [Int.pow_add]; nlinarith
  refine ⟨_, e, rfl, by rw [z3], w, ?_, ?_⟩
  · rw [C03_as_sint hx, C03_as_sint w]
    dsimp only
    rw [if_neg (by omega), if_neg (by omega)]
    congr 1
    have hzs : 0 < z.size := by omega
    -- value of the extension
    have htop := ibit_top hn hx.1 hx.2
    have hpx := two_pow_pos x.size
    have hzv : z.value = if 2 ^ x.size ≤ 2 * x.value then 2 ^ z.size - 1 else 0 := by
      apply ibit_ext; intro i
      by_cases hi : i < z.size
      · rw [z5 i hi, Nat.mod_one, htop]
        by_cases hc : 2 ^ x.size ≤ 2 * x.value
        · simp only [hc, decide_true, if_true, ibit_mask, hi]; rfl
        · simp only [hc, decide_false, if_false, ibit_zero]; rfl
      · rw [ibit_lt z4.1 z4.2 (by omega)]
        split
        · rw [ibit_mask]; simp [hi]
        · rw [ibit_zero]
    rw [hzv]
    unfold signed
    have hpz := two_pow_pos z.size
    obtain ⟨m, hm⟩ : ∃ m, z.size = m + 1 := ⟨z.size - 1, by omega⟩
    have hpm := two_pow_pos m
    have hx1 := hx.1
    have hx2 := hx.2
    by_cases hc : 2 * x.value < 2 ^ x.size
    · rw [if_neg (show ¬ 2 ^ x.size ≤ 2 * x.value by omega), if_pos hc, if_pos]
      · omega
      · rw [Int.pow_add]; nlinarith
    · rw [if_pos (show 2 ^ x.size ≤ 2 * x.value by omega), if_neg hc, if_neg]
      · rw [Int.pow_add]; ring
      · rw [Int.pow_add, hm, Int.pow_succ]; nlinarith
  · rw [C03_as_sint hx, if_neg (by omega)]

example : BVal.WF ⟨.root .sint, 4, 9⟩ ∧
    (⟨.root .sint, 4, 9⟩ : BVal).sext 3 = .ok ⟨.root .sint, 7, 121⟩ := by decide

/-- **C18** negative amounts raise `ValueError`. -/
theorem C18_negative (x : BVal) (k : Int) (hk : k < 0) : x.sext k = .error .valueError := by
  simp [BVal.sext, hk]

/-- **C18 at `k = 0`**: for *every* vector of width ≥ 1 the code raises instead of returning it. -/
theorem C18_zero_raises (x : BVal) (hn : 0 < x.size) : x.sext 0 = .error .valueError := by
  have hidx : x.getIdx (-1) = .ok (ibit x.value (x.size - 1)) := by
    rw [C15_index]
    have e : pyIndex? x.size (-1) = some (x.size - 1) := by
      unfold pyIndex?
      rw [if_neg (by omega), if_pos (by omega)]
      congr 1; omega
    rw [e]
  simp [BVal.sext, hidx, bind, Except.bind, mkBV_eq, Obj.denotes, BVal.repeat_]

/-- **C18 refuted at `k = 0`.** -/
theorem C18_zero_refuted :
    ¬ ∀ x : BVal, x.WF → 0 < x.size → ∃ y, x.sext 0 = .ok y ∧ y.size = x.size := by
  intro h
  obtain ⟨y, hy, -⟩ := h ⟨.root .bv, 4, 3⟩ (by decide) (by decide)
  rw [C18_zero_raises _ (by decide)] at hy
  cases hy

/-! ## C20 add with carry -/

/-- **C20** `(s, c) = a.adc(b, cin)` satisfies `s + 2^n·c = a + b + cin` exactly. -/
theorem C20_adc {x : BVal} (hx : x.WF) {o c : Obj} (ho : o.WF) (hc : c.WF) {b cin : Int}
    (hb : operand x.size o = .ok b) (hcin : operand 1 c = .ok cin) :
    ∃ s co, x.adc o c = .ok (s, co) ∧ s.kind = x.kind ∧ s.size = x.size ∧ s.WF ∧
      s.value + (if co then 2 ^ x.size else 0) = x.value + b + cin := by
  rcases coerce_eq x.kind x.size o with ⟨y, y1, y2, y3, y4, -⟩ | ⟨e, -, e2⟩
  swap; · rw [e2] at hb; cases hb
  rcases coerce_eq x.kind 1 c with ⟨z, z1, z2, z3, z4, -⟩ | ⟨e, -, e2⟩
  swap; · rw [e2] at hcin; cases hcin
  rw [y2] at hb; injection hb with hb; subst hb
  rw [z2] at hcin; injection hcin with hcin; subst hcin
  have hy := y4 ho
  have hz := z4 hc
  have hp := two_pow_pos x.size
  obtain ⟨x0, x1⟩ := hx
  have hy0 := hy.1
  have hy1 : y.value < 2 ^ x.size := by have := hy.2; rwa [y3] at this
  have hz0 := hz.1
  have hz1 : z.value < 2 := by have := hz.2; rw [z3] at this; simpa using this
  unfold BVal.adc
  simp only [y1, z1, bind, Except.bind, C17_zext ⟨x0, x1⟩, C17_zext hy, C17_zext hz]
  rw [if_neg (by omega), if_neg (by omega), if_neg (by omega)]
  simp only [C05_bvadd, operand, y3, z3]
  rw [if_pos (by simp)]
  simp only [Except.map]
  rw [if_pos (by simp; omega)]
  simp only [wrap]
  have hpw : (2 : Int) ^ (x.size + (1 : Int).toNat) = 2 * 2 ^ x.size := by
    simp [Int.pow_succ]; ring
  have hsum : (((x.value + y.value) % 2 ^ (x.size + (1 : Int).toNat) + z.value) %
      2 ^ (x.size + (1 : Int).toNat)) = x.value + y.value + z.value := by
    rw [hpw, Int.emod_add_emod, Int.emod_eq_of_lt (by omega) (by omega)]
  rw [hsum]
  have hS0 : 0 ≤ x.value + y.value + z.value := by omega
  have hS1 : x.value + y.value + z.value < 2 ^ (x.size + 1) := by rw [Int.pow_succ]; omega
  generalize x.value + y.value + z.value = S at *
  -- low part and top bit
  have hidx : (BVal.mk x.kind (x.size + (1 : Int).toNat) S).getIdx (-1) = .ok (ibit S x.size) := by
    rw [C15_index]
    have e : pyIndex? (x.size + (1 : Int).toNat) (-1) = some x.size := by
      unfold pyIndex?
      rw [if_neg (by omega), if_pos (by omega)]
      congr 1; omega
    simp only [e]
  have hsl : (BVal.mk x.kind (x.size + (1 : Int).toNat) S).getSlice ⟨some 0, some (-1), none⟩ =
      .ok ⟨x.kind, x.size, S % 2 ^ x.size⟩ := by
    have := C15_slice_arith ⟨x.kind, x.size + 1, S⟩ 0 x.size (by omega) (by simp)
    have e2 : (BVal.mk x.kind (x.size + (1 : Int).toNat) S).getSlice ⟨some 0, some (-1), none⟩ =
        (BVal.mk x.kind (x.size + 1) S).getSlice ⟨some (0 : Nat), some (x.size : Nat), none⟩ := by
      rw [getSlice_eq, getSlice_eq]
      simp only [pySliceList_step1, Option.map_some, Option.getD_some, length_toBits]
      have : slicePos (x.size + (1 : Int).toNat) (-1) = x.size := by
        unfold slicePos; rw [if_pos (by omega)]; omega
      have h2 : slicePos (x.size + 1) (x.size : Int) = x.size := by
        unfold slicePos; rw [if_neg (by omega)]; omega
      rw [this]
      simp only [h2]
      rfl
    rw [e2, this]
    simp
  simp only [hidx, hsl, pure, Except.pure]
  refine ⟨_, _, rfl, rfl, rfl, mod_WF _ _ _, ?_⟩
  have htop := ibit_top (n := x.size + 1) (v := S) (by omega) hS0 hS1
  rw [Nat.add_sub_cancel] at htop
  rw [htop]
  rw [Int.pow_succ] at hS1 ⊢
  dsimp only
  by_cases h : 2 ^ x.size * 2 ≤ 2 * S
  · simp only [h, decide_true, if_true]
    have : S % 2 ^ x.size = S - 2 ^ x.size := by
      rw [← Int.sub_emod_right, Int.emod_eq_of_lt (by omega) (by omega)]
    omega
  · simp only [h, decide_false, Bool.false_eq_true, if_false]
    rw [Int.emod_eq_of_lt (by omega) (by omega)]; omega

example : (⟨.root .bv, 8, 200⟩ : BVal).adc (.int 100) (.bit true) = .ok (⟨.root .bv, 8, 45⟩, true) := by
  decide

/-- A user's multi-limb addition loop: `adc` on each pair of limbs, carry threaded through. -/
def adcChain : List (BVal × BVal) → Bool → PyM (List BVal × Bool)
  | [], c => .ok ([], c)
  | (a, b) :: l, c => do
      let (s, c') ← a.adc (.bv b) (.bit c)
      let (ss, c'') ← adcChain l c'
      return (s :: ss, c'')

/-- Value of a little-endian list of `w`-bit limbs. -/
def limbs (w : Nat) : List BVal → Int
  | [] => 0
  | x :: l => x.value + 2 ^ w * limbs w l

/-- **C20** chaining `adc` over limbs adds wide numbers exactly, for any number of limbs. -/
theorem C20_chain (w : Nat) (l : List (BVal × BVal)) (c : Bool)
    (h : ∀ p ∈ l, p.1.WF ∧ p.2.WF ∧ p.1.size = w ∧ p.2.size = w) :
    ∃ ss co, adcChain l c = .ok (ss, co) ∧ ss.length = l.length ∧
      limbs w ss + (if co then 2 ^ (w * l.length) else 0) =
        limbs w (l.map (·.1)) + limbs w (l.map (·.2)) + (if c then 1 else 0) := by
  induction l generalizing c with
  | nil => exact ⟨[], c, rfl, rfl, by simp [limbs]⟩
  | cons p l ih =>
    obtain ⟨a, b⟩ := p
    obtain ⟨ha, hb, sa, sb⟩ := h (a, b) (by simp)
    dsimp only at ha hb sa sb
    obtain ⟨s, co, h1, -, -, -, h5⟩ := C20_adc ha (o := .bv b) (c := .bit c) hb trivial
      (b := b.value) (cin := if c then 1 else 0) (by simp [operand, sa, sb])
      (by cases c <;> simp [operand, Obj.denotes, wrap])
    obtain ⟨ss, co', g1, g2, g3⟩ := ih co (fun p hp => h p (by simp [hp]))
    refine ⟨s :: ss, co', by simp [adcChain, h1, g1, bind, Except.bind, pure, Except.pure],
      by simp [g2], ?_⟩
    simp only [limbs, List.map_cons, List.length_cons, Nat.mul_succ]
    rw [sa] at h5
    have hp : (2 : Int) ^ (w * l.length + w) = 2 ^ w * 2 ^ (w * l.length) := by
      rw [Int.pow_add]; ring
    rw [hp]
    have e1 : (if co' then (2 : Int) ^ w * 2 ^ (w * l.length) else 0) =
        2 ^ w * (if co' then 2 ^ (w * l.length) else 0) := by split <;> simp
    have e2 : (if co then (2 : Int) ^ w else 0) = 2 ^ w * (if co then 1 else 0) := by split <;> simp
    rw [e1]; rw [e2] at h5
    linear_combination h5 + 2 ^ w * g3

example : adcChain [(⟨.root .bv, 4, 15⟩, ⟨.root .bv, 4, 1⟩), (⟨.root .bv, 4, 2⟩, ⟨.root .bv, 4, 3⟩)] false
    = .ok ([⟨.root .bv, 4, 0⟩, ⟨.root .bv, 4, 6⟩], false) := by decide

/-! ## C21 signed overflow -/

/-- **C21** `overflow(a, b, a+b)` iff the exact signed sum does not fit in `n` bits. -/
theorem C21_overflow {x y s : BVal} (hx : x.WF) (hy : y.WF) (hs : y.size = x.size) (hn : 0 < x.size)
    (h : x.bvadd (.bv y) = .ok s) :
    overflow x y s = .ok (decide (¬ (-(2 ^ (x.size - 1)) ≤ signed x.size x.value + signed x.size y.value ∧
      signed x.size x.value + signed x.size y.value < 2 ^ (x.size - 1)))) := by
  rw [C05_bvadd] at h
  simp only [operand, hs, if_true, Except.map, Except.ok.injEq] at h
  subst h
  have hidx (z : BVal) (hz : z.size = x.size) : z.getIdx (-1) = .ok (ibit z.value (z.size - 1)) := by
    rw [C15_index]
    have e : pyIndex? z.size (-1) = some (z.size - 1) := by
      unfold pyIndex?
      rw [if_neg (by omega), if_pos (by omega)]
      congr 1; omega
    rw [e]
  unfold overflow
  rw [hidx x rfl, hidx y hs, hidx ⟨x.kind, x.size, wrap x.size (x.value + y.value)⟩ rfl]
  simp only [bind, Except.bind, pure, Except.pure, hs]
  have hy' := hy; unfold BVal.WF at hy'; rw [hs] at hy'
  have wr := mod_WF x.kind x.size (x.value + y.value)
  have wr1 : 0 ≤ wrap x.size (x.value + y.value) := wr.1
  have wr2 : wrap x.size (x.value + y.value) < 2 ^ x.size := wr.2
  rw [ibit_top hn hx.1 hx.2, ibit_top hn hy'.1 hy'.2, ibit_top hn wr1 wr2]
  obtain ⟨k, hk⟩ : ∃ k, x.size = k + 1 := ⟨x.size - 1, by omega⟩
  have hp := two_pow_pos k
  obtain ⟨a0, a1⟩ := hx
  obtain ⟨b0, b1⟩ := hy'
  unfold wrap signed
  rw [hk] at a1 b1 ⊢
  rw [Int.pow_succ] at *
  simp only [Nat.add_sub_cancel]
  have hm : (x.value + y.value) % (2 ^ k * 2) =
      if x.value + y.value < 2 ^ k * 2 then x.value + y.value else x.value + y.value - 2 ^ k * 2 := by
    split
    · rw [Int.emod_eq_of_lt (by omega) (by omega)]
    · rw [← Int.sub_emod_right, Int.emod_eq_of_lt (by omega) (by omega)]
  rw [hm]
  congr 1
  rw [Bool.eq_iff_iff]
  simp only [Bool.or_eq_true, Bool.and_eq_true, Bool.not_eq_true', decide_eq_true_eq,
    decide_eq_false_iff_not]
  split <;> split <;> split <;> omega

example : (⟨.root .bv, 4, 7⟩ : BVal).bvadd (.bv ⟨.root .bv, 4, 1⟩) = .ok ⟨.root .bv, 4, 8⟩ ∧
    overflow ⟨.root .bv, 4, 7⟩ ⟨.root .bv, 4, 1⟩ ⟨.root .bv, 4, 8⟩ = .ok true := by decide

end HW
