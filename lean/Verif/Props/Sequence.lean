import Verif.Lemmas.Sequence
import Verif.Lemmas.Adt.HeapOps
import Verif.Props.BitVectorStruct
import Verif.Props.Operators
import Verif.Props.SmtStruct
import Verif.Props.Z3Struct
import Verif.Props.PyProgram

/-!
# Property C156: vectors are Python sequences of bits
-/

namespace HW
open Spec PySeq

namespace PySeq

theorem isSeq (x : BVal) : IsSeq x.getIdx (toBits x.size x.value) := by
  intro i
  rw [C15_index, getElem?_toBits, pyIndex?]
  by_cases h : i < x.size
  · rw [if_pos ⟨by omega, by omega⟩, if_pos h]
    simp
  · rw [if_neg (by omega), if_neg (by omega), if_neg h]
    rfl

theorem value_ext {x : BVal} (hx : x.WF) {w : Int} (hw : 0 ≤ w ∧ w < 2 ^ x.size)
    (h : ∀ i, i < x.size → ibit x.value i = ibit w i) : x.value = w := by
  have h1 : toBits x.size x.value = toBits x.size w := List.map_congr_left fun i hi => h i (List.mem_range.1 hi)
  have := congrArg ofBits h1
  rwa [ofBits_toBits, ofBits_toBits, hx.mod_eq, Int.emod_eq_of_lt hw.1 hw.2] at this

theorem zero_bit (i : Nat) : ibit 0 i = false := by simp [ibit]

theorem toBits_cons {x : BVal} (hn : 0 < x.size) : ∃ a l, toBits x.size x.value = a :: l := by
  cases h : toBits x.size x.value with
  | nil => have := length_toBits x.size x.value; rw [h] at this; simp at this; omega
  | cons a l => exact ⟨a, l, rfl⟩

theorem smt_seq (S : Smt.Simplifier) {x : Smt.SBV} {e₀ : Smt.Env} {X₀ : BVal} (h₀ : Smt.Den e₀ x X₀) :
    ∃ l : List Smt.Term, l.length = x.size ∧ IsSeq (x.getIdx S) l ∧
      ∀ e X, Smt.Den e x X → List.Forall₂ (Smt.DenBit e) l (toBits X.size X.value) := by
  have hs₀ : X₀.size = x.size := h₀.2.1
  have rel := fun e X (h : Smt.Den e x X) (i : Nat) => C36_index (S := S) h i
  have cg := fun (X : BVal) (i : Nat) => isSeq X i
  obtain ⟨l, hl, H⟩ := exists_seq (get := (x.getIdx S)) (n := x.size)
    (fun i hi => by
      have h1 := rel e₀ X₀ h₀ i
      rw [cg, getElem?_toBits, if_pos (by omega)] at h1
      cases hx : x.getIdx S i with
      | ok a => exact ⟨a, rfl⟩
      | error e => rw [hx] at h1; exact h1.elim)
    (fun i hi => by
      have h1 := rel e₀ X₀ h₀ i
      rw [cg, getElem?_toBits, if_neg (by omega)] at h1
      cases hx : x.getIdx S i with
      | ok a => rw [hx] at h1; exact h1.elim
      | error e => rw [hx] at h1; exact congrArg _ h1)
  refine ⟨l, hl, H, fun e X h => ?_⟩
  refine List.forall₂_iff_get.2 ⟨by rw [hl, length_toBits, h.2.1], fun i h1 h2 => ?_⟩
  have h3 := rel e X h i
  rw [H.some (List.getElem?_eq_getElem h1), (isSeq X).some (List.getElem?_eq_getElem h2)] at h3
  exact h3

theorem z3_seq {x : Z3.ZBV} {e₀ : Z3.Env} {X₀ : BVal} (h₀ : Z3.Den e₀ x X₀) :
    ∃ l : List Z3.BoolE, l.length = x.size ∧ IsSeq x.getIdx l ∧
      ∀ e X, Z3.Den e x X → List.Forall₂ (Z3.DenBit e) l (toBits X.size X.value) := by
  have hs₀ : X₀.size = x.size := h₀.2.1
  have rel := fun e X (h : Z3.Den e x X) (i : Nat) => C94_index h i
  have cg := fun (X : BVal) (i : Nat) => isSeq X i
  obtain ⟨l, hl, H⟩ := exists_seq (get := x.getIdx) (n := x.size)
    (fun i hi => by
      have h1 := rel e₀ X₀ h₀ i
      rw [cg, getElem?_toBits, if_pos (by omega)] at h1
      cases hx : x.getIdx i with
      | ok a => exact ⟨a, rfl⟩
      | error e => rw [hx] at h1; exact h1.elim)
    (fun i hi => by
      have h1 := rel e₀ X₀ h₀ i
      rw [cg, getElem?_toBits, if_neg (by omega)] at h1
      cases hx : x.getIdx i with
      | ok a => rw [hx] at h1; exact h1.elim
      | error e => rw [hx] at h1; exact congrArg _ (h1.elim id fun h => by cases h.2))
  refine ⟨l, hl, H, fun e X h => ?_⟩
  refine List.forall₂_iff_get.2 ⟨by rw [hl, length_toBits, h.2.1], fun i h1 h2 => ?_⟩
  have h3 := rel e X h i
  rw [H.some (List.getElem?_eq_getElem h1), (isSeq X).some (List.getElem?_eq_getElem h2)] at h3
  exact h3

end PySeq

/-! ### The concrete family -/

/-- `list(x)`, and every `for` over `x`: the bits of `x`, the least significant first; the iteration ends and does not raise. -/
theorem C156_list (x : BVal) (r : PyM (List Bool)) :
    Items x.getIdx 0 r ↔ r = .ok ((List.range x.size).map (ibit x.value)) := (isSeq x).items 0 r

theorem C156_reversed (x : BVal) :
    PySeq.reversed x.getIdx x.size = .ok ((List.range x.size).map (ibit x.value)).reverse := by
  have h := (isSeq x).reversed (i := x.size) (by rw [length_toBits])
  rwa [List.take_of_length_le (by rw [length_toBits])] at h

/-- `a, b, … = x` needs as many targets as `x` has bits. -/
theorem C156_unpack (x : BVal) (k : Nat) :
    unpack x.getIdx k = if k = x.size then .ok ((List.range x.size).map (ibit x.value)) else .error .valueError := by
  have h := (isSeq x).unpack k
  rwa [length_toBits] at h

/-- `T(list(x)) == x` -/
theorem C156_roundtrip {x : BVal} (hx : x.WF) {l : List Bool} (h : Items x.getIdx 0 (.ok l)) :
    l.length = x.size ∧ mkBV x.kind x.size (.seq l) = .ok x := by
  have h : Except.ok l = Except.ok (toBits x.size x.value) := (C156_list x _).1 h
  injection h with h
  subst h
  refine ⟨length_toBits _ _, ?_⟩
  have h1 := mkBV_seq x.kind (toBits x.size x.value)
  rw [length_toBits] at h1
  rw [h1, ofBits_toBits, hx.mod_eq]

/-- Two vectors have the same list exactly if they have the same width and value. -/
theorem C156_equal {x y : BVal} (hx : x.WF) (hy : y.WF) {l l' : List Bool} (h : Items x.getIdx 0 (.ok l))
    (h' : Items y.getIdx 0 (.ok l')) : l = l' ↔ x.size = y.size ∧ x.value = y.value := by
  obtain ⟨h1, -⟩ := C156_roundtrip hx h
  obtain ⟨h2, -⟩ := C156_roundtrip hy h'
  have e1 : Except.ok l = Except.ok (toBits x.size x.value) := (C156_list x _).1 h
  have e2 : Except.ok l' = Except.ok (toBits y.size y.value) := (C156_list y _).1 h'
  injection e1 with e1
  injection e2 with e2
  constructor
  · rintro rfl
    have hs := h1.symm.trans h2
    refine ⟨hs, ?_⟩
    have := congrArg ofBits (e1.symm.trans e2)
    rwa [ofBits_toBits, ofBits_toBits, hx.mod_eq, hy.mod_eq] at this
  · rintro ⟨hs, hv⟩
    rw [e1, e2, hs, hv]

/-- `list(x[s]) == list(x)[s]`, for every slice; `x[s]` raises exactly if `list(x)[s]` does, the same exception. -/
theorem C156_slice (x : BVal) (s : PySlice) :
    (∀ y l, x.getSlice s = .ok y → Items x.getIdx 0 (.ok l) → ∃ l', pySliceList l s = .ok l' ∧ Items y.getIdx 0 (.ok l')) ∧
    ∀ e l, Items x.getIdx 0 (.ok l) → (x.getSlice s = .error e ↔ pySliceList l s = .error e) := by
  have hb : ∀ y : BVal, y.bits = (toBits y.size y.value).map b2i := bits_eq
  have key : (x.getSlice s).map BVal.bits = (pySliceList (toBits x.size x.value) s).map (List.map b2i) := by
    rw [(C15_slice_bits x s).1, hb, pySliceList_map]
  refine ⟨fun y l hy hl => ?_, fun e l hl => ?_⟩
  · have e1 : Except.ok l = Except.ok (toBits x.size x.value) := (C156_list x _).1 hl
    injection e1 with e1
    subst e1
    rw [hy] at key
    cases hp : pySliceList (toBits x.size x.value) s with
    | error e => rw [hp] at key; cases key
    | ok l' =>
      rw [hp] at key
      have key : Except.ok y.bits = Except.ok (l'.map b2i) := key
      injection key with key
      refine ⟨l', rfl, (C156_list y _).2 ?_⟩
      rw [hb] at key
      have := congrArg (List.map truthy) key
      rw [map_truthy_b2i, map_truthy_b2i] at this
      rw [← this]
      rfl
  · have e1 : Except.ok l = Except.ok (toBits x.size x.value) := (C156_list x _).1 hl
    injection e1 with e1
    subst e1
    cases hp : pySliceList (toBits x.size x.value) s <;> cases hs : x.getSlice s <;> rw [hp, hs] at key <;>
      simp_all [Except.map]

/-- `list(x.concat(y)) == list(x) + list(y)` -/
theorem C156_concat {x y z : BVal} (hx : x.WF) (hy : y.WF) (h : x.concat y = .ok z) {l l' : List Bool}
    (hl : Items x.getIdx 0 (.ok l)) (hl' : Items y.getIdx 0 (.ok l')) : Items z.getIdx 0 (.ok (l ++ l')) := by
  have hb := C14_bits hx hy h
  have e1 : Except.ok l = Except.ok (toBits x.size x.value) := (C156_list x _).1 hl
  have e2 : Except.ok l' = Except.ok (toBits y.size y.value) := (C156_list y _).1 hl'
  injection e1 with e1
  injection e2 with e2
  have hb' : toBits z.size z.value = toBits x.size x.value ++ toBits y.size y.value := by
    have := congrArg (List.map truthy) hb
    rwa [bits_eq, bits_eq, bits_eq, ← List.map_append, map_truthy_b2i, map_truthy_b2i] at this
  refine (C156_list z _).2 ?_
  rw [e1, e2, ← hb']
  rfl

/-- `list(x.repeat(r)) == list(x) * r` for `r ≥ 1` -/
theorem C156_repeat {x y : BVal} {r : Int} (h : x.repeat_ r = .ok y) {l : List Bool} (hl : Items x.getIdx 0 (.ok l)) :
    Items y.getIdx 0 (.ok (List.replicate r.toNat l).flatten) := by
  have e1 : Except.ok l = Except.ok (toBits x.size x.value) := (C156_list x _).1 hl
  injection e1 with e1
  have hr := C19_repeat x r
  split at hr
  · rw [hr] at h; cases h
  · obtain ⟨y', h', hk, hs, -, hb⟩ := hr
    cases h.symm.trans h'
    refine (C156_list y _).2 (congrArg Except.ok ?_)
    show _ = toBits y.size y.value
    have hlen : (List.replicate r.toNat (toBits x.size x.value)).flatten.length = y.size := by
      rw [flatten_replicate_length, length_toBits, hs]
    subst e1
    apply List.ext_getElem?
    intro j
    rw [getElem?_toBits]
    by_cases hj : j < y.size
    · have hpos : 0 < x.size := by
        rcases Nat.eq_zero_or_pos x.size with h0 | h0
        · rw [hs, h0] at hj; simp at hj
        · exact h0
      rw [if_pos hj, hb j hj, flatten_replicate_getElem? _ _ _ (by rw [length_toBits, ← hs]; exact hj), length_toBits,
        getElem?_toBits, if_pos (Nat.mod_lt _ hpos)]
    · rw [if_neg hj]
      exact List.getElem?_eq_none_iff.2 (by omega)

/-- `any(x)`: some bit is set; as `x != 0`. -/
theorem C156_any {x : BVal} (hx : x.WF) (r : PyM Bool) :
    Any x.getIdx Except.ok 0 r ↔ r = .ok (decide (x.value ≠ 0)) := by
  rw [(isSeq x).any 0 r, List.drop_zero, anyM_ok (test := Except.ok) (p := fun b => b) (fun _ => rfl)]
  have : (toBits x.size x.value).any (fun b => b) = decide (x.value ≠ 0) := by
    rw [Bool.eq_iff_iff, decide_eq_true_iff]
    simp only [toBits, List.any_map, List.any_eq_true, List.mem_range, Function.comp]
    constructor
    · rintro ⟨i, -, hi⟩ h
      rw [h, zero_bit] at hi
      cases hi
    · intro h
      by_contra hc
      exact h (value_ext hx ⟨le_refl _, by positivity⟩ fun i hi => by
        rw [zero_bit]
        cases hb : ibit x.value i
        · rfl
        · exact absurd ⟨i, hi, hb⟩ hc)
  rw [this]

/-- `all(x)`: all bits are set; as `x == 2**n - 1`. -/
theorem C156_all {x : BVal} (hx : x.WF) (r : PyM Bool) :
    All x.getIdx Except.ok 0 r ↔ r = .ok (decide (x.value = 2 ^ x.size - 1)) := by
  rw [(isSeq x).all 0 r, List.drop_zero, allM_ok (test := Except.ok) (p := fun b => b) (fun _ => rfl)]
  have : (toBits x.size x.value).all (fun b => b) = decide (x.value = 2 ^ x.size - 1) := by
    have hp : (1 : Int) ≤ 2 ^ x.size := by exact_mod_cast Nat.one_le_two_pow
    rw [Bool.eq_iff_iff, decide_eq_true_iff]
    simp only [toBits, List.all_map, List.all_eq_true, List.mem_range, Function.comp]
    constructor
    · intro h
      exact value_ext hx ⟨by omega, by omega⟩ fun i hi => by rw [h i hi, ibit_mask, decide_eq_true hi]
    · intro h i hi
      rw [h, ibit_mask, decide_eq_true hi]
  rw [this]

/-- `v in x` for a `Bit`, `bool`, `0` or `1` with truth value `b`: some bit is `b`. -/
theorem C156_in (x : BVal) {v : Obj} {b : Bool} (hv : bitLike? v = some b) (r : PyM Bool) :
    Any x.getIdx (eqTest v) 0 r ↔ r = .ok (decide (∃ i < x.size, ibit x.value i = b)) := by
  have ht : ∀ a, eqTest v a = .ok (decide (a = b)) := by
    intro a
    have := (C30_right a hv 0).2.2.2.1
    simp only [eqTest, this, bind, Except.bind, pure, Except.pure]
  rw [(isSeq x).any 0 r, List.drop_zero, anyM_ok ht]
  have : (toBits x.size x.value).any (fun a => decide (a = b)) = decide (∃ i < x.size, ibit x.value i = b) := by
    rw [Bool.eq_iff_iff]
    simp [toBits]
  rw [this]

/-- Any other int does not compare with a bit: `v in x` raises `ValueError`, unless there are no bits. -/
theorem C156_in_int {x : BVal} (hn : 0 < x.size) {v : Int} (h0 : v ≠ 0) (h1 : v ≠ 1) (r : PyM Bool) :
    Any x.getIdx (eqTest (.int v)) 0 r ↔ r = .error .valueError := by
  have ht : ∀ a, eqTest (.int v) a = .error .valueError := by
    intro a
    have := ((C30_rejects a 0).1 v h0 h1 .and (by simp)).2.2
    simp only [eqTest, this, bind, Except.bind]
  rw [(isSeq x).any 0 r, List.drop_zero]
  obtain ⟨a, l, h⟩ := toBits_cons hn
  rw [h, List.anyM, ht]
  rfl

/-- `sum(x)` raises `TypeError`: ints and bits cannot be added. -/
theorem C156_sum {x : BVal} (hn : 0 < x.size) (r : PyM Obj) :
    Fold x.getIdx addStep 0 (.int 0) r ↔ r = .error .typeError := by
  rw [(isSeq x).fold 0 _ r, List.drop_zero]
  obtain ⟨a, l, h⟩ := toBits_cons hn
  have ht : addStep (.int 0) a = .error .typeError := by
    have := (C30_arithmetic a 0 (op := .add) (by simp) (o := .int 0) (by simp)).2.2
    simp only [addStep, this, Except.map]
  rw [h, List.foldlM_cons, ht]
  rfl

/-- `for i, b in enumerate(x): x[i] = f(i, b)` gives every `f` the bit `x` had before the loop, and ends. -/
theorem C156_update {x : BVal} (hx : x.WF) {f : Nat → Bool → Obj} {g : Nat → Bool → Bool}
    (hf : ∀ i b, bitLike? (f i b) = some (g i b)) :
    ∃ z : BVal, z.kind = x.kind ∧ z.size = x.size ∧ z.WF ∧ (∀ k, k < x.size → ibit z.value k = g k (ibit x.value k)) ∧
      ∀ r, Update f 0 x r ↔ r = .ok z := by
  have key : ∀ (m i : Nat) (y : BVal), y.WF → y.size = i + m → ∃ z : BVal, z.kind = y.kind ∧ z.size = y.size ∧ z.WF ∧
      (∀ k, k < y.size → ibit z.value k = if k < i then ibit y.value k else g k (ibit y.value k)) ∧
      ∀ r, Update f i y r ↔ r = .ok z := by
    intro m
    induction m with
    | zero =>
      intro i y hy hs
      have hg : y.getIdx i = .error .indexError := (isSeq y).none (by rw [getElem?_toBits, if_neg (by omega)])
      refine ⟨y, rfl, rfl, hy, fun k hk => by rw [if_pos (by omega)], fun r => ⟨fun h => ?_, ?_⟩⟩
      · cases h with
        | stop => rfl
        | raise h he => cases hg.symm.trans h; exact absurd rfl he
        | error h => cases hg.symm.trans h
        | next h => cases hg.symm.trans h
      · rintro rfl
        exact .stop hg
    | succ m ih =>
      intro i y hy hs
      have hg : y.getIdx i = .ok (ibit y.value i) := (isSeq y).some (by rw [getElem?_toBits, if_pos (by omega)])
      have hi : pyIndex? y.size (i : Int) = some i := by
        unfold pyIndex?
        rw [if_pos ⟨by omega, by omega⟩]
        simp
      obtain ⟨w, hw, w1, w2, w3, w4⟩ := C16_setitem y hi (hf i (ibit y.value i))
      obtain ⟨z, z1, z2, z3, z4, z5⟩ := ih (i + 1) w w3 (by omega)
      refine ⟨z, z1.trans w1, z2.trans w2, z3, fun k hk => ?_, fun r => ⟨fun h => ?_, fun h => ?_⟩⟩
      · rw [z4 k (by omega), w4 k hk]
        by_cases h1 : k < i
        · rw [if_pos (by omega), if_neg (by omega), if_pos h1]
        · by_cases h2 : k = i
          · subst h2
            rw [if_pos (by omega), if_pos rfl, if_neg h1]
          · rw [if_neg (by omega), if_neg h2, if_neg h1]
      · cases h with
        | stop h => cases hg.symm.trans h
        | raise h he => cases hg.symm.trans h
        | error h h' => cases hg.symm.trans h; cases hw.symm.trans h'
        | next h h' h'' => cases hg.symm.trans h; cases hw.symm.trans h'; exact (z5 r).1 h''
      · exact .next hg hw ((z5 r).2 h)
  obtain ⟨z, z1, z2, z3, z4, z5⟩ := key x.size 0 x hx (by omega)
  exact ⟨z, z1, z2, z3, fun k hk => by rw [z4 k hk, if_neg (by omega)], z5⟩

/-! ### The symbolic families -/

/-- A symbolic vector of pysmt is a sequence of as many bits, which under every assignment are the bits of its value; it
can be listed, reversed and unpacked, and the list makes a vector of the same value. -/
theorem C156_smt (S : Smt.Simplifier) {x : Smt.SBV} {e₀ : Smt.Env} {X₀ : BVal} (h₀ : Smt.Den e₀ x X₀) :
    ∃ l : List Smt.Term, l.length = x.size ∧
      (∀ e X, Smt.Den e x X → List.Forall₂ (Smt.DenBit e) l ((List.range X.size).map (ibit X.value))) ∧
      (∀ r, Items (x.getIdx S) 0 r ↔ r = .ok l) ∧ PySeq.reversed (x.getIdx S) x.size = .ok l.reverse ∧
      (∀ k, unpack (x.getIdx S) k = if k = x.size then .ok l else .error .valueError) ∧
      (0 < x.size → ∃ y, Smt.mkSBV S x.kind x.size (.seq (l.map .bit)) = .ok y ∧ ∀ e X, Smt.Den e x X → Smt.Den e y X) := by
  obtain ⟨l, hl, H, hden⟩ := smt_seq S h₀
  refine ⟨l, hl, hden, fun r => H.items 0 r, ?_, fun k => hl ▸ H.unpack k, fun hn => ?_⟩
  · have := H.reversed (i := x.size) (by omega)
    rwa [List.take_of_length_le (by omega)] at this
  · have key : ∀ e X, Smt.Den e x X → ∃ y, Smt.mkSBV S x.kind x.size (.seq (l.map .bit)) = .ok y ∧ Smt.Den e y X := by
      intro e X h
      have h1 := C36_construct (S := S) (o := .seq (l.map .bit)) (O := .seq (toBits X.size X.value)) hn h.1
        (.seq (List.forall₂_map_left_iff.2 ((hden e X h).imp fun _ _ h => .bit h)))
        ⟨by simpa using hl, by simp⟩
      have h2 : mkBV X.kind X.size (.seq (toBits X.size X.value)) = .ok X :=
        (C156_roundtrip h.WF ((C156_list X _).2 rfl)).2
      rw [← h.2.1, h2] at h1
      rw [← h.2.1]
      cases hm : Smt.mkSBV S x.kind X.size (.seq (l.map .bit)) with
      | ok y => rw [hm] at h1; exact ⟨y, rfl, h1⟩
      | error e => rw [hm] at h1; exact h1.elim
    obtain ⟨y, hy, -⟩ := key e₀ X₀ h₀
    refine ⟨y, hy, fun e X h => ?_⟩
    obtain ⟨y', hy', h'⟩ := key e X h
    cases hy.symm.trans hy'
    exact h'

/-- `any`, `all` and `in` ask a symbolic bit for its truth value, which raises `TypeError`: `SMTBit.__eq__` gives an
`SMTBit`, whatever the test. -/
theorem C156_smt_truth (S : Smt.Simplifier) {x : Smt.SBV} {e₀ : Smt.Env} {X₀ : BVal} (h₀ : Smt.Den e₀ x X₀)
    (hn : 0 < x.size) (eq : Smt.Term → Smt.Term) (r : PyM Bool) :
    (Any (x.getIdx S) (fun b => (Circuit.sTruth S).bit (eq b)) 0 r ↔ r = .error .typeError) ∧
    (All (x.getIdx S) (Circuit.sTruth S).bit 0 r ↔ r = .error .typeError) := by
  obtain ⟨l, hl, H, -⟩ := smt_seq S h₀
  cases l with
  | nil => simp at hl; omega
  | cons a l => exact ⟨H.any 0 r, H.all 0 r⟩

/-- The same with z3. -/
theorem C156_z3 {x : Z3.ZBV} {e₀ : Z3.Env} {X₀ : BVal} (h₀ : Z3.Den e₀ x X₀) :
    ∃ l : List Z3.BoolE, l.length = x.size ∧
      (∀ e X, Z3.Den e x X → List.Forall₂ (Z3.DenBit e) l ((List.range X.size).map (ibit X.value))) ∧
      (∀ r, Items x.getIdx 0 r ↔ r = .ok l) ∧ PySeq.reversed x.getIdx x.size = .ok l.reverse ∧
      (∀ k, unpack x.getIdx k = if k = x.size then .ok l else .error .valueError) ∧
      ∃ y, Z3.mkZBV x.root x.size (.seq (l.map .bit)) = .ok y ∧ ∀ e X, Z3.Den e x X → Z3.Den e y X := by
  obtain ⟨l, hl, H, hden⟩ := z3_seq h₀
  refine ⟨l, hl, hden, fun r => H.items 0 r, ?_, fun k => hl ▸ H.unpack k, ?_⟩
  · have := H.reversed (i := x.size) (by omega)
    rwa [List.take_of_length_le (by omega)] at this
  · have key : ∀ e X, Z3.Den e x X → ∃ y, Z3.mkZBV x.root x.size (.seq (l.map .bit)) = .ok y ∧ Z3.Den e y X := by
      intro e X h
      have h1 := C94_construct (r := x.root) (o := .seq (l.map .bit)) (O := .seq (toBits X.size X.value)) h.2.2.1
        (.seq (List.forall₂_map_left_iff.2 ((hden e X h).imp fun _ _ h => .bit h)))
        ⟨by simpa using hl, by simp⟩
      have h2 : mkBV X.kind X.size (.seq (toBits X.size X.value)) = .ok X :=
        (C156_roundtrip h.WF ((C156_list X _).2 rfl)).2
      rw [← h.1, ← h.2.1, h2] at h1
      rw [← h.2.1]
      cases hm : Z3.mkZBV x.root X.size (.seq (l.map .bit)) with
      | ok y => rw [hm] at h1; exact ⟨y, rfl, h1⟩
      | error e => rw [hm] at h1; exact h1.elim
    obtain ⟨y, hy, -⟩ := key e₀ X₀ h₀
    refine ⟨y, hy, fun e X h => ?_⟩
    obtain ⟨y', hy', h'⟩ := key e X h
    cases hy.symm.trans hy'
    exact h'

/-- Python takes every `z3Bit` for true: `any(x)`, `all(x)` and `v in x` are `True` whatever the vector. -/
theorem C156_z3_truth_refuted {x : Z3.ZBV} {e₀ : Z3.Env} {X₀ : BVal} (h₀ : Z3.Den e₀ x X₀) (eq : Z3.BoolE → Z3.BoolE)
    (r : PyM Bool) :
    (Any x.getIdx (fun b => Circuit.zTruth.bit (eq b)) 0 r ↔ r = .ok true) ∧
    (All x.getIdx Circuit.zTruth.bit 0 r ↔ r = .ok true) := by
  obtain ⟨l, hl, H, -⟩ := z3_seq h₀
  have hn := h₀.2.2.1
  refine ⟨(H.any 0 r).trans ?_, (H.all 0 r).trans ?_⟩
  · have h1 : (l.drop 0).anyM (fun b => Circuit.zTruth.bit (eq b)) = .ok (l.any fun _ => true) :=
      anyM_ok (l := l) (p := fun _ => true) (fun _ => rfl)
    have h2 : (l.any fun _ => true) = true := by
      cases l with
      | nil => simp at hl; omega
      | cons a l => simp
    rw [h2] at h1
    exact ⟨fun h => h.trans h1, fun h => h.trans h1.symm⟩
  · have h1 : (l.drop 0).allM Circuit.zTruth.bit = .ok (l.all fun _ => true) :=
      allM_ok (l := l) (p := fun _ => true) (fun _ => rfl)
    have h2 : (l.all fun _ => true) = true := by simp
    rw [h2] at h1
    exact ⟨fun h => h.trans h1, fun h => h.trans h1.symm⟩

/-! ### Records -/

/-- A `Tuple` or `Product` is the sequence of its fields' values.  (It has no `__len__`, so `reversed` raises `TypeError`.) -/
theorem C156_tuple {h : Adt.Store} {r T a vs} (hr : h[r]? = some (.tup T a vs)) :
    (∀ s, Items (h.getItem r) 0 s ↔ s = .ok vs) ∧
    ∀ k, unpack (h.getItem r) k = if k = vs.length then .ok vs else .error .valueError := by
  have H : IsSeq (h.getItem r) vs := by
    intro i
    rcases Adt.getItem_eq hr (i : Int) with ⟨f1, f2, w, f3, f4⟩ | ⟨f1, f2⟩
    · rw [Int.emod_eq_of_lt (by omega) f2] at f3
      have f3 : vs[i]? = some w := f3
      rw [f4, f3]
      rfl
    · rw [f2, List.getElem?_eq_none_iff.2 (by omega)]
      rfl
  exact ⟨fun s => H.items 0 s, H.unpack⟩

/-! ### Instances -/

/-- `list(BitVector[3](6)) == [Bit(0), Bit(1), Bit(1)]` -/
example : Items (BVal.getIdx ⟨.root .bv, 3, 6⟩) 0 (.ok [false, true, true]) := (C156_list _ _).2 (by decide)

example : unpack (BVal.getIdx ⟨.root .bv, 3, 6⟩) 3 = .ok [false, true, true] ∧
    unpack (BVal.getIdx ⟨.root .bv, 3, 6⟩) 2 = .error .valueError ∧
    PySeq.reversed (BVal.getIdx ⟨.root .bv, 3, 6⟩) 3 = .ok [true, true, false] := by decide

/-- `list(x[::2]) == list(x)[::2]`, `list(x.concat(y)) == list(x) + list(y)`, `list(x.repeat(2)) == list(x) * 2` -/
example : let x : BVal := ⟨.root .bv, 3, 6⟩
    x.getSlice ⟨none, none, some 2⟩ = .ok ⟨.root .bv, 2, 2⟩ ∧
    pySliceList [false, true, true] ⟨none, none, some 2⟩ = .ok [false, true] ∧
    Items (BVal.getIdx ⟨.root .bv, 2, 2⟩) 0 (.ok [false, true]) ∧
    x.concat ⟨.root .bv, 2, 1⟩ = .ok ⟨.root .bv, 5, 14⟩ ∧
    Items (BVal.getIdx ⟨.root .bv, 5, 14⟩) 0 (.ok ([false, true, true] ++ [true, false])) ∧
    x.repeat_ 2 = .ok ⟨.root .bv, 6, 54⟩ ∧
    Items (BVal.getIdx ⟨.root .bv, 6, 54⟩) 0 (.ok (List.replicate 2 [false, true, true]).flatten) :=
  ⟨by decide, by decide, (C156_list _ _).2 (by decide), by decide, (C156_list _ _).2 (by decide), by decide,
    (C156_list _ _).2 (by decide)⟩

/-- A symbolic vector of width 8, listed. -/
example : ∃ l : List Smt.Term, l.length = 8 ∧ Items (symX.getIdx noSimp) 0 (.ok l) ∧
    Any (symX.getIdx noSimp) (fun b => (Circuit.sTruth noSimp).bit b) 0 (.error .typeError) := by
  have h : Smt.Den env200 symX ⟨.root .bv, 8, 200⟩ := ⟨rfl, rfl, 200#8, by decide, by decide⟩
  obtain ⟨l, h1, -, h2, -⟩ := C156_smt noSimp h
  exact ⟨l, h1, (h2 _).2 rfl, (C156_smt_truth noSimp h (by decide) id _).1.2 rfl⟩

example : ∃ l : List Z3.BoolE, l.length = 8 ∧ Items (zSym .bv 8 'x').getIdx 0 (.ok l) ∧
    All (zSym .bv 8 'x').getIdx Circuit.zTruth.bit 0 (.ok true) := by
  have h : Z3.Den zEnv9 (zSym .bv 8 'x') ⟨.root .bv, 8, 9⟩ := ⟨rfl, rfl, by decide, _, rfl, by decide⟩
  obtain ⟨l, h1, -, h2, -⟩ := C156_z3 h
  exact ⟨l, h1, (h2 _).2 rfl, (C156_z3_truth_refuted h id _).2.2 rfl⟩

/-- A record `t` of two fields: `list(t)`. -/
example : Items (Adt.Store.getItem [.leaf (.leaf (.cls 0)) 5, .leaf (.leaf (.cls 0)) 6,
    .tup (Adt.mkTuple (.user 0) [.leaf (.cls 0), .leaf (.cls 0)]) true [1, 0]] 2) 0 (.ok [1, 0]) :=
  ((C156_tuple (a := true) (vs := [1, 0]) rfl).1 _).2 rfl

/-- `any(x)`, not `all(x)`; `1 in x`; `2 in x` raises. -/
example : let x : BVal := ⟨.root .bv, 3, 6⟩
    Any x.getIdx Except.ok 0 (.ok true) ∧ All x.getIdx Except.ok 0 (.ok false) ∧ Any x.getIdx (eqTest (.int 1)) 0 (.ok true) ∧
    Any x.getIdx (eqTest (.int 2)) 0 (.error .valueError) ∧ Fold x.getIdx addStep 0 (.int 0) (.error .typeError) :=
  ⟨(C156_any (by decide) _).2 (by decide), (C156_all (by decide) _).2 (by decide), (C156_in _ (b := true) rfl _).2 (by decide),
    (C156_in_int (by decide) (by decide) (by decide) _).2 rfl, (C156_sum (by decide) _).2 rfl⟩

/-- `for i, b in enumerate(x): x[i] = ~b` complements `x`. -/
example : Update (fun _ b => .bit (!b)) 0 ⟨.root .bv, 3, 6⟩ (.ok ⟨.root .bv, 3, 1⟩) :=
  .next (b := false) (y := ⟨.root .bv, 3, 7⟩) (by decide) (by decide) <|
  .next (b := true) (y := ⟨.root .bv, 3, 5⟩) (by decide) (by decide) <|
  .next (b := true) (y := ⟨.root .bv, 3, 1⟩) (by decide) (by decide) <| .stop (by decide)

end HW
