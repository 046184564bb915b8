import Verif.Lemmas.BV

/-! Lemmas about Python slices and `__getitem__`. -/

namespace HW
open Spec

theorem pySliceList_map {α β : Type} (f : α → β) (l : List α) (s : PySlice) :
    pySliceList (l.map f) s = (pySliceList l s).map (List.map f) := by
  unfold pySliceList
  rw [List.length_map]
  cases h : s.indices l.length with
  | error e => simp [bind, Except.bind, Except.map]
  | ok t =>
    simp only [bind, Except.bind, pure, Except.pure, Except.map, List.map_filterMap,
      List.getElem?_map]

theorem ediv_succ_mul {m s : Int} (hs : 0 < s) {j : Nat} :
    (j : Int) < m / s + 1 ↔ j * s ≤ m := by
  rw [Int.lt_add_one_iff, Int.le_ediv_iff_mul_le hs]

/-- Members of `range(a, b, s)`: exactly the positions `a + j*s` not past `b`. -/
theorem lt_rangeLen {a b s : Int} (j : Nat) :
    j < rangeLen a b s ↔ (0 < s ∧ a + j * s < b) ∨ (s < 0 ∧ b < a + j * s) := by
  unfold rangeLen
  by_cases h : 0 < s
  · simp only [h, if_true, true_and, show ¬ s < 0 by omega, false_and, or_false]
    by_cases h2 : a < b
    · rw [if_pos h2]
      have := ediv_succ_mul (m := b - a - 1) h (j := j)
      have h3 : 0 ≤ (b - a - 1) / s := Int.ediv_nonneg (by omega) (by omega)
      omega
    · rw [if_neg h2]
      have : (0 : Int) ≤ j * s := Int.mul_nonneg (by omega) (by omega)
      omega
  · by_cases h1 : s < 0
    · simp only [h, if_false, h1, if_true, true_and, false_and, false_or]
      by_cases h2 : b < a
      · rw [if_pos h2]
        have := ediv_succ_mul (m := a - b - 1) (s := -s) (by omega) (j := j)
        have h3 : 0 ≤ (a - b - 1) / -s := Int.ediv_nonneg (by omega) (by omega)
        rw [Int.mul_neg] at this
        omega
      · rw [if_neg h2]
        have : (j : Int) * s ≤ 0 := by nlinarith
        omega
    · simp only [h, h1, if_false, false_and, or_false, Nat.not_lt_zero]

/-- Bounds produced by `slice.indices`. -/
theorem indices_bounds {s : PySlice} {n : Nat} {a b st : Int} (h : s.indices n = .ok (a, b, st)) :
    st ≠ 0 ∧ st = s.step.getD 1 ∧
    (0 < st → 0 ≤ a ∧ a ≤ n ∧ 0 ≤ b ∧ b ≤ n) ∧
    (st < 0 → -1 ≤ a ∧ a < n ∧ -1 ≤ b ∧ b < n) := by
  unfold PySlice.indices at h
  simp only at h
  split at h
  · simp at h
  · rename_i h0
    simp only [Except.ok.injEq, Prod.mk.injEq] at h
    obtain ⟨ha, hb, hs⟩ := h
    refine ⟨by omega, by omega, ?_, ?_⟩
    · intro hp
      have hn : ¬ s.step.getD 1 < 0 := by omega
      simp only [hn, if_false, clampBound] at ha hb
      constructor
      · split at ha
        · omega
        · split at ha <;> omega
      constructor
      · split at ha
        · omega
        · split at ha <;> omega
      constructor
      · split at hb
        · omega
        · split at hb <;> omega
      · split at hb
        · omega
        · split at hb <;> omega
    · intro hp
      have hn : s.step.getD 1 < 0 := by omega
      simp only [hn, if_true, clampBound] at ha hb
      refine ⟨?_, ?_, ?_, ?_⟩
      · split at ha
        · omega
        · split at ha <;> omega
      · split at ha
        · omega
        · split at ha <;> omega
      · split at hb
        · omega
        · split at hb <;> omega
      · split at hb
        · omega
        · split at hb <;> omega

/-- Every index a slice visits lies inside the list, so the model's total lookup never skips. -/
theorem indices_in_range {s : PySlice} {n : Nat} {a b st : Int}
    (h : s.indices n = .ok (a, b, st)) {j : Nat} (hj : j < rangeLen a b st) :
    0 ≤ a + j * st ∧ a + j * st < n := by
  obtain ⟨h0, -, hp, hn⟩ := indices_bounds h
  rw [lt_rangeLen] at hj
  rcases hj with ⟨h1, h2⟩ | ⟨h1, h2⟩
  · have := hp h1
    have : (0 : Int) ≤ j * st := Int.mul_nonneg (by omega) (by omega)
    omega
  · have := hn h1
    have : (j : Int) * st ≤ 0 := by nlinarith
    omega

theorem filterMap_range_total {α : Type} (f : Nat → Option α) (n : Nat)
    (h : ∀ j, j < n → (f j).isSome) :
    ((List.range n).filterMap f).length = n ∧
      ∀ j, j < n → ((List.range n).filterMap f)[j]? = f j := by
  induction n with
  | zero => simp
  | succ n ih =>
    obtain ⟨ih1, ih2⟩ := ih (fun j hj => h j (by omega))
    obtain ⟨v, hv⟩ := Option.isSome_iff_exists.mp (h n (by omega))
    have e : (List.range (n + 1)).filterMap f = (List.range n).filterMap f ++ [v] := by
      simp [List.range_succ, List.filterMap_append, hv]
    rw [e]
    refine ⟨by simp [ih1], fun j hj => ?_⟩
    by_cases hjn : j < n
    · rw [List.getElem?_append_left (by omega), ih2 j hjn]
    · have : j = n := by omega
      subst this
      rw [List.getElem?_append_right (by omega), ih1, hv]; simp

theorem pySliceList_eq {α : Type} {l : List α} {s : PySlice} {a b st : Int}
    (h : s.indices l.length = .ok (a, b, st)) :
    ∃ r, pySliceList l s = .ok r ∧ r.length = rangeLen a b st ∧
      ∀ j, j < rangeLen a b st → r[j]? = l[(a + j * st).toNat]? := by
  refine ⟨_, by simp [pySliceList, h, bind, Except.bind, pure, Except.pure]; rfl, ?_⟩
  unfold pyRange
  rw [List.filterMap_map]
  have := filterMap_range_total (fun j : Nat => l[(a + (j : Int) * st).toNat]?) (rangeLen a b st)
    (fun j hj => by
      have := indices_in_range h hj
      simp; omega)
  simpa [Function.comp_def] using this

theorem pySliceList_error {α : Type} {l : List α} {s : PySlice} {e : PyErr}
    (h : s.indices l.length = .error e) : pySliceList l s = .error e := by
  simp [pySliceList, h, bind, Except.bind]

/-- Step-1 slices are `take`/`drop`. -/
theorem pySliceList_step1 {α : Type} (l : List α) (sa sb : Option Int) :
    pySliceList l ⟨sa, sb, none⟩ =
      .ok ((l.take ((sb.map (slicePos l.length)).getD l.length)).drop
            ((sa.map (slicePos l.length)).getD 0)) := by
  let n := l.length
  let a : Int := match sa with | none => 0 | some b => clampBound n 0 n b
  let b : Int := match sb with | none => n | some b => clampBound n 0 n b
  have h : (PySlice.mk sa sb none).indices l.length = .ok (a, b, 1) := by
    simp only [PySlice.indices, a, b, n]; cases sa <;> cases sb <;> simp
  obtain ⟨r, hr, hlen, hget⟩ := pySliceList_eq h
  rw [hr]
  congr 1
  have hb := indices_bounds h
  have h1 : 0 ≤ a ∧ a ≤ l.length ∧ 0 ≤ b ∧ b ≤ l.length := hb.2.2.1 (by omega)
  have ea : a.toNat = min ((sa.map (slicePos l.length)).getD 0) l.length := by
    simp only [a, n]
    cases sa with
    | none => simp
    | some i => simp only [clampBound, slicePos, Option.map_some, Option.getD_some]; split <;> omega
  have eb : b.toNat = min ((sb.map (slicePos l.length)).getD l.length) l.length := by
    simp only [b, n]
    cases sb with
    | none => simp
    | some i => simp only [clampBound, slicePos, Option.map_some, Option.getD_some]; split <;> omega
  generalize (sa.map (slicePos l.length)).getD 0 = A at *
  generalize (sb.map (slicePos l.length)).getD l.length = B at *
  have hl : rangeLen a b 1 = b.toNat - a.toNat := by
    unfold rangeLen; simp; split <;> omega
  apply List.ext_getElem?
  intro i
  rw [List.getElem?_drop, List.getElem?_take]
  by_cases hi : i < rangeLen a b 1
  · rw [hget i hi, if_pos (by omega)]
    congr 1; omega
  · rw [List.getElem?_eq_none (by omega)]
    split
    · rw [List.getElem?_eq_none (by omega)]
    · rfl

/-- `l[::-1]` reverses. -/
theorem pySliceList_reverse {α : Type} (l : List α) :
    pySliceList l ⟨none, none, some (-1)⟩ = .ok l.reverse := by
  have h : (PySlice.mk none none (some (-1))).indices l.length
      = .ok ((l.length : Int) - 1, -1, -1) := by simp [PySlice.indices]
  obtain ⟨r, hr, hlen, hget⟩ := pySliceList_eq h
  rw [hr]
  congr 1
  have hl : rangeLen ((l.length : Int) - 1) (-1) (-1) = l.length := by
    unfold rangeLen; simp; intro h; simp [h]
  rw [hl] at hlen hget
  apply List.ext_getElem?
  intro i
  by_cases hi : i < l.length
  · rw [hget i hi, List.getElem?_reverse hi]
    congr 1; omega
  · rw [List.getElem?_eq_none (by omega), List.getElem?_eq_none (by simp; omega)]

theorem map_truthy_b2i (l : List Bool) : (l.map b2i).map truthy = l := by
  simp [Function.comp_def, truthy_b2i]

theorem mkBV_seq (k : Kind) (l : List Bool) :
    mkBV k l.length (.seq l) = .ok ⟨k, l.length, ofBits l⟩ := by
  rw [mkBV_eq]
  have := ofBits_bounds l
  simp [Obj.denotes, Int.emod_eq_of_lt this.1 this.2]

/-- `x[s]` is the vector of the sliced bit list. -/
theorem getSlice_eq (x : BVal) (s : PySlice) :
    x.getSlice s = (pySliceList (toBits x.size x.value) s).map
      fun l => ⟨x.kind, l.length, ofBits l⟩ := by
  unfold BVal.getSlice
  rw [bits_eq, pySliceList_map]
  cases pySliceList (toBits x.size x.value) s with
  | error e => simp [Except.map, bind, Except.bind]
  | ok l =>
    simp only [Except.map, bind, Except.bind, map_truthy_b2i, List.length_map]
    exact mkBV_seq _ _

theorem concat_eq {x y : BVal} (hx : x.WF) (hy : y.WF) :
    x.concat y = if y.kind.isSub x.kind then
        .ok ⟨x.kind, x.size + y.size, x.value + y.value * 2 ^ x.size⟩
      else .error .typeError := by
  unfold BVal.concat
  by_cases h : y.kind.isSub x.kind = true
  · simp only [h, not_true, if_false, if_true, pyShl]
    rw [if_neg (by omega)]
    simp only [bind, Except.bind, mkBV_int, Int.toNat_natCast]
    rw [pyOr_add hx.1 hx.2, Int.emod_eq_of_lt]
    · have := two_pow_pos x.size
      have := hx.1; have := hy.1
      nlinarith
    · have := two_pow_pos x.size
      rw [Int.pow_add]
      have := hx.2; have := hy.2
      nlinarith
  · simp [h]

theorem Root.isSub_refl (r : Root) : r.isSub r = true := by cases r <;> rfl

theorem Kind.isSub_refl (k : Kind) : k.isSub k = true := by
  cases k <;> simp [Kind.isSub, Root.isSub_refl, Kind.base]

end HW
