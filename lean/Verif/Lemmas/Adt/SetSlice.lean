import Verif.Lemmas.Slice
import Verif.Model.Adt.Heap

/-! # Assignment to a slice of a list -/

namespace HW.Adt
open HW

variable {α : Type}

theorem set_fold : ∀ (n : Nat) (f : Nat → Nat) (items v : List α), (∀ j, j < n → f j < v.length) →
    (∀ i j, i < n → j < n → f i = f j → i = j) → items.length = n →
    (((((List.range n).map f).zip items).foldl (fun l p => l.set p.1 p.2) v).length = v.length ∧
      (∀ j, j < n → (((((List.range n).map f).zip items).foldl (fun l p => l.set p.1 p.2) v))[f j]? = items[j]?) ∧
      ∀ i, (∀ j, j < n → i ≠ f j) → (((((List.range n).map f).zip items).foldl (fun l p => l.set p.1 p.2) v))[i]? = v[i]?)
  | 0, f, items, v, _, _, _ => by simp
  | n + 1, f, items, v, h1, h2, hl => by
    obtain ⟨x, xs, rfl⟩ : ∃ x xs, items = xs ++ [x] := by
      refine ⟨items.getLast (by intro h; simp [h] at hl), items.dropLast, ?_⟩
      rw [List.dropLast_append_getLast]
    have hx : xs.length = n := by simpa using hl
    obtain ⟨i1, i2, i3⟩ := set_fold n f xs v (fun j hj => h1 j (by omega)) (fun i j hi hj => h2 i j (by omega) (by omega)) hx
    have e : ((List.range (n + 1)).map f).zip (xs ++ [x]) = ((List.range n).map f).zip xs ++ [(f n, x)] := by
      rw [List.range_succ, List.map_append, List.zip_append (by simp [hx])]
      rfl
    rw [e, List.foldl_append]
    simp only [List.foldl_cons, List.foldl_nil]
    refine ⟨by rw [List.length_set, i1], fun j hj => ?_, fun i hi => ?_⟩
    · by_cases hjn : j = n
      · subst hjn
        rw [List.getElem?_set_self (by rw [i1]; exact h1 j (by omega)), List.getElem?_append_right (by omega)]
        simp [hx]
      · have : f n ≠ f j := fun h => hjn (h2 n j (by omega) (by omega) h).symm
        rw [List.getElem?_set_ne this, i2 j (by omega), List.getElem?_append_left (by omega)]
    · rw [List.getElem?_set_ne (fun h => hi n (by omega) h.symm), i3 i fun j hj => hi j (by omega)]

/-- `v[s] = items` with as many items as `v[s]` has. -/
theorem setSlice_points {v items v' : List α} {s : PySlice} {a b st : Int} (hi : s.indices v.length = .ok (a, b, st))
    (h : pySetSlice v s items = .ok v') (hl : rangeLen a b st = items.length) :
    v'.length = v.length ∧ (∀ j, j < items.length → v'[(a + j * st).toNat]? = items[j]?) ∧
      ∀ i, (∀ j : Nat, j < items.length → i ≠ (a + j * st).toNat) → v'[i]? = v[i]? := by
  obtain ⟨hst, -, hp, hn⟩ := indices_bounds hi
  simp only [pySetSlice, hi, bind, Except.bind] at h
  by_cases h1 : st = 1
  · subst h1
    simp only [if_true, pure, Except.pure, Except.ok.injEq] at h
    obtain ⟨q1, q2, q3, q4⟩ := hp (by decide)
    subst h
    have hr : items.length = b.toNat - a.toNat := by
      rw [← hl]; unfold rangeLen; simp; split <;> omega
    have ht : (v.take a.toNat).length = a.toNat := by rw [List.length_take]; omega
    refine ⟨?_, fun j hj => ?_, fun i hne => ?_⟩
    · simp only [List.length_append, ht, List.length_drop]
      omega
    · have e : (a + j * 1).toNat = a.toNat + j := by omega
      rw [e, List.append_assoc, List.getElem?_append_right (by omega), ht, List.getElem?_append_left (by omega)]
      congr 1; omega
    · by_cases hia : i < a.toNat
      · rw [List.append_assoc, List.getElem?_append_left (by omega), List.getElem?_take_of_lt hia]
      · have hge : a.toNat + items.length ≤ i := by
          by_contra hc
          exact hne (i - a.toNat) (by omega) (by omega)
        rw [List.getElem?_append_right (by simp only [List.length_append, ht]; omega), List.getElem?_drop]
        simp only [List.length_append, ht]
        congr 1; omega
  · simp only [if_neg h1] at h
    have hlen : (pyRange a b st).length = items.length := by simp [pyRange, hl]
    simp only [hlen, ne_eq, not_true_eq_false, if_false, pure, Except.pure, Except.ok.injEq] at h
    have e : ((pyRange a b st).zip items).foldl (fun l p => l.set p.1.toNat p.2) v =
        (((List.range items.length).map fun j : Nat => (a + (j : Int) * st).toNat).zip items).foldl (fun l p => l.set p.1 p.2) v := by
      rw [pyRange, hl, List.zip_map_left, List.zip_map_left, List.foldl_map, List.foldl_map]
      rfl
    rw [e] at h
    subst h
    refine set_fold items.length (fun j => (a + (j : Int) * st).toNat) items v (fun j hj => ?_) (fun i j h3 h4 h5 => ?_) rfl
    · have := indices_in_range hi (j := j) (by omega)
      omega
    · have hi1 := indices_in_range hi (j := i) (by omega)
      have hj1 := indices_in_range hi (j := j) (by omega)
      have : (i : Int) * st = j * st := by omega
      have := Int.eq_of_mul_eq_mul_right hst this
      omega

/-- … reads back as `items`, and nothing else changes. -/
theorem setSlice_spec {v items v' old : List α} {s : PySlice} {pos : List Nat} (h : pySetSlice v s items = .ok v')
    (ho : pySliceList v s = .ok old) (hl : old.length = items.length) (hp : pySliceList (List.range v.length) s = .ok pos) :
    v'.length = v.length ∧ pySliceList v' s = .ok items ∧ ∀ i, i ∉ pos → v'[i]? = v[i]? := by
  cases hi : s.indices v.length with
  | error e => rw [pySliceList_error hi] at ho; cases ho
  | ok p =>
    obtain ⟨a, b, st⟩ := p
    obtain ⟨r, r1, r2, r3⟩ := pySliceList_eq hi
    rw [r1] at ho
    cases ho
    obtain ⟨h1, h2, h3⟩ := setSlice_points hi h (by omega)
    refine ⟨h1, ?_, fun i hne => h3 i fun j hj => ?_⟩
    · rw [← h1] at hi
      obtain ⟨q, q1, q2, q3⟩ := pySliceList_eq (l := v') hi
      rw [q1]
      congr 1
      apply List.ext_getElem?
      intro j
      by_cases hj : j < items.length
      · rw [q3 j (by omega), h2 j hj]
      · rw [List.getElem?_eq_none (by omega), List.getElem?_eq_none (by omega)]
    · rintro rfl
      have hi' : s.indices (List.range v.length).length = .ok (a, b, st) := by rw [List.length_range]; exact hi
      obtain ⟨q, q1, q2, q3⟩ := pySliceList_eq hi'
      rw [q1] at hp
      cases hp
      have hb := indices_in_range hi (j := j) (by omega)
      have := q3 j (by omega)
      rw [List.getElem?_range (by omega)] at this
      exact hne (List.mem_of_getElem? this)

/-- With a step it needs as many items as positions; without one it always succeeds. -/
theorem setSlice_ok {v items old : List α} {s : PySlice} (ho : pySliceList v s = .ok old) :
    (∃ v', pySetSlice v s items = .ok v') ↔ (s.step.getD 1 = 1 ∨ old.length = items.length) := by
  cases hi : s.indices v.length with
  | error e => rw [pySliceList_error hi] at ho; cases ho
  | ok p =>
    obtain ⟨a, b, st⟩ := p
    obtain ⟨r, r1, r2, -⟩ := pySliceList_eq hi
    rw [r1] at ho
    cases ho
    obtain ⟨-, hs, -⟩ := indices_bounds hi
    rw [← hs]
    have hlen : (pyRange a b st).length = old.length := by simp [pyRange, r2]
    simp only [pySetSlice, hi, bind, Except.bind, pure, Except.pure, hlen]
    by_cases h1 : st = 1
    · simp [h1]
    · by_cases h2 : old.length = items.length <;> simp [h1, h2]

end HW.Adt
