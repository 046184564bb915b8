import Verif.Model.Sequence
import Verif.Lemmas.BV

/-! # Python's sequence protocols on an object that behaves as a list -/

namespace HW.PySeq
open HW

variable {α : Type}

/-- `__getitem__` of a list, for the ints that are not negative -/
def IsSeq (get : Int → PyM α) (l : List α) : Prop := ∀ i : Nat, get i = (l[i]?).elim (.error .indexError) .ok

theorem IsSeq.some {get : Int → PyM α} {l : List α} (H : IsSeq get l) {i : Nat} {a : α} (h : l[i]? = some a) :
    get i = .ok a := by rw [H, h]; rfl

theorem IsSeq.none {get : Int → PyM α} {l : List α} (H : IsSeq get l) {i : Nat} (h : l[i]? = none) :
    get i = .error .indexError := by rw [H, h]; rfl

theorem drop_cons {l : List α} {i : Nat} {a : α} (h : l[i]? = some a) : l.drop i = a :: l.drop (i + 1) := by
  obtain ⟨hlt, rfl⟩ := List.getElem?_eq_some_iff.1 h
  exact List.drop_eq_getElem_cons hlt

theorem drop_nil {l : List α} {i : Nat} (h : l[i]? = none) : l.drop i = [] :=
  List.drop_eq_nil_of_le (List.getElem?_eq_none_iff.1 h)

/-- Induction from the end of the list. -/
theorem back {l : List α} {P : Nat → Prop} (hn : ∀ i, l[i]? = none → P i) (hs : ∀ i a, l[i]? = some a → P (i + 1) → P i)
    (i : Nat) : P i := by
  induction hk : l.length - i generalizing i with
  | zero => exact hn i (List.getElem?_eq_none_iff.2 (by omega))
  | succ k ih => exact hs i l[i] (List.getElem?_eq_getElem (by omega)) (ih (i + 1) (by omega))

theorem IsSeq.items {get : Int → PyM α} {l : List α} (H : IsSeq get l) (i : Nat) (r : PyM (List α)) :
    Items get i r ↔ r = .ok (l.drop i) := by
  revert r
  refine back (l := l) (P := fun i => ∀ r, Items get i r ↔ r = .ok (l.drop i)) (fun i hi r => ?_) (fun i a hi ih r => ?_) i
  · have hg := H.none hi
    rw [drop_nil hi]
    constructor
    · intro h
      cases h with
      | stop => rfl
      | raise h he => cases hg.symm.trans h; exact absurd rfl he
      | next h => cases hg.symm.trans h
    · rintro rfl
      exact .stop hg
  · have hg := H.some hi
    rw [drop_cons hi]
    constructor
    · intro h
      cases h with
      | stop h => cases hg.symm.trans h
      | raise h he => cases hg.symm.trans h
      | next h h' =>
        cases hg.symm.trans h
        rw [(ih _).1 h']
        rfl
    · rintro rfl
      exact .next (r := .ok (l.drop (i + 1))) hg ((ih _).2 rfl)

theorem IsSeq.reversed {get : Int → PyM α} {l : List α} (H : IsSeq get l) {i : Nat} (hi : i ≤ l.length) :
    reversed get i = .ok (l.take i).reverse := by
  induction i with
  | zero => rfl
  | succ i ih =>
    have h : l[i]? = Option.some l[i] := List.getElem?_eq_getElem (by omega)
    simp only [PySeq.reversed, H.some h, ih (by omega), List.take_add_one, h, Option.toList_some, List.reverse_append,
      List.reverse_singleton]
    rfl

theorem IsSeq.take {get : Int → PyM α} {l : List α} (H : IsSeq get l) (i k : Nat) :
    take get i k = if i + k ≤ l.length ∨ k = 0 then .ok ((l.drop i).take k) else .error .valueError := by
  induction k generalizing i with
  | zero => simp [PySeq.take]
  | succ k ih =>
    cases h : l[i]? with
    | none =>
      have := List.getElem?_eq_none_iff.1 h
      rw [if_neg (by omega)]
      simp only [PySeq.take, H.none h]
    | some a =>
      obtain ⟨hlt, -⟩ := List.getElem?_eq_some_iff.1 h
      simp only [PySeq.take, H.some h, ih (i + 1), drop_cons h, List.take_succ_cons]
      by_cases hk : i + (k + 1) ≤ l.length
      · rw [if_pos (by omega), if_pos (by omega)]
        rfl
      · rw [if_neg (by omega), if_neg (by omega)]
        rfl

theorem IsSeq.unpack {get : Int → PyM α} {l : List α} (H : IsSeq get l) (k : Nat) :
    unpack get k = if k = l.length then .ok l else .error .valueError := by
  simp only [PySeq.unpack, H.take 0 k, Nat.zero_add, List.drop_zero]
  by_cases h1 : k = l.length
  · subst h1
    rw [if_pos (.inl (Nat.le_refl _)), if_pos rfl]
    simp only [bind, Except.bind, H.none (i := l.length) (by simp), List.take_length, pure, Except.pure]
  · rw [if_neg h1]
    by_cases h2 : k ≤ l.length
    · rw [if_pos (.inl h2)]
      simp only [bind, Except.bind, H.some (i := k) (List.getElem?_eq_getElem (by omega))]
    · rw [if_neg (by omega)]
      rfl

theorem IsSeq.any {get : Int → PyM α} {l : List α} (H : IsSeq get l) {test : α → PyM Bool} (i : Nat) (r : PyM Bool) :
    Any get test i r ↔ r = (l.drop i).anyM test := by
  revert r
  refine back (l := l) (P := fun i => ∀ r, Any get test i r ↔ r = (l.drop i).anyM test) (fun i hi r => ?_)
    (fun i a hi ih r => ?_) i
  · have hg := H.none hi
    rw [drop_nil hi]
    constructor
    · intro h
      cases h with
      | stop => rfl
      | raise h he => cases hg.symm.trans h; exact absurd rfl he
      | _ h => cases hg.symm.trans h
    · rintro rfl
      exact .stop hg
  · have hg := H.some hi
    rw [drop_cons hi, List.anyM]
    constructor
    · intro h
      cases h with
      | stop h => cases hg.symm.trans h
      | raise h he => cases hg.symm.trans h
      | test h h' => cases hg.symm.trans h; rw [h']; rfl
      | hit h h' => cases hg.symm.trans h; rw [h']; rfl
      | next h h' h'' => cases hg.symm.trans h; rw [h']; exact (ih _).1 h''
    · rintro rfl
      cases ht : test a with
      | error e => exact .test hg ht
      | ok b =>
        cases b with
        | true => exact .hit hg ht
        | false => exact .next hg ht ((ih _).2 rfl)

theorem IsSeq.all {get : Int → PyM α} {l : List α} (H : IsSeq get l) {test : α → PyM Bool} (i : Nat) (r : PyM Bool) :
    All get test i r ↔ r = (l.drop i).allM test := by
  revert r
  refine back (l := l) (P := fun i => ∀ r, All get test i r ↔ r = (l.drop i).allM test) (fun i hi r => ?_)
    (fun i a hi ih r => ?_) i
  · have hg := H.none hi
    rw [drop_nil hi]
    constructor
    · intro h
      cases h with
      | stop => rfl
      | raise h he => cases hg.symm.trans h; exact absurd rfl he
      | _ h => cases hg.symm.trans h
    · rintro rfl
      exact .stop hg
  · have hg := H.some hi
    rw [drop_cons hi, List.allM]
    constructor
    · intro h
      cases h with
      | stop h => cases hg.symm.trans h
      | raise h he => cases hg.symm.trans h
      | test h h' => cases hg.symm.trans h; rw [h']; rfl
      | miss h h' => cases hg.symm.trans h; rw [h']; rfl
      | next h h' h'' => cases hg.symm.trans h; rw [h']; exact (ih _).1 h''
    · rintro rfl
      cases ht : test a with
      | error e => exact .test hg ht
      | ok b =>
        cases b with
        | true => exact .next hg ht ((ih _).2 rfl)
        | false => exact .miss hg ht

theorem IsSeq.fold {β : Type} {get : Int → PyM α} {l : List α} (H : IsSeq get l) {f : β → α → PyM β} (i : Nat) (b : β)
    (r : PyM β) : Fold get f i b r ↔ r = (l.drop i).foldlM f b := by
  revert b r
  refine back (l := l) (P := fun i => ∀ b r, Fold get f i b r ↔ r = (l.drop i).foldlM f b) (fun i hi b r => ?_)
    (fun i a hi ih b r => ?_) i
  · have hg := H.none hi
    rw [drop_nil hi]
    constructor
    · intro h
      cases h with
      | stop => rfl
      | raise h he => cases hg.symm.trans h; exact absurd rfl he
      | _ h => cases hg.symm.trans h
    · rintro rfl
      exact .stop hg
  · have hg := H.some hi
    rw [drop_cons hi, List.foldlM_cons]
    constructor
    · intro h
      cases h with
      | stop h => cases hg.symm.trans h
      | raise h he => cases hg.symm.trans h
      | error h h' => cases hg.symm.trans h; rw [h']; rfl
      | next h h' h'' => cases hg.symm.trans h; rw [h']; exact (ih _ _).1 h''
    · rintro rfl
      cases ht : f b a with
      | error e => exact .error hg ht
      | ok c => exact .next hg ht ((ih _ _).2 rfl)

/-- An object whose `__getitem__` gives something at `0, …, n - 1` and raises `IndexError` from there on. -/
theorem exists_seq {get : Int → PyM α} {n : Nat} (h1 : ∀ i : Nat, i < n → ∃ a, get i = .ok a)
    (h2 : ∀ i : Nat, n ≤ i → get i = .error .indexError) : ∃ l : List α, l.length = n ∧ IsSeq get l := by
  choose f hf using h1
  refine ⟨List.ofFn fun i : Fin n => f i i.2, by simp, fun i => ?_⟩
  by_cases hi : i < n
  · rw [hf i hi, List.getElem?_ofFn, dif_pos hi]
    rfl
  · rw [h2 i (by omega), List.getElem?_ofFn, dif_neg hi]
    rfl

theorem anyM_ok {l : List α} {test : α → PyM Bool} {p : α → Bool} (h : ∀ a, test a = .ok (p a)) :
    l.anyM test = .ok (l.any p) := by
  induction l with
  | nil => rfl
  | cons a l ih =>
    rw [List.anyM, h, List.any_cons]
    cases p a
    · exact ih
    · rfl

theorem allM_ok {l : List α} {test : α → PyM Bool} {p : α → Bool} (h : ∀ a, test a = .ok (p a)) :
    l.allM test = .ok (l.all p) := by
  induction l with
  | nil => rfl
  | cons a l ih =>
    rw [List.allM, h, List.all_cons]
    cases p a
    · rfl
    · exact ih

end HW.PySeq
