import Verif.Lemmas.Slice

/-! Canonical forms of the vector methods. -/

namespace HW
open Spec

theorem coerce_eq (k : Kind) (n : Nat) (o : Obj) :
    (∃ y, coerce k n o = .ok y ∧ operand n o = .ok y.value ∧ y.size = n ∧ (o.WF → y.WF) ∧
      (∀ b, o = .bv b → y = b) ∧ ((∀ b, o ≠ .bv b) → y.kind = k)) ∨
    (∃ e, coerce k n o = .error e ∧ operand n o = .error e) := by
  cases o with
  | bv b =>
    by_cases h : b.size = n
    · left; exact ⟨b, by simp [coerce, h], by simp [operand, h], h, fun h => h, by simp, by simp⟩
    · right; exact ⟨_, by simp [coerce, h]; rfl, by simp [operand, h]⟩
  | other i b =>
    cases i with
    | none => right; exact ⟨.typeError, by simp [coerce, mkBV_eq, Obj.denotes], by simp [operand, Obj.denotes]⟩
    | some v => left; exact ⟨⟨k, n, v % 2 ^ n⟩, by simp [coerce, mkBV_eq, Obj.denotes],
        by simp [operand, Obj.denotes, wrap], rfl, fun _ => mod_WF _ _ _, by simp, by simp⟩
  | int v => left; exact ⟨⟨k, n, v % 2 ^ n⟩, by simp [coerce],
      by simp [operand, Obj.denotes, wrap], rfl, fun _ => mod_WF _ _ _, by simp, by simp⟩
  | bool c => left; exact ⟨⟨k, n, (if c then 1 else 0) % 2 ^ n⟩, by simp [coerce, mkBV_eq, Obj.denotes],
      by simp [operand, Obj.denotes, wrap], rfl, fun _ => mod_WF _ _ _, by simp, by simp⟩
  | bit c => left; exact ⟨⟨k, n, (if c then 1 else 0) % 2 ^ n⟩, by simp [coerce, mkBV_eq, Obj.denotes],
      by simp [operand, Obj.denotes, wrap], rfl, fun _ => mod_WF _ _ _, by simp, by simp⟩
  | seq l => left; exact ⟨⟨k, n, ofBits l % 2 ^ n⟩, by simp [coerce, mkBV_eq, Obj.denotes],
      by simp [operand, Obj.denotes, wrap], rfl, fun _ => mod_WF _ _ _, by simp, by simp⟩

theorem operand_bounds {n : Nat} {o : Obj} (ho : o.WF) {v : Int} (h : operand n o = .ok v) :
    0 ≤ v ∧ v < 2 ^ n := by
  rcases coerce_eq (.root .bv) n o with ⟨y, h1, h2, h3, h4, _⟩ | ⟨e, h1, h2⟩
  · rw [h2] at h; injection h with h; subst h; subst h3; exact h4 ho
  · rw [h2] at h; cases h

theorem cast_eq {α : Type} {x : BVal} {o : Obj} {fn : BVal → PyM α} (g : Int → PyM α) (ho : o.WF)
    (h : ∀ y : BVal, y.WF → y.size = x.size → fn y = g y.value) :
    x.cast o fn = (operand x.size o).bind g := by
  unfold BVal.cast
  rcases coerce_eq x.kind x.size o with ⟨y, h1, h2, h3, h4, _⟩ | ⟨e, h1, h2⟩
  · simp [h1, h2, bind, Except.bind, h y (h4 ho) h3]
  · simp [h1, h2, bind, Except.bind]

theorem cast_eq' {α : Type} {x : BVal} {o : Obj} {fn : BVal → PyM α} (g : Int → PyM α)
    (h : ∀ y : BVal, y.size = x.size → fn y = g y.value) :
    x.cast o fn = (operand x.size o).bind g := by
  unfold BVal.cast
  rcases coerce_eq x.kind x.size o with ⟨y, h1, h2, h3, h4, _⟩ | ⟨e, h1, h2⟩
  · simp [h1, h2, bind, Except.bind, h y h3]
  · simp [h1, h2, bind, Except.bind]

theorem bind_ok_map {α β : Type} (m : PyM α) (f : α → β) :
    (m.bind fun a => .ok (f a)) = m.map f := by cases m <;> rfl

end HW
