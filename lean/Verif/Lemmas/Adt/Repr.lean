import Verif.Model.Adt.Repr
import Verif.Lemmas.Fp.Text

/-! Printed values are closed under brackets, so a list of them splits in one way only. -/

namespace HW.Adt

def opener (c : Char) : Bool := c = '(' || c = '[' || c = '{'
def closer (c : Char) : Bool := c = ')' || c = ']' || c = '}'

/-- The bracket depth after a text; no text ends a bracket it does not open, or has a comma outside brackets. -/
def scan : Nat → List Char → Option Nat
  | d, [] => some d
  | d, c :: l =>
      if opener c then scan (d + 1) l
      else if closer c then (if d = 0 then none else scan (d - 1) l)
      else if c = ',' ∧ d = 0 then none
      else scan d l

def Closed (a : List Char) : Prop := scan 0 a = some 0
def Inner (a : List Char) : Prop := scan 1 a = some 1

theorem scan_append : ∀ (a b : List Char) (d : Nat), scan d (a ++ b) = (scan d a).bind fun e => scan e b
  | [], _, _ => rfl
  | c :: a, b, d => by
    simp only [List.cons_append, scan]
    split
    · exact scan_append a b _
    · split
      · split
        · rfl
        · exact scan_append a b _
      · split
        · rfl
        · exact scan_append a b _

theorem scan_lift : ∀ (a : List Char) {d e : Nat} (k : Nat), scan d a = some e → scan (d + k) a = some (e + k)
  | [], d, e, k, h => by simp only [scan, Option.some.injEq] at h ⊢; omega
  | c :: a, d, e, k, h => by
    simp only [scan] at h ⊢
    split
    · next ho =>
      rw [if_pos ho] at h
      have := scan_lift a k h
      rwa [show d + 1 + k = d + k + 1 by omega] at this
    · next ho =>
      rw [if_neg ho] at h
      split
      · next hc =>
        rw [if_pos hc] at h
        by_cases hd : d = 0
        · rw [if_pos hd] at h; simp at h
        · rw [if_neg hd] at h
          rw [if_neg (by omega)]
          have := scan_lift a k h
          rwa [show d - 1 + k = d + k - 1 by omega] at this
      · next hc =>
        rw [if_neg hc] at h
        by_cases hd : c = ',' ∧ d = 0
        · rw [if_pos hd] at h; simp at h
        · rw [if_neg hd] at h
          rw [if_neg (fun h' => hd ⟨h'.1, by omega⟩)]
          exact scan_lift a k h

theorem Closed.inner {a : List Char} (h : Closed a) : Inner a := scan_lift a 1 h
theorem Closed.append {a b : List Char} (h : Closed a) (h' : Closed b) : Closed (a ++ b) := by
  unfold Closed at *; rw [scan_append, h]; exact h'
theorem Inner.append {a b : List Char} (h : Inner a) (h' : Inner b) : Inner (a ++ b) := by
  unfold Inner at *; rw [scan_append, h]; exact h'
theorem Inner.nil : Inner [] := rfl

/-- Brackets close what is inside. -/
theorem Inner.bracket {a : List Char} {o c : Char} (ho : opener o = true) (hc : closer c = true) (hc' : opener c = false)
    (h : Inner a) : Closed ([o] ++ a ++ [c]) := by
  unfold Closed Inner at *
  rw [scan_append, scan_append]
  simp only [scan, ho, if_true, Option.bind_some, h, hc, hc', Bool.false_eq_true, if_false]
  rfl

def plainChar (c : Char) : Bool := !(opener c || closer c || c = ',' || c = '.')

theorem closed_plain : ∀ {a : List Char}, (∀ c ∈ a, plainChar c = true) → Closed a
  | [], _ => rfl
  | c :: a, h => by
    have hc := h c (by simp)
    simp only [plainChar, Bool.not_eq_true', Bool.or_eq_false_iff, decide_eq_false_iff_not] at hc
    have := closed_plain (a := a) fun x hx => h x (by simp [hx])
    unfold Closed at *
    rw [scan, if_neg (by simp [hc.1.1.1]), if_neg (by simp [hc.1.1.2]), if_neg (fun h => hc.1.2 h.1)]
    exact this

theorem closed_char {c : Char} (ho : opener c = false) (hc : closer c = false) (h : c ≠ ',') : Closed [c] := by
  unfold Closed
  rw [scan, if_neg (by simp [ho]), if_neg (by simp [hc]), if_neg (fun h' => h h'.1)]
  rfl

/-- A text after which a closed text has ended. -/
def Stop : List Char → Prop
  | [] => True
  | c :: _ => closer c = true ∨ c = ','

theorem closed_prefix {a t s : List Char} (ha : Closed a) (hat : Closed (a ++ t)) (hs : Stop (t ++ s)) : t = [] := by
  cases t with
  | nil => rfl
  | cons c t =>
    exfalso
    unfold Closed at *
    rw [scan_append, ha, Option.bind_some, scan] at hat
    rcases hs with h | h
    · have : opener c = false := by
        simp only [closer, Bool.or_eq_true, decide_eq_true_eq] at h
        rcases h with (rfl | rfl) | rfl <;> decide
      simp [this, h] at hat
    · subst h
      rw [if_neg (by decide), if_neg (by decide), if_pos ⟨rfl, rfl⟩] at hat
      simp at hat

theorem closed_unique {a b s s' : List Char} (ha : Closed a) (hb : Closed b) (hs : Stop s) (hs' : Stop s')
    (h : a ++ s = b ++ s') : a = b ∧ s = s' := by
  rcases List.append_eq_append_iff.1 h with ⟨t, rfl, rfl⟩ | ⟨t, rfl, rfl⟩
  · have := closed_prefix ha hb hs
    subst this; simp
  · have := closed_prefix hb ha hs'
    subst this; simp

theorem joined_inner : ∀ {l : List (List Char)}, (∀ a ∈ l, Closed a) → Inner (joined l)
  | [], _ => rfl
  | [a], h => (h a (by simp)).inner
  | a :: b :: l, h => by
    have h1 := (h a (by simp)).inner
    have h2 := joined_inner (l := b :: l) fun x hx => h x (by simp only [List.mem_cons] at hx ⊢; tauto)
    exact (h1.append (b := [',', ' ']) rfl).append h2

/-- A joined list of closed texts splits in one way only. -/
theorem joined_unique : ∀ {l l' : List (List Char)}, l.length = l'.length → (∀ a ∈ l, Closed a) → (∀ a ∈ l', Closed a) →
    joined l = joined l' → l = l'
  | [], [], _, _, _, _ => rfl
  | [a], [b], _, _, _, h => by simpa [joined] using h
  | a :: b :: l, a' :: b' :: l', hl, h1, h2, h => by
    simp only [joined, List.append_assoc] at h
    obtain ⟨h3, h4⟩ := closed_unique (h1 a (by simp)) (h2 a' (by simp)) (by right; rfl) (by right; rfl) h
    simp only [List.cons_append, List.nil_append, List.cons.injEq, true_and] at h4
    have := joined_unique (l := b :: l) (l' := b' :: l') (by simpa using hl)
      (fun x hx => h1 x (by simp only [List.mem_cons] at hx ⊢; tauto)) (fun x hx => h2 x (by simp only [List.mem_cons] at hx ⊢; tauto)) h4
    rw [h3, this]
  | [], _ :: _, hl, _, _, _ => by simp at hl
  | _ :: _, [], hl, _, _, _ => by simp at hl
  | [_], _ :: _ :: _, hl, _, _, _ => by simp at hl
  | _ :: _ :: _, [_], hl, _, _, _ => by simp at hl

theorem pyStr_inj {x y : Int} (h : pyStr x = pyStr y) : x = y := by
  have := Fp.parseInt_pyStr x
  rw [h, Fp.parseInt_pyStr y] at this
  exact (Option.some.inj this).symm

theorem pyStr_char {x : Int} {c : Char} (h : c ∈ pyStr x) : c.isDigit = true ∨ c = '-' := by
  cases x with
  | ofNat n =>
    have := Fp.digits_all n
    rw [List.all_eq_true] at this
    exact .inl (this c h)
  | negSucc n =>
    have := Fp.digits_all (n + 1)
    rw [List.all_eq_true] at this
    rcases List.mem_cons.1 h with rfl | h
    · exact .inr rfl
    · exact .inl (this c h)

theorem pyStr_ne (x : Int) : pyStr x ≠ [] := by
  cases x with
  | ofNat n => exact Fp.digits_ne n
  | negSucc n => simp [pyStr]

theorem plain_of_digit {c : Char} (h : c.isDigit = true ∨ c = '-') : plainChar c = true := by
  rcases h with h | rfl
  · by_contra hc
    simp only [plainChar, opener, closer, Bool.not_eq_true', Bool.not_eq_false, Bool.or_eq_true, decide_eq_true_eq] at hc
    rcases hc with ((((rfl | rfl) | rfl) | ((rfl | rfl) | rfl)) | rfl) | rfl <;> exact absurd h (by decide)
  · decide

theorem pyStr_closed (x : Int) : Closed (pyStr x) := closed_plain fun _ h => plain_of_digit (pyStr_char h)

end HW.Adt
