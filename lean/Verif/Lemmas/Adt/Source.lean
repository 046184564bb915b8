import Verif.Lemmas.Adt.Repr
import Verif.Model.Adt.Source

/-! # Printed expressions can be read in one way -/

namespace HW.Adt.Source
open HW HW.Adt

/-- The text does not begin with a character of an identifier. -/
def Stop (r : List Char) : Prop := ∀ c l, r = c :: l → idChar c = false
/-- … nor with a bracket. -/
def StopC (r : List Char) : Prop := ∀ c l, r = c :: l → idChar c = false ∧ c ≠ '['
/-- The end of an argument. -/
def StopV (r : List Char) : Prop := ∀ c l, r = c :: l → c = ',' ∨ c = ')'

theorem StopC.stop {r : List Char} (h : StopC r) : Stop r := fun c l e => (h c l e).1
theorem stop_cons {c : Char} {l : List Char} (h : idChar c = false) : Stop (c :: l) := by
  intro c' l' e; cases e; exact h
theorem stopC_cons {c : Char} {l : List Char} (h : idChar c = false ∧ c ≠ '[') : StopC (c :: l) := by
  intro c' l' e; cases e; exact h
theorem stopV_cons {c : Char} {l : List Char} (h : c = ',' ∨ c = ')') : StopV (c :: l) := by
  intro c' l' e; cases e; exact h
theorem StopV.stop {r : List Char} (h : StopV r) : Stop r := by
  intro c l e
  rcases h c l e with rfl | rfl <;> decide

/-- Two words followed by something else. -/
theorem cut {P : Char → Prop} : ∀ {w w' r r' : List Char}, (∀ c ∈ w, P c) → (∀ c ∈ w', P c) → (∀ c l, r = c :: l → ¬ P c) →
    (∀ c l, r' = c :: l → ¬ P c) → w ++ r = w' ++ r' → w = w' ∧ r = r'
  | [], [], _, _, _, _, _, _, h => ⟨rfl, h⟩
  | [], b :: w', r, r', _, h2, h3, _, h => absurd (h2 b (by simp)) (h3 b (w' ++ r') h)
  | a :: w, [], r, r', h1, _, _, h4, h => absurd (h1 a (by simp)) (h4 a (w ++ r) h.symm)
  | a :: w, b :: w', r, r', h1, h2, h3, h4, h => by
    simp only [List.cons_append, List.cons.injEq] at h
    obtain ⟨rfl, h⟩ := h
    obtain ⟨rfl, rfl⟩ := cut (fun c hc => h1 c (by simp [hc])) (fun c hc => h2 c (by simp [hc])) h3 h4 h
    exact ⟨rfl, rfl⟩

theorem cutName {w w' r r' : List Char} (h : IsName w) (h' : IsName w') (hr : Stop r) (hr' : Stop r') (e : w ++ r = w' ++ r') :
    w = w' ∧ r = r' :=
  cut (P := fun c => idChar c = true) h.2 h'.2 (fun c l e => by simp [hr c l e]) (fun c l e => by simp [hr' c l e]) e

theorem cutInt {x y : Int} {r r' : List Char} (hr : ∀ c l, r = c :: l → ¬ (c.isDigit = true ∨ c = '-'))
    (hr' : ∀ c l, r' = c :: l → ¬ (c.isDigit = true ∨ c = '-')) (e : pyStr x ++ r = pyStr y ++ r') : x = y ∧ r = r' := by
  obtain ⟨h1, h2⟩ := cut (P := fun c => c.isDigit = true ∨ c = '-') (fun c h => pyStr_char h) (fun c h => pyStr_char h) hr hr' e
  exact ⟨pyStr_inj h1, h2⟩

theorem int_head (x : Int) (r : List Char) : ∃ c l, pyStr x ++ r = c :: l ∧ (c.isDigit = true ∨ c = '-') := by
  cases h : pyStr x with
  | nil => exact absurd h (pyStr_ne x)
  | cons c l => exact ⟨c, l ++ r, rfl, pyStr_char (x := x) (h ▸ List.mem_cons_self)⟩

/-- The first character of a class. -/
theorem ce_head (c : CE) (hc : c.Ok) (r : List Char) : ∃ a l, c.text ++ r = a :: l ∧ idChar a = true ∧ a.isDigit = false := by
  have key : ∀ (w : List Char), IsName w → ∀ r, ∃ a l, w ++ r = a :: l ∧ idChar a = true ∧ a.isDigit = false := by
    rintro w ⟨⟨a, l, rfl, hd⟩, h⟩ r
    exact ⟨a, l ++ r, rfl, h a List.mem_cons_self, hd⟩
  cases c with
  | name w => exact key w hc r
  | idx w n => rw [CE.text, List.append_assoc]; exact key w hc _
  | sub w l => rw [CE.text, List.append_assoc]; exact key w hc.1 _
  | dict w d => rw [CE.text, List.append_assoc]; exact key w hc.1 _

theorem digit_idChar {c : Char} (h : c.isDigit = true) : idChar c = true := by
  unfold idChar
  rw [decide_eq_true_eq]
  intro hm
  have : ∀ c ∈ ['[', ']', '(', ')', '{', '}', ',', '.', ':', '=', '\'', '-', ' '], c.isDigit = false := by decide
  rw [this c hm] at h
  cases h

theorem not_num {c : Char} (h : c.isDigit = false) (h' : idChar c = true) : ¬ (c.isDigit = true ∨ c = '-') := by
  rintro (h1 | rfl)
  · rw [h] at h1; cases h1
  · exact absurd h' (by decide)

theorem stop_bracket {l : List Char} : Stop ('[' :: l) := stop_cons (by decide)

theorem num_bracket {l : List Char} : ∀ c l', ']' :: l = c :: l' → ¬ (c.isDigit = true ∨ c = '-') := by
  intro c l' e; cases e; decide

mutual
theorem ce_uniq : ∀ (c c' : CE) (r r' : List Char), c.Ok → c'.Ok → StopC r → StopC r' → c.text ++ r = c'.text ++ r' →
    c = c' ∧ r = r'
  | .name w, c', r, r', h, h', s, s', e => by
    cases c' with
    | name w' =>
      obtain ⟨rfl, rfl⟩ := cutName h h' s.stop s'.stop e
      exact ⟨rfl, rfl⟩
    | idx w' n' =>
      simp only [CE.text, List.append_assoc, List.cons_append, List.nil_append] at e
      obtain ⟨rfl, rfl⟩ := cutName h h' s.stop stop_bracket e
      exact absurd rfl (s _ _ rfl).2
    | sub w' l' =>
      simp only [CE.text, List.append_assoc, List.cons_append, List.nil_append] at e
      obtain ⟨rfl, rfl⟩ := cutName h h'.1 s.stop stop_bracket e
      exact absurd rfl (s _ _ rfl).2
    | dict w' d' =>
      simp only [CE.text, List.append_assoc, List.cons_append, List.nil_append] at e
      obtain ⟨rfl, rfl⟩ := cutName h h'.1 s.stop stop_bracket e
      exact absurd rfl (s _ _ rfl).2
  | .idx w n, c', r, r', h, h', s, s', e => by
    simp only [CE.text, List.append_assoc, List.cons_append, List.nil_append] at e
    cases c' with
    | name w' =>
      rw [CE.text] at e
      obtain ⟨rfl, rfl⟩ := cutName h h' stop_bracket s'.stop e
      exact absurd rfl (s' _ _ rfl).2
    | idx w' n' =>
      simp only [CE.text, List.append_assoc, List.cons_append, List.nil_append] at e
      replace e := cutName h h' stop_bracket stop_bracket e
      obtain ⟨rfl, e⟩ := e
      simp only [List.cons.injEq, true_and] at e
      obtain ⟨h1, h2⟩ := cutInt num_bracket num_bracket e
      simp only [List.cons.injEq, true_and] at h2
      have : n = n' := by omega
      exact ⟨by rw [this], h2⟩
    | sub w' l' =>
      simp only [CE.text, List.append_assoc, List.cons_append, List.nil_append] at e
      replace e := cutName h h'.1 stop_bracket stop_bracket e
      obtain ⟨rfl, e⟩ := e
      simp only [List.cons.injEq, true_and] at e
      cases l' with
      | nil => exact absurd rfl h'.2.1
      | cons c l =>
        rw [CEs.text, List.append_assoc] at e
        obtain ⟨a, t, h1, h2⟩ := int_head n (']' :: r)
        obtain ⟨b, u, h3, h4, h5⟩ := ce_head c h'.2.2.1 (l.tail ++ (']' :: r'))
        rw [h1, h3] at e
        cases e
        exact absurd h2 (not_num h5 h4)
    | dict w' d' =>
      simp only [CE.text, List.append_assoc, List.cons_append, List.nil_append] at e
      replace e := cutName h h'.1 stop_bracket stop_bracket e
      obtain ⟨rfl, e⟩ := e
      simp only [List.cons.injEq, true_and] at e
      obtain ⟨a, t, h1, h2⟩ := int_head n (']' :: r)
      rw [h1] at e
      cases e
      exact absurd h2 (by decide)
  | .sub w l, c', r, r', h, h', s, s', e => by
    simp only [CE.text, List.append_assoc, List.cons_append, List.nil_append] at e
    cases c' with
    | name w' =>
      rw [CE.text] at e
      obtain ⟨rfl, rfl⟩ := cutName h.1 h' stop_bracket s'.stop e
      exact absurd rfl (s' _ _ rfl).2
    | idx w' n' =>
      simp only [CE.text, List.append_assoc, List.cons_append, List.nil_append] at e
      replace e := cutName h.1 h' stop_bracket stop_bracket e
      obtain ⟨rfl, e⟩ := e
      simp only [List.cons.injEq, true_and] at e
      cases l with
      | nil => exact absurd rfl h.2.1
      | cons c l =>
        rw [CEs.text, List.append_assoc] at e
        obtain ⟨a, t, h1, h2⟩ := int_head n' (']' :: r')
        obtain ⟨b, u, h3, h4, h5⟩ := ce_head c h.2.2.1 (l.tail ++ (']' :: r))
        rw [h1, h3] at e
        cases e
        exact absurd h2 (not_num h5 h4)
    | sub w' l' =>
      simp only [CE.text, List.append_assoc, List.cons_append, List.nil_append] at e
      replace e := cutName h.1 h'.1 stop_bracket stop_bracket e
      obtain ⟨rfl, e⟩ := e
      simp only [List.cons.injEq, true_and] at e
      cases l with
      | nil => exact absurd rfl h.2.1
      | cons c l =>
        cases l' with
        | nil => exact absurd rfl h'.2.1
        | cons c' l' =>
          rw [CEs.text, CEs.text, List.append_assoc, List.append_assoc] at e
          replace e := ce_uniq c c' _ _ h.2.2.1 h'.2.2.1 (tail_stop l _) (tail_stop l' _) e
          obtain ⟨rfl, e⟩ := e
          obtain ⟨rfl, rfl⟩ := ces_uniq l l' r r' h.2.2.2 h'.2.2.2 e
          exact ⟨rfl, rfl⟩
    | dict w' d' =>
      simp only [CE.text, List.append_assoc, List.cons_append, List.nil_append] at e
      replace e := cutName h.1 h'.1 stop_bracket stop_bracket e
      obtain ⟨rfl, e⟩ := e
      simp only [List.cons.injEq, true_and] at e
      cases l with
      | nil => exact absurd rfl h.2.1
      | cons c l =>
        rw [CEs.text, List.append_assoc] at e
        obtain ⟨b, u, h3, h4, h5⟩ := ce_head c h.2.2.1 (l.tail ++ (']' :: r))
        rw [h3] at e
        cases e
        exact absurd h4 (by decide)
  | .dict w d, c', r, r', h, h', s, s', e => by
    simp only [CE.text, List.append_assoc, List.cons_append, List.nil_append] at e
    cases c' with
    | name w' =>
      rw [CE.text] at e
      obtain ⟨rfl, rfl⟩ := cutName h.1 h' stop_bracket s'.stop e
      exact absurd rfl (s' _ _ rfl).2
    | idx w' n' =>
      simp only [CE.text, List.append_assoc, List.cons_append, List.nil_append] at e
      replace e := cutName h.1 h' stop_bracket stop_bracket e
      obtain ⟨rfl, e⟩ := e
      simp only [List.cons.injEq, true_and] at e
      obtain ⟨a, t, h1, h2⟩ := int_head n' (']' :: r')
      rw [h1] at e
      cases e
      exact absurd h2 (by decide)
    | sub w' l' =>
      simp only [CE.text, List.append_assoc, List.cons_append, List.nil_append] at e
      replace e := cutName h.1 h'.1 stop_bracket stop_bracket e
      obtain ⟨rfl, e⟩ := e
      simp only [List.cons.injEq, true_and] at e
      cases l' with
      | nil => exact absurd rfl h'.2.1
      | cons c l =>
        rw [CEs.text, List.append_assoc] at e
        obtain ⟨b, u, h3, h4, h5⟩ := ce_head c h'.2.2.1 (l.tail ++ (']' :: r'))
        rw [h3] at e
        cases e
        exact absurd h4 (by decide)
    | dict w' d' =>
      simp only [CE.text, List.append_assoc, List.cons_append, List.nil_append] at e
      replace e := cutName h.1 h'.1 stop_bracket stop_bracket e
      obtain ⟨rfl, e⟩ := e
      simp only [List.cons.injEq, true_and] at e
      cases d with
      | nil =>
        cases d' with
        | nil =>
          simp only [Items.text, List.nil_append, List.cons.injEq, true_and] at e
          exact ⟨rfl, e⟩
        | cons k' c' d' => simp only [Items.text, List.nil_append, List.cons_append, List.cons.injEq] at e; exact absurd e.1 (by decide)
      | cons k c d =>
        cases d' with
        | nil => simp only [Items.text, List.nil_append, List.cons_append, List.cons.injEq] at e; exact absurd e.1 (by decide)
        | cons k' c' d' =>
          simp only [Items.text, List.cons_append, List.append_assoc, List.cons.injEq, true_and] at e
          replace e := cutName h.2.1.1 h'.2.1.1 (stop_cons (by decide)) (stop_cons (by decide)) e
          obtain ⟨rfl, e⟩ := e
          simp only [List.cons.injEq, true_and] at e
          replace e := ce_uniq c c' _ _ h.2.1.2.1 h'.2.1.2.1 (items_stop d _) (items_stop d' _) e
          obtain ⟨rfl, e⟩ := e
          obtain ⟨rfl, rfl⟩ := items_uniq d d' r r' h.2.1.2.2 h'.2.1.2.2 e
          exact ⟨rfl, rfl⟩
theorem ces_uniq : ∀ (l l' : CEs) (r r' : List Char), l.Ok → l'.Ok → l.tail ++ (']' :: r) = l'.tail ++ (']' :: r') →
    l = l' ∧ r = r'
  | .nil, l', r, r', _, _, e => by
    cases l' with
    | nil => simpa [CEs.tail] using e
    | cons c l => simp [CEs.tail] at e
  | .cons c l, l', r, r', h, h', e => by
    cases l' with
    | nil => simp [CEs.tail] at e
    | cons c' l' =>
      simp only [CEs.tail, List.cons_append, List.append_assoc, List.cons.injEq, true_and] at e
      replace e := ce_uniq c c' _ _ h.1 h'.1 (tail_stop l _) (tail_stop l' _) e
      obtain ⟨rfl, e⟩ := e
      obtain ⟨rfl, rfl⟩ := ces_uniq l l' r r' h.2 h'.2 e
      exact ⟨rfl, rfl⟩
theorem items_uniq : ∀ (d d' : Items) (r r' : List Char), d.Ok → d'.Ok → d.tail ++ ('}' :: ']' :: r) = d'.tail ++ ('}' :: ']' :: r') →
    d = d' ∧ r = r'
  | .nil, d', r, r', _, _, e => by
    cases d' with
    | nil => simpa [Items.tail] using e
    | cons k c l => simp [Items.tail] at e
  | .cons k c d, d', r, r', h, h', e => by
    cases d' with
    | nil => simp [Items.tail] at e
    | cons k' c' d' =>
      simp only [Items.tail, List.cons_append, List.append_assoc, List.cons.injEq, true_and] at e
      replace e := cutName h.1 h'.1 (stop_cons (by decide)) (stop_cons (by decide)) e
      obtain ⟨rfl, e⟩ := e
      simp only [List.cons.injEq, true_and] at e
      replace e := ce_uniq c c' _ _ h.2.1 h'.2.1 (items_stop d _) (items_stop d' _) e
      obtain ⟨rfl, e⟩ := e
      obtain ⟨rfl, rfl⟩ := items_uniq d d' r r' h.2.2 h'.2.2 e
      exact ⟨rfl, rfl⟩
theorem tail_stop : ∀ (l : CEs) (r : List Char), StopC (l.tail ++ (']' :: r))
  | .nil, r => stopC_cons (by decide)
  | .cons c l, r => stopC_cons (by decide)
theorem items_stop : ∀ (d : Items) (r : List Char), StopC (d.tail ++ ('}' :: ']' :: r))
  | .nil, r => stopC_cons (by decide)
  | .cons k c l, r => stopC_cons (by decide)
end

/-- The rest after a word that is an argument: the word is not a name followed by `=`, a bracket or a dot. -/
theorem lit_ce {w : List Char} (hw : ∀ c ∈ w, idChar c = true) {c : CE} (hc : c.Ok) {r r' : List Char} (s : StopV r)
    (s' : ∃ a l, r' = a :: l ∧ (a = '.' ∨ a = '(')) (e : w ++ r = c.text ++ r') : False := by
  obtain ⟨a, l, rfl, ha⟩ := s'
  have key : ∀ (v t : List Char) (b : Char), IsName v → (b = '[' ∨ b = '.' ∨ b = '(') → w ++ r = v ++ b :: t → False := by
    intro v t b hv hb e
    have hs : Stop (b :: t) := stop_cons (by rcases hb with rfl | rfl | rfl <;> decide)
    obtain ⟨-, rfl⟩ := cut (P := fun c => idChar c = true) hw hv.2 (fun c l e => by simp [s.stop c l e])
      (fun c l e => by simp [hs c l e]) e
    rcases s _ _ rfl with rfl | rfl <;> simp at hb
  cases c with
  | name v => exact key v l a hc (.inr ha) e
  | idx v n => rw [CE.text, List.append_assoc] at e; exact key v _ '[' hc (.inl rfl) e
  | sub v n => rw [CE.text, List.append_assoc] at e; exact key v _ '[' hc.1 (.inl rfl) e
  | dict v n => rw [CE.text, List.append_assoc] at e; exact key v _ '[' hc.1 (.inl rfl) e

theorem int_ce {z : Int} {c : CE} (hc : c.Ok) {r r' : List Char} (e : pyStr z ++ r = c.text ++ r') : False := by
  obtain ⟨a, t, h1, h2⟩ := int_head z r
  obtain ⟨b, u, h3, h4, h5⟩ := ce_head c hc r'
  rw [h1, h3] at e
  cases e
  exact not_num h5 h4 h2

/-- The fixed words. -/
def word : VE → Option (List Char)
  | .bool b => some (if b then ['T', 'r', 'u', 'e'] else ['F', 'a', 'l', 's', 'e'])
  | .none => some ['N', 'o', 'n', 'e']
  | _ => Option.none

theorem word_chars {v : VE} {w : List Char} (h : word v = some w) : (∀ c ∈ w, idChar c = true) ∧ v.text = w ∧
    ∃ a l, w = a :: l ∧ a.isDigit = false := by
  cases v with
  | bool b =>
    cases h
    cases b
    · exact ⟨by decide, rfl, 'F', _, rfl, by decide⟩
    · exact ⟨by decide, rfl, 'T', _, rfl, by decide⟩
  | none => cases h; exact ⟨by decide, rfl, 'N', _, rfl, by decide⟩
  | _ => cases h

theorem word_inj {v v' : VE} {w : List Char} (h : word v = some w) (h' : word v' = some w) : v = v' := by
  cases v <;> cases v' <;> simp only [word, Option.some.injEq] at h h' <;> first | rfl | skip
  all_goals first | (cases h; done) | (cases h'; done) | skip
  · rename_i b b'
    cases b <;> cases b' <;> first | rfl | (subst h; simp at h')
  · rename_i b
    cases b <;> (subst h; simp at h')
  · rename_i b
    cases b <;> (subst h; simp at h')

theorem int_word {z : Int} {v : VE} {w : List Char} (hw : word v = some w) {r r' : List Char} (e : pyStr z ++ r = w ++ r') : False := by
  obtain ⟨h1, -, a, l, rfl, h2⟩ := word_chars hw
  obtain ⟨b, t, h3, h4⟩ := int_head z r
  rw [h3] at e
  cases e
  exact not_num h2 (h1 a List.mem_cons_self) h4

theorem stopV_num {r : List Char} (h : StopV r) : ∀ c l, r = c :: l → ¬ (c.isDigit = true ∨ c = '-') := by
  intro c l e
  rcases h c l e with rfl | rfl <;> decide

theorem ce_kw {c : CE} (hc : c.Ok) {k r t : List Char} (hk : IsName k) (s : ∃ a l, r = a :: l ∧ (a = '.' ∨ a = '('))
    (e : c.text ++ r = k ++ '=' :: t) : False := by
  obtain ⟨a, l, rfl, ha⟩ := s
  have key : ∀ (v u : List Char) (b : Char), IsName v → (b = '[' ∨ b = '.' ∨ b = '(') → v ++ b :: u = k ++ '=' :: t → False := by
    intro v u b hv hb e
    have hs : Stop (b :: u) := stop_cons (by rcases hb with rfl | rfl | rfl <;> decide)
    have := (cutName hv hk hs (stop_cons (by decide)) e).2
    cases this
    simp at hb
  cases c with
  | name v => exact key v l a hc (.inr ha) e
  | idx v n => rw [CE.text, List.append_assoc] at e; exact key v _ '[' hc (.inl rfl) e
  | sub v n => rw [CE.text, List.append_assoc] at e; exact key v _ '[' hc.1 (.inl rfl) e
  | dict v n => rw [CE.text, List.append_assoc] at e; exact key v _ '[' hc.1 (.inl rfl) e

/-- A positional argument does not look like a keyword argument. -/
theorem ve_kw {v : VE} (hv : v.Ok) {k r t : List Char} (hk : IsName k) (s : StopV r) (e : v.text ++ r = k ++ '=' :: t) : False := by
  have hword : ∀ w, word v = some w → False := by
    intro w hw
    obtain ⟨h1, h2, -⟩ := word_chars hw
    rw [h2] at e
    have := (cut (P := fun c => idChar c = true) h1 hk.2 (fun c l e => by simp [s.stop c l e])
      (fun c l e => by cases e; decide) e).2
    subst this
    rcases s _ _ rfl with h | h <;> exact absurd h (by decide)
  cases v with
  | int z =>
    obtain ⟨a, u, h1, h2⟩ := int_head z r
    obtain ⟨⟨b, l, rfl, hd⟩, hk⟩ := hk
    rw [VE.text, h1] at e
    cases e
    exact not_num hd (hk _ List.mem_cons_self) h2
  | bool b => exact hword _ rfl
  | none => exact hword _ rfl
  | attr c w =>
    simp only [VE.text, List.append_assoc, List.cons_append] at e
    exact ce_kw hv.1 hk ⟨_, _, rfl, .inl rfl⟩ e
  | call c a =>
    simp only [VE.text, List.append_assoc, List.cons_append] at e
    exact ce_kw hv.1 hk ⟨_, _, rfl, .inr rfl⟩ e

theorem word_ve {v v' : VE} {w r r' : List Char} (hw : word v = some w) (hv : v'.Ok) (s : StopV r) (s' : StopV r')
    (e : w ++ r = v'.text ++ r') : v = v' ∧ r = r' := by
  have hword : ∀ w', word v' = some w' → v = v' ∧ r = r' := by
    intro w' hw'
    obtain ⟨h1, -, -⟩ := word_chars hw
    obtain ⟨h2, h3, -⟩ := word_chars hw'
    rw [h3] at e
    obtain ⟨rfl, h4⟩ := cut (P := fun c => idChar c = true) h1 h2 (fun c l e => by simp [s.stop c l e])
      (fun c l e => by simp [s'.stop c l e]) e
    exact ⟨word_inj hw hw', h4⟩
  cases v' with
  | int z => exact (int_word hw e.symm).elim
  | bool b => exact hword _ rfl
  | none => exact hword _ rfl
  | attr c x =>
    simp only [VE.text, List.append_assoc, List.cons_append] at e
    exact (lit_ce (word_chars hw).1 hv.1 s ⟨_, _, rfl, .inl rfl⟩ e).elim
  | call c a =>
    simp only [VE.text, List.append_assoc, List.cons_append] at e
    exact (lit_ce (word_chars hw).1 hv.1 s ⟨_, _, rfl, .inr rfl⟩ e).elim

theorem stopC_dot {l : List Char} : StopC ('.' :: l) := stopC_cons (by decide)
theorem stopC_paren {l : List Char} : StopC ('(' :: l) := stopC_cons (by decide)

theorem ve_head {v : VE} (hv : v.Ok) (r : List Char) : ∃ a l, v.text ++ r = a :: l ∧ a ≠ ')' := by
  have hword : ∀ w, word v = some w → ∃ a l, v.text ++ r = a :: l ∧ a ≠ ')' := by
    intro w hw
    obtain ⟨h1, h2, a, l, rfl, -⟩ := word_chars hw
    refine ⟨a, l ++ r, by rw [h2]; rfl, ?_⟩
    rintro rfl
    exact absurd (h1 ')' List.mem_cons_self) (by decide)
  have hce : ∀ c : CE, c.Ok → ∀ t, ∃ a l, c.text ++ t = a :: l ∧ a ≠ ')' := by
    intro c hc t
    obtain ⟨a, l, h1, h2, -⟩ := ce_head c hc t
    refine ⟨a, l, h1, ?_⟩
    rintro rfl
    exact absurd h2 (by decide)
  cases v with
  | int z =>
    obtain ⟨a, u, h1, h2⟩ := int_head z r
    refine ⟨a, u, h1, ?_⟩
    rintro rfl
    exact absurd h2 (by decide)
  | bool b => exact hword _ rfl
  | none => exact hword _ rfl
  | attr c w => rw [VE.text, List.append_assoc]; exact hce c hv.1 _
  | call c a => rw [VE.text, List.append_assoc]; exact hce c hv.1 _

theorem name_head {k : List Char} (hk : IsName k) (r : List Char) : ∃ a l, k ++ r = a :: l ∧ a ≠ ')' := by
  obtain ⟨⟨a, l, rfl, -⟩, h⟩ := hk
  refine ⟨a, l ++ r, rfl, ?_⟩
  rintro rfl
  exact absurd (h ')' List.mem_cons_self) (by decide)

theorem args_stop : ∀ (a : Args) (r : List Char), StopV (a.tail ++ (')' :: r))
  | .nil, _ => stopV_cons (by decide)
  | .pos _ _, _ => stopV_cons (by decide)
  | .kw _ _ _, _ => stopV_cons (by decide)

mutual
theorem ve_uniq : ∀ (v v' : VE) (r r' : List Char), v.Ok → v'.Ok → StopV r → StopV r' → v.text ++ r = v'.text ++ r' →
    v = v' ∧ r = r'
  | .int z, v', r, r', h, h', s, s', e => by
    rw [VE.text] at e
    have hword : ∀ w', word v' = some w' → VE.int z = v' ∧ r = r' := by
      intro w' hw'
      rw [(word_chars hw').2.1] at e
      exact (int_word hw' e).elim
    cases v' with
    | int z' =>
      obtain ⟨rfl, rfl⟩ := cutInt (stopV_num s) (stopV_num s') e
      exact ⟨rfl, rfl⟩
    | bool b => exact hword _ rfl
    | none => exact hword _ rfl
    | attr c w => rw [VE.text, List.append_assoc] at e; exact (int_ce h'.1 e).elim
    | call c w => rw [VE.text, List.append_assoc] at e; exact (int_ce h'.1 e).elim
  | .bool b, v', r, r', h, h', s, s', e => word_ve (v := .bool b) rfl h' s s' e
  | .none, v', r, r', h, h', s, s', e => word_ve (v := .none) rfl h' s s' e
  | .attr c w, v', r, r', h, h', s, s', e => by
    simp only [VE.text, List.append_assoc, List.cons_append] at e
    have hword : ∀ w', word v' = some w' → VE.attr c w = v' ∧ r = r' := by
      intro w' hw'
      rw [(word_chars hw').2.1] at e
      exact (lit_ce (word_chars hw').1 h.1 s' ⟨_, _, rfl, .inl rfl⟩ e.symm).elim
    cases v' with
    | int z' => exact (int_ce h.1 e.symm).elim
    | bool b => exact hword _ rfl
    | none => exact hword _ rfl
    | attr c' w' =>
      simp only [VE.text, List.append_assoc, List.cons_append] at e
      replace e := ce_uniq c c' _ _ h.1 h'.1 stopC_dot stopC_dot e
      obtain ⟨rfl, e⟩ := e
      simp only [List.cons.injEq, true_and] at e
      obtain ⟨rfl, rfl⟩ := cutName h.2 h'.2 s.stop s'.stop e
      exact ⟨rfl, rfl⟩
    | call c' a' =>
      simp only [VE.text, List.append_assoc, List.cons_append] at e
      have := (ce_uniq c c' _ _ h.1 h'.1 stopC_dot stopC_paren e).2
      simp at this
  | .call c a, v', r, r', h, h', s, s', e => by
    simp only [VE.text, List.append_assoc, List.cons_append, List.nil_append] at e
    have hword : ∀ w', word v' = some w' → VE.call c a = v' ∧ r = r' := by
      intro w' hw'
      rw [(word_chars hw').2.1] at e
      exact (lit_ce (word_chars hw').1 h.1 s' ⟨_, _, rfl, .inr rfl⟩ e.symm).elim
    cases v' with
    | int z' => exact (int_ce h.1 e.symm).elim
    | bool b => exact hword _ rfl
    | none => exact hword _ rfl
    | attr c' w' =>
      simp only [VE.text, List.append_assoc, List.cons_append] at e
      have := (ce_uniq c c' _ _ h.1 h'.1 stopC_paren stopC_dot e).2
      simp at this
    | call c' a' =>
      simp only [VE.text, List.append_assoc, List.cons_append, List.nil_append] at e
      replace e := ce_uniq c c' _ _ h.1 h'.1 stopC_paren stopC_paren e
      obtain ⟨rfl, e⟩ := e
      simp only [List.cons.injEq, true_and] at e
      obtain ⟨rfl, rfl⟩ := text_uniq a a' r r' h.2.1 h'.2.1 e
      exact ⟨rfl, rfl⟩
theorem text_uniq : ∀ (a a' : Args) (r r' : List Char), a.Ok → a'.Ok → a.text ++ ')' :: r = a'.text ++ ')' :: r' →
    a = a' ∧ r = r'
  | .nil, a', r, r', h, h', e => by
    cases a' with
    | nil => simpa [Args.text] using e
    | pos v' a' =>
      obtain ⟨b, l, h1, h2⟩ := ve_head h'.1 (a'.tail ++ ')' :: r')
      rw [Args.text, Args.text, List.append_assoc, h1] at e
      cases e
      exact absurd rfl h2
    | kw k' v' a' =>
      obtain ⟨b, l, h1, h2⟩ := name_head h'.1 ('=' :: (v'.text ++ a'.tail) ++ ')' :: r')
      rw [Args.text, Args.text, List.append_assoc, h1] at e
      cases e
      exact absurd rfl h2
  | .pos v a, a', r, r', h, h', e => by
    simp only [Args.text, List.append_assoc] at e
    cases a' with
    | nil =>
      obtain ⟨b, l, h1, h2⟩ := ve_head h.1 (a.tail ++ ')' :: r)
      rw [h1] at e
      cases e
      exact absurd rfl h2
    | pos v' a' =>
      simp only [Args.text, List.append_assoc] at e
      replace e := ve_uniq v v' _ _ h.1 h'.1 (args_stop a _) (args_stop a' _) e
      obtain ⟨rfl, e⟩ := e
      obtain ⟨rfl, rfl⟩ := args_uniq a a' r r' h.2 h'.2 e
      exact ⟨rfl, rfl⟩
    | kw k' v' a' =>
      simp only [Args.text, List.append_assoc] at e
      exact (ve_kw h.1 h'.1 (args_stop a _) e).elim
  | .kw k v a, a', r, r', h, h', e => by
    simp only [Args.text, List.append_assoc, List.cons_append] at e
    cases a' with
    | nil =>
      obtain ⟨b, l, h1, h2⟩ := name_head h.1 ('=' :: (v.text ++ (a.tail ++ ')' :: r)))
      rw [h1] at e
      cases e
      exact absurd rfl h2
    | pos v' a' =>
      simp only [Args.text, List.append_assoc] at e
      exact (ve_kw h'.1 h.1 (args_stop a' _) e.symm).elim
    | kw k' v' a' =>
      simp only [Args.text, List.append_assoc, List.cons_append] at e
      replace e := cutName h.1 h'.1 (stop_cons (by decide)) (stop_cons (by decide)) e
      obtain ⟨rfl, e⟩ := e
      simp only [List.cons.injEq, true_and] at e
      replace e := ve_uniq v v' _ _ h.2.1 h'.2.1 (args_stop a _) (args_stop a' _) e
      obtain ⟨rfl, e⟩ := e
      obtain ⟨rfl, rfl⟩ := args_uniq a a' r r' h.2.2 h'.2.2 e
      exact ⟨rfl, rfl⟩
theorem args_uniq : ∀ (a a' : Args) (r r' : List Char), a.Ok → a'.Ok → a.tail ++ ')' :: r = a'.tail ++ ')' :: r' →
    a = a' ∧ r = r'
  | .nil, a', r, r', h, h', e => by
    cases a' with
    | nil => simpa [Args.tail] using e
    | pos v' a' => simp [Args.tail] at e
    | kw k' v' a' => simp [Args.tail] at e
  | .pos v a, a', r, r', h, h', e => by
    simp only [Args.tail, List.append_assoc, List.cons_append] at e
    cases a' with
    | nil => simp [Args.tail] at e
    | pos v' a' =>
      simp only [Args.tail, List.append_assoc, List.cons_append, List.cons.injEq, true_and] at e
      replace e := ve_uniq v v' _ _ h.1 h'.1 (args_stop a _) (args_stop a' _) e
      obtain ⟨rfl, e⟩ := e
      obtain ⟨rfl, rfl⟩ := args_uniq a a' r r' h.2 h'.2 e
      exact ⟨rfl, rfl⟩
    | kw k' v' a' =>
      simp only [Args.tail, List.append_assoc, List.cons_append, List.cons.injEq, true_and] at e
      exact (ve_kw h.1 h'.1 (args_stop a _) e).elim
  | .kw k v a, a', r, r', h, h', e => by
    simp only [Args.tail, List.append_assoc, List.cons_append] at e
    cases a' with
    | nil => simp [Args.tail] at e
    | pos v' a' =>
      simp only [Args.tail, List.append_assoc, List.cons_append, List.cons.injEq, true_and] at e
      exact (ve_kw h'.1 h.1 (args_stop a' _) e.symm).elim
    | kw k' v' a' =>
      simp only [Args.tail, List.append_assoc, List.cons_append, List.cons.injEq, true_and] at e
      replace e := cutName h.1 h'.1 (stop_cons (by decide)) (stop_cons (by decide)) e
      obtain ⟨rfl, e⟩ := e
      simp only [List.cons.injEq, true_and] at e
      replace e := ve_uniq v v' _ _ h.2.1 h'.2.1 (args_stop a _) (args_stop a' _) e
      obtain ⟨rfl, e⟩ := e
      obtain ⟨rfl, rfl⟩ := args_uniq a a' r r' h.2.2 h'.2.2 e
      exact ⟨rfl, rfl⟩
end

end HW.Adt.Source
