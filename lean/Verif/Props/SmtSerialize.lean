import Verif.Model.Smt.Serialize

/-! # Property C112: printed formulas -/

namespace HW
open Smt

/-- What is used of pysmt's printer, on the terms `P`: a term is printed on one line, which is not empty, does not end in
a comma, is not the first line of a formula, and determines the term. -/
structure Smt.Printer (txt : Term → List Char) (P : Term → Prop) : Prop where
  line : ∀ t, P t → '\n' ∉ txt t
  nonempty : ∀ t, P t → txt t ≠ []
  comma : ∀ t, P t → (txt t).getLast? ≠ some ','
  head : ∀ t, P t → txt t ≠ ['A', 'n', 'd', '('] ∧ txt t ≠ ['O', 'r', '('] ∧
    txt t ≠ ['I', 'm', 'p', 'l', 'i', 'e', 's', '(']
  inj : ∀ t t', P t → P t' → txt t = txt t' → t = t'

mutual
/-- All bits of the formula are in `P`. -/
def Smt.Formula.Leaves (P : Term → Prop) : Formula → Prop
  | .bit t => P t
  | .and l => Formula.LeavesAll P l
  | .or l => Formula.LeavesAll P l
  | .implies p q => p.Leaves P ∧ q.Leaves P
def Smt.Formula.LeavesAll (P : Term → Prop) : List Formula → Prop
  | [] => True
  | f :: l => f.Leaves P ∧ Formula.LeavesAll P l
end

/-- What can follow a formula. -/
def Smt.Stop : List Char → Prop
  | [] => True
  | '\n' :: _ => True
  | ',' :: '\n' :: _ => True
  | _ => False

theorem Smt.stop_cases {r : List Char} (h : Stop r) : r = [] ∨ (∃ s, r = '\n' :: s) ∨ ∃ s, r = ',' :: '\n' :: s := by
  unfold Stop at h
  split at h
  · exact .inl rfl
  · exact .inr (.inl ⟨_, rfl⟩)
  · exact .inr (.inr ⟨_, rfl⟩)
  · exact h.elim

theorem Smt.getLast_tail {x : Char} {a : List Char} (h : (x :: a).getLast? ≠ some ',') : a.getLast? ≠ some ',' := by
  cases a with
  | nil => simp
  | cons y a => simpa [List.getLast?_cons_cons] using h

theorem Smt.nil_line {b r r' : List Char} (hb : '\n' ∉ b) (hb' : b.getLast? ≠ some ',') (h : Stop r)
    (e : r = b ++ r') : b = [] := by
  cases b with
  | nil => rfl
  | cons c b =>
    exfalso
    rcases stop_cases h with rfl | ⟨s, rfl⟩ | ⟨s, rfl⟩
    · cases e
    · simp only [List.cons_append, List.cons.injEq] at e
      exact hb (by rw [← e.1]; simp)
    · simp only [List.cons_append, List.cons.injEq] at e
      obtain ⟨rfl, e⟩ := e
      cases b with
      | nil => exact hb' (by simp)
      | cons d b =>
        simp only [List.cons_append, List.cons.injEq] at e
        exact hb (by rw [← e.1]; simp)

/-- A line is determined by the text it begins. -/
theorem Smt.line_inj : ∀ {a b r r' : List Char}, '\n' ∉ a → '\n' ∉ b → a.getLast? ≠ some ',' → b.getLast? ≠ some ',' →
    Stop r → Stop r' → a ++ r = b ++ r' → a = b ∧ r = r'
  | [], b, r, r', _, hb, _, hb', h, _, e => by
    have : b = [] := nil_line hb hb' h e
    subst this; exact ⟨rfl, e⟩
  | x :: a, [], r, r', ha, _, ha', _, _, h', e => by
    have := nil_line ha ha' h' e.symm
    cases this
  | x :: a, y :: b, r, r', ha, hb, ha', hb', h, h', e => by
    simp only [List.cons_append, List.cons.injEq] at e
    obtain ⟨h1, h2⟩ := line_inj (fun h => ha (List.mem_cons_of_mem _ h)) (fun h => hb (List.mem_cons_of_mem _ h))
      (getLast_tail ha') (getLast_tail hb') h h' e.2
    exact ⟨by rw [e.1, h1], h2⟩

namespace Smt
variable {txt : Term → List Char} {ind : List Char} {P : Term → Prop}

/-- The first line, and what follows it. -/
def Formula.first (txt : Term → List Char) : Formula → List Char
  | .bit t => txt t
  | .and _ => Formula.andHead
  | .or _ => Formula.orHead
  | .implies _ _ => Formula.impliesHead

def Formula.rest (txt : Term → List Char) (ind pre : List Char) : Formula → List Char
  | .bit _ => []
  | .and l => '\n' :: (joinParts (Formula.serializes txt ind (pre ++ ind) l) ++ '\n' :: (pre ++ [')']))
  | .or l => '\n' :: (joinParts (Formula.serializes txt ind (pre ++ ind) l) ++ '\n' :: (pre ++ [')']))
  | .implies p q => '\n' :: (joinParts (Formula.serializes txt ind (pre ++ ind) [p, q]) ++ '\n' :: (pre ++ [')']))

theorem serialize_first (pre : List Char) (f : Formula) :
    f.serialize txt ind pre = pre ++ (f.first txt ++ f.rest txt ind pre) := by
  cases f <;> simp [Formula.serialize, Formula.first, Formula.rest, opToStr, Formula.serializes]

theorem first_line (hP : Printer txt P) {f : Formula} (hf : f.Leaves P) : '\n' ∉ f.first txt ∧ (f.first txt).getLast? ≠ some ',' ∧
    f.first txt ≠ [] := by
  cases f with
  | bit t => exact ⟨hP.line t hf, hP.comma t hf, hP.nonempty t hf⟩
  | and l =>
    exact (by decide : '\n' ∉ Formula.andHead ∧ Formula.andHead.getLast? ≠ some ',' ∧ Formula.andHead ≠ [])
  | or l =>
    exact (by decide : '\n' ∉ Formula.orHead ∧ Formula.orHead.getLast? ≠ some ',' ∧ Formula.orHead ≠ [])
  | implies p q =>
    exact (by decide : '\n' ∉ Formula.impliesHead ∧ Formula.impliesHead.getLast? ≠ some ',' ∧ Formula.impliesHead ≠ [])

theorem rest_stop {f : Formula} {pre r : List Char} (h : Stop r) : Stop (f.rest txt ind pre ++ r) := by
  cases f <;> first | exact h | trivial

theorem serialize_split (hP : Printer txt P) {f g : Formula} (hf : f.Leaves P) (hg : g.Leaves P)
    {pre r r' : List Char} (h : Stop r) (h' : Stop r')
    (e : f.serialize txt ind pre ++ r = g.serialize txt ind pre ++ r') :
    f.first txt = g.first txt ∧ f.rest txt ind pre ++ r = g.rest txt ind pre ++ r' := by
  rw [serialize_first, serialize_first, List.append_assoc, List.append_assoc, List.append_assoc, List.append_assoc] at e
  have e := List.append_cancel_left e
  have a := first_line hP hf
  have b := first_line hP hg
  exact line_inj a.1 b.1 a.2.1 b.2.1 (rest_stop h) (rest_stop h') e

theorem serialize_cons (hP : Printer txt P) {pre : List Char} (hp : '\n' ∉ pre) {f : Formula}
    (hf : f.Leaves P) :
    ∃ c s, f.serialize txt ind pre = c :: s ∧ c ≠ '\n' := by
  rw [serialize_first]
  cases pre with
  | cons x pre => exact ⟨x, _, rfl, fun h => hp (by rw [h]; simp)⟩
  | nil =>
    have a := first_line hP hf
    cases hf : f.first txt with
    | nil => exact absurd hf a.2.2
    | cons x s => exact ⟨x, _, rfl, fun h => a.1 (by rw [hf, h]; simp)⟩

theorem joinParts_cons (a : List Char) (l : List (List Char)) (s : List Char) :
    ∃ r, joinParts (a :: l) ++ '\n' :: s = a ++ r ∧ Stop r ∧
      ((l = [] ∧ r = '\n' :: s) ∨ (l ≠ [] ∧ r = ',' :: '\n' :: (joinParts l ++ '\n' :: s))) := by
  cases l with
  | nil => exact ⟨_, rfl, trivial, .inl ⟨rfl, rfl⟩⟩
  | cons b l => exact ⟨',' :: '\n' :: (joinParts (b :: l) ++ '\n' :: s), by simp [joinParts], trivial, .inr ⟨by simp, rfl⟩⟩

theorem serializes_nil {pre : List Char} {l : List Formula} : Formula.serializes txt ind pre l = [] ↔ l = [] := by
  cases l <;> simp [Formula.serializes]

mutual
theorem serialize_inj (hP : Printer txt P) (hi : '\n' ∉ ind) : ∀ (f g : Formula), f.Leaves P → g.Leaves P → ∀ {pre r r' : List Char},
    '\n' ∉ pre →
    Stop r → Stop r' → f.serialize txt ind pre ++ r = g.serialize txt ind pre ++ r' → f = g ∧ r = r'
  | f, g, hf, hg, pre, r, r', hp, h, h', e => by
    obtain ⟨e1, e2⟩ := serialize_split hP hf hg h h' e
    have hpi : '\n' ∉ pre ++ ind := by simp [hp, hi]
    cases f with
    | bit t =>
      cases g with
      | bit t' => exact ⟨by rw [hP.inj t t' hf hg e1], e2⟩
      | and l => exact absurd e1 (hP.head t hf).1
      | or l => exact absurd e1 (hP.head t hf).2.1
      | implies p q => exact absurd e1 (hP.head t hf).2.2
    | and l =>
      cases g with
      | and l' =>
        simp only [Formula.rest, List.cons_append, List.append_assoc, List.cons.injEq, true_and] at e2
        obtain ⟨rfl, e3⟩ := joined_inj hP hi l l' hf hg hpi e2
        exact ⟨rfl, by simpa using e3⟩
      | bit t => exact absurd e1.symm (hP.head t hg).1
      | or l => exact absurd e1 (by decide : ¬ Formula.andHead = Formula.orHead)
      | implies p q => exact absurd e1 (by decide : ¬ Formula.andHead = Formula.impliesHead)
    | or l =>
      cases g with
      | or l' =>
        simp only [Formula.rest, List.cons_append, List.append_assoc, List.cons.injEq, true_and] at e2
        obtain ⟨rfl, e3⟩ := joined_inj hP hi l l' hf hg hpi e2
        exact ⟨rfl, by simpa using e3⟩
      | bit t => exact absurd e1.symm (hP.head t hg).2.1
      | and l => exact absurd e1 (by decide : ¬ Formula.orHead = Formula.andHead)
      | implies p q => exact absurd e1 (by decide : ¬ Formula.orHead = Formula.impliesHead)
    | implies p q =>
      cases g with
      | implies p' q' =>
        simp only [Formula.rest, Formula.serializes, joinParts, List.cons_append, List.append_assoc, List.cons.injEq,
          true_and] at e2
        obtain ⟨rfl, e3⟩ := serialize_inj hP hi p p' hf.1 hg.1 hpi (by trivial) (by trivial) e2
        simp only [List.cons.injEq, true_and] at e3
        obtain ⟨rfl, e4⟩ := serialize_inj hP hi q q' hf.2 hg.2 hpi (by trivial) (by trivial) e3
        exact ⟨rfl, by simpa using e4⟩
      | bit t => exact absurd e1.symm (hP.head t hg).2.2
      | and l => exact absurd e1 (by decide : ¬ Formula.impliesHead = Formula.andHead)
      | or l => exact absurd e1 (by decide : ¬ Formula.impliesHead = Formula.orHead)
theorem joined_inj (hP : Printer txt P) (hi : '\n' ∉ ind) : ∀ (l l' : List Formula), Formula.LeavesAll P l →
    Formula.LeavesAll P l' → ∀ {pre s s' : List Char}, '\n' ∉ pre →
    joinParts (Formula.serializes txt ind pre l) ++ '\n' :: s = joinParts (Formula.serializes txt ind pre l') ++ '\n' :: s' →
    l = l' ∧ s = s'
  | [], [], _, _, pre, s, s', _, e => ⟨rfl, by simpa [Formula.serializes, joinParts] using e⟩
  | [], g :: l', _, hg, pre, s, s', hp, e => by
    obtain ⟨r, hr, -, -⟩ := joinParts_cons (g.serialize txt ind pre) (Formula.serializes txt ind pre l') s'
    rw [Formula.serializes, Formula.serializes, hr] at e
    obtain ⟨c, t, hc, hn⟩ := serialize_cons (ind := ind) hP hp hg.1
    rw [hc] at e
    simp only [joinParts, List.nil_append, List.cons_append, List.cons.injEq] at e
    exact absurd e.1.symm hn
  | f :: l, [], hf, _, pre, s, s', hp, e => by
    obtain ⟨r, hr, -, -⟩ := joinParts_cons (f.serialize txt ind pre) (Formula.serializes txt ind pre l) s
    rw [Formula.serializes, Formula.serializes, hr] at e
    obtain ⟨c, t, hc, hn⟩ := serialize_cons (ind := ind) hP hp hf.1
    rw [hc] at e
    simp only [joinParts, List.nil_append, List.cons_append, List.cons.injEq] at e
    exact absurd e.1 hn
  | f :: l, g :: l', hf, hg, pre, s, s', hp, e => by
    obtain ⟨r, hr, h, hc⟩ := joinParts_cons (f.serialize txt ind pre) (Formula.serializes txt ind pre l) s
    obtain ⟨r', hr', h', hc'⟩ := joinParts_cons (g.serialize txt ind pre) (Formula.serializes txt ind pre l') s'
    rw [Formula.serializes, Formula.serializes, hr, hr'] at e
    obtain ⟨rfl, rfl⟩ := serialize_inj hP hi f g hf.1 hg.1 hp h h' e
    rcases hc with ⟨a1, rfl⟩ | ⟨a1, rfl⟩ <;> rcases hc' with ⟨b1, b2⟩ | ⟨b1, b2⟩
    · rw [serializes_nil] at a1 b1
      subst a1; subst b1
      exact ⟨rfl, by simpa using b2⟩
    · exact absurd b2 (by simp)
    · exact absurd b2 (by simp)
    · simp only [List.cons.injEq, true_and] at b2
      obtain ⟨rfl, e⟩ := joined_inj hP hi l l' hf.2 hg.2 hp b2
      exact ⟨rfl, e⟩
end

/-- Every newline is followed by `pre`. -/
def Prefixed (pre s : List Char) : Prop := ∀ a b, s = a ++ '\n' :: b → pre <+: b

theorem Prefixed.of_line {pre s : List Char} (h : '\n' ∉ s) : Prefixed pre s := by
  rintro a b rfl; simp at h

theorem Prefixed.append {pre : List Char} : ∀ {s t : List Char}, Prefixed pre s → Prefixed pre t → Prefixed pre (s ++ t)
  | [], _, _, h => h
  | c :: s, t, h, h' => by
    rintro a b e
    cases a with
    | nil =>
      simp only [List.nil_append, List.cons_append, List.cons.injEq] at e
      obtain ⟨rfl, rfl⟩ := e
      exact (h [] s rfl).trans (List.prefix_append s t)
    | cons d a =>
      simp only [List.cons_append, List.cons.injEq] at e
      obtain ⟨rfl, e⟩ := e
      exact Prefixed.append (s := s) (fun a b e => h (c :: a) b (by rw [e]; rfl)) h' a b e

theorem Prefixed.newline {pre s : List Char} (h : pre <+: s) (h' : Prefixed pre s) : Prefixed pre ('\n' :: s) := by
  rintro a b e
  cases a with
  | nil => cases e; exact h
  | cons d a =>
    simp only [List.cons_append, List.cons.injEq] at e
    exact h' a b e.2

theorem Prefixed.cons {pre s : List Char} {c : Char} (hc : c ≠ '\n') (h' : Prefixed pre s) : Prefixed pre (c :: s) := by
  rintro a b e
  cases a with
  | nil => cases e; exact absurd rfl hc
  | cons d a =>
    simp only [List.cons_append, List.cons.injEq] at e
    exact h' a b e.2

theorem Prefixed.shorten {pre ind s : List Char} (h : Prefixed (pre ++ ind) s) : Prefixed pre s :=
  fun a b e => (List.prefix_append pre ind).trans (h a b e)

mutual
/-- No empty `And` or `Or`. -/
def Formula.Filled : Formula → Prop
  | .bit _ => True
  | .and l => l ≠ [] ∧ Formula.FilledAll l
  | .or l => l ≠ [] ∧ Formula.FilledAll l
  | .implies p q => p.Filled ∧ q.Filled
def Formula.FilledAll : List Formula → Prop
  | [] => True
  | f :: l => f.Filled ∧ Formula.FilledAll l
end

theorem serialize_prefix (pre : List Char) (f : Formula) : pre <+: f.serialize txt ind pre := by
  rw [serialize_first]; exact List.prefix_append _ _

theorem joinParts_prefix {pre a : List Char} (l : List (List Char)) (h : pre <+: a) : pre <+: joinParts (a :: l) := by
  cases l with
  | nil => exact h
  | cons b l => exact h.trans (List.prefix_append _ _)

theorem opToStr_prefixed {head pre ind : List Char} {parts : List (List Char)} (hh : '\n' ∉ head) (hp : '\n' ∉ pre)
    (h : (pre ++ ind) <+: joinParts parts) (h' : Prefixed (pre ++ ind) (joinParts parts)) :
    Prefixed pre (opToStr head parts pre) := by
  have hend : Prefixed pre ('\n' :: (pre ++ [')'])) :=
    .newline (List.prefix_append _ _) (.of_line (by simp [hp]))
  refine .append (.of_line hp) (.append (.of_line hh) (.newline ?_ (.append h'.shorten hend)))
  exact ((List.prefix_append pre ind).trans h).trans (List.prefix_append _ _)

mutual
theorem serialize_prefixed (hl : ∀ t, P t → '\n' ∉ txt t) (hi : '\n' ∉ ind) : ∀ (f : Formula) {pre : List Char},
    f.Leaves P → f.Filled → '\n' ∉ pre → Prefixed pre (f.serialize txt ind pre)
  | .bit t, pre, hf, _, hp => .of_line (by simp [Formula.serialize, hp, hl t hf])
  | .and l, pre, hf, hn, hp => by
    have := joined_prefixed hl hi l (pre := pre ++ ind) hf hn.2 (by simp [hp, hi])
    exact opToStr_prefixed (by decide) hp (this.1 hn.1) this.2
  | .or l, pre, hf, hn, hp => by
    have := joined_prefixed hl hi l (pre := pre ++ ind) hf hn.2 (by simp [hp, hi])
    exact opToStr_prefixed (by decide) hp (this.1 hn.1) this.2
  | .implies p q, pre, hf, hn, hp => by
    have hpi : '\n' ∉ pre ++ ind := by simp [hp, hi]
    have h1 := serialize_prefixed hl hi p hf.1 hn.1 hpi
    have h2 := serialize_prefixed hl hi q hf.2 hn.2 hpi
    exact opToStr_prefixed (by decide) hp (joinParts_prefix _ (serialize_prefix _ _))
      (.append h1 (.cons (by decide) (.newline (serialize_prefix _ _) h2)))
theorem joined_prefixed (hl : ∀ t, P t → '\n' ∉ txt t) (hi : '\n' ∉ ind) : ∀ (l : List Formula) {pre : List Char},
    Formula.LeavesAll P l → Formula.FilledAll l → '\n' ∉ pre →
    (l ≠ [] → pre <+: joinParts (Formula.serializes txt ind pre l)) ∧
      Prefixed pre (joinParts (Formula.serializes txt ind pre l))
  | [], _, _, _, _ => ⟨fun h => absurd rfl h, .of_line (by simp [Formula.serializes, joinParts])⟩
  | f :: l, pre, hf, hn, hp => by
    refine ⟨fun _ => joinParts_prefix _ (serialize_prefix _ _), ?_⟩
    have h1 := serialize_prefixed hl hi f hf.1 hn.1 hp
    have h2 := joined_prefixed hl hi l hf.2 hn.2 hp
    cases l with
    | nil => exact h1
    | cons g l => exact .append h1 (.cons (by decide) (.newline (h2.1 (by simp)) h2.2))
end

end Smt

/-- **C112** (unambiguous).  Two formulas that print the same are the same, whatever the line prefix and the indentation. -/
theorem C112_unambiguous {txt : Term → List Char} {P : Term → Prop} (hP : Printer txt P) {pre indent : List Char}
    (hp : '\n' ∉ pre) (hi : '\n' ∉ indent) {f g : Formula} (hf : f.Leaves P) (hg : g.Leaves P)
    (h : f.serialize txt indent pre = g.serialize txt indent pre) : f = g :=
  (serialize_inj hP hi f g hf hg hp (r := []) (r' := []) trivial trivial (by simpa using h)).1

/-- **C112** (no formula's text begins another's, if followed by an end of line). -/
theorem C112_prefix_free {txt : Term → List Char} {P : Term → Prop} (hP : Printer txt P) {pre indent : List Char}
    (hp : '\n' ∉ pre) (hi : '\n' ∉ indent) {f g : Formula} (hf : f.Leaves P) (hg : g.Leaves P) {r r' : List Char}
    (h : f.serialize txt indent pre ++ '\n' :: r = g.serialize txt indent pre ++ '\n' :: r') : f = g ∧ r = r' := by
  have := serialize_inj hP hi f g hf hg hp (r := '\n' :: r) (r' := '\n' :: r') trivial trivial h
  exact ⟨this.1, by simpa using this.2⟩

/-- **C112** (lines).  Every line begins with the line prefix, if no `And` or `Or` is empty. -/
theorem C112_lines_partial {txt : Term → List Char} {P : Term → Prop} (hl : ∀ t, P t → '\n' ∉ txt t)
    {pre indent : List Char} (hp : '\n' ∉ pre) (hi : '\n' ∉ indent) {f : Formula} (hf : f.Leaves P) (hn : f.Filled) :
    pre <+: f.serialize txt indent pre ∧ ∀ a b, f.serialize txt indent pre = a ++ '\n' :: b → pre <+: b :=
  ⟨serialize_prefix pre f, serialize_prefixed hl hi f hf hn hp⟩

/-- **C112** (refuted).  An empty `And` prints an empty line, without the prefix. -/
theorem C112_lines_refuted (txt : Term → List Char) (indent : List Char) {pre : List Char} (h : pre ≠ [])
    (hp : '\n' ∉ pre) : ∃ a b, (Formula.and []).serialize txt indent pre = a ++ '\n' :: b ∧ ¬ pre <+: b := by
  refine ⟨pre ++ Formula.andHead, '\n' :: (pre ++ [')']), by simp [Formula.serialize, opToStr, Formula.serializes, joinParts], ?_⟩
  cases pre with
  | nil => exact absurd rfl h
  | cons c pre =>
    rintro ⟨t, ht⟩
    simp only [List.cons_append, List.cons.injEq] at ht
    exact hp (by rw [ht.1]; simp)

/-- Two bits, as pysmt prints them. -/
def Smt.demoTxt : Term → List Char
  | .boolC true => ['T', 'r', 'u', 'e']
  | .boolC false => ['F', 'a', 'l', 's', 'e']
  | _ => ['x']

theorem Smt.demo_printer : Printer demoTxt fun t => ∃ b, t = .boolC b := by
  refine ⟨?_, ?_, ?_, ?_, ?_⟩
  · rintro _ ⟨b, rfl⟩; cases b <;> decide
  · rintro _ ⟨b, rfl⟩; cases b <;> decide
  · rintro _ ⟨b, rfl⟩; cases b <;> decide
  · rintro _ ⟨b, rfl⟩; cases b <;> decide
  · rintro _ _ ⟨b, rfl⟩ ⟨b', rfl⟩ h
    cases b <;> cases b' <;> first | rfl | exact absurd h (by decide)

def Smt.demoForm : Formula := .implies (.and [.bit (.boolC true), .or [.bit (.boolC false)]]) (.bit (.boolC false))

/-- The text of the demonstration formula with prefix `#` and indentation `|`. -/
example : demoForm.serialize demoTxt ['|'] ['#'] =
    ("#Implies(\n#|And(\n#||True,\n#||Or(\n#|||False\n#||)\n#|),\n#|False\n#)").toList := by
  decide +kernel

example (g : Formula) (hg : g.Leaves fun t => ∃ b, t = .boolC b)
    (h : demoForm.serialize demoTxt ['|'] ['#'] = g.serialize demoTxt ['|'] ['#']) : demoForm = g :=
  C112_unambiguous demo_printer (by decide) (by decide) ⟨⟨⟨true, rfl⟩, ⟨⟨false, rfl⟩, trivial⟩, trivial⟩, ⟨false, rfl⟩⟩ hg h

example : ['#'] <+: demoForm.serialize demoTxt ['|'] ['#'] :=
  (C112_lines_partial (f := demoForm) (P := fun t => ∃ b, t = .boolC b) (fun t => demo_printer.line t) (by decide)
    (by decide) ⟨⟨⟨true, rfl⟩, ⟨⟨false, rfl⟩, trivial⟩, trivial⟩, ⟨false, rfl⟩⟩
    ⟨⟨by simp, trivial, ⟨by simp, trivial, trivial⟩, trivial⟩, trivial⟩).1

end HW
