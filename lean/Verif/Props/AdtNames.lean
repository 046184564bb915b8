import Verif.Model.Adt.Names
import Mathlib.Data.List.Perm.Basic
import Mathlib.Data.List.Nodup

/-! # Properties C68 and C91: field names -/

namespace HW

open Adt.Names

namespace Adt.Names.Spec

/-- `__x__` with a middle part that neither begins nor ends with an underscore. -/
def Dunder (n : Str) : Prop := ∃ mid : Str, mid ≠ [] ∧ n = ['_', '_'] ++ mid ++ ['_', '_'] ∧
  mid.head? ≠ some '_' ∧ mid.getLast? ≠ some '_'

/-- `_x_` likewise. -/
def Sunder (n : Str) : Prop := ∃ mid : Str, mid ≠ [] ∧ n = ['_'] ++ mid ++ ['_'] ∧
  mid.head? ≠ some '_' ∧ mid.getLast? ≠ some '_'

/-- The entry of a class body declares a field. -/
def Declares (m : Meta) (e : Str × Obj) : Prop :=
  ¬ Dunder e.1 ∧ ¬ Sunder e.1 ∧ e.2.descr = false ∧ (if m = .enum then e.2.isInt else e.2.isType) = true

/-- The names of the library that a field cannot have. -/
def plainNames : List String :=
  ["enumerate", "fields", "field_dict", "is_bound", "is_cached", "value_dict", "from_values"]

/-- The names of the library that nothing in a class body can have. -/
def sunderNames : List String :=
  ["_value_", "_tag_", "_cached_", "_fields_", "_field_table_", "_unbound_base_", "_syntax_"]

end Adt.Names.Spec

open Adt.Names.Spec

namespace Adt.Names

theorem wrap_split (c : Nat) (n : Str) (h : 2 * c < n.length) : ∃ a mid b : Str, n = a ++ mid ++ b ∧ a.length = c ∧
    b.length = c ∧ mid ≠ [] ∧ a = n.take c ∧ b = n.drop (n.length - c) ∧ mid.head? = n[c]? ∧
    mid.getLast? = n[n.length - c - 1]? := by
  refine ⟨n.take c, (n.drop c).take (n.length - 2 * c), n.drop (n.length - c), ?_, by simp; omega, by simp; omega, ?_,
    rfl, rfl, ?_, ?_⟩
  · have e : n.drop (n.length - c) = (n.drop c).drop (n.length - 2 * c) := by
      rw [List.drop_drop]; congr 1; omega
    rw [e, List.append_assoc, List.take_append_drop, List.take_append_drop]
  · intro h'
    have := congrArg List.length h'
    simp at this; omega
  · rw [List.head?_take, if_neg (by omega), List.head?_drop]
  · rw [List.getLast?_eq_getElem?, List.getElem?_take]
    simp only [List.length_take, List.length_drop]
    rw [if_pos (by omega), List.getElem?_drop]
    congr 1; omega

theorem isDunder_iff (n : Str) : isDunder n = true ↔ Dunder n := by
  simp only [isDunder, Bool.and_eq_true, decide_eq_true_eq, beq_iff_eq, bne_iff_ne]
  constructor
  · rintro ⟨⟨⟨⟨h1, h2⟩, h3⟩, h4⟩, h5⟩
    obtain ⟨a, mid, b, e, _, _, hm, ha, hb, hh, hl⟩ := wrap_split 2 n (by omega)
    refine ⟨mid, hm, by rw [ha, h2, hb, h3] at e; exact e, by rw [hh]; exact h4, ?_⟩
    rw [hl]
    rwa [show n.length - 2 - 1 = n.length - 3 by omega]
  · rintro ⟨mid, hm, rfl, hh, hl⟩
    have hpos : 0 < mid.length := List.length_pos_iff.2 hm
    have hlen : (['_', '_'] ++ mid ++ ['_', '_']).length = mid.length + 4 := by simp
    obtain ⟨a, mid', b, e, la, lb, _, ha, hb, hh', hl'⟩ := wrap_split 2 (['_', '_'] ++ mid ++ ['_', '_']) (by omega)
    have ea : a = ['_', '_'] := by rw [ha]; rfl
    have e2 : mid ++ ['_', '_'] = mid' ++ b := by
      rw [ea] at e; simpa using e
    obtain ⟨em, eb⟩ := List.append_inj' e2 (by simp [lb])
    subst em eb
    refine ⟨⟨⟨⟨by omega, by rw [← ha, ea]⟩, hb.symm⟩, by rw [← hh']; exact hh⟩, ?_⟩
    rw [show (['_', '_'] ++ mid ++ ['_', '_']).length - 3 = (['_', '_'] ++ mid ++ ['_', '_']).length - 2 - 1 by omega,
      ← hl']
    exact hl

theorem isSunder_iff (n : Str) : isSunder n = true ↔ Sunder n := by
  simp only [isSunder, Bool.and_eq_true, decide_eq_true_eq, beq_iff_eq, bne_iff_ne]
  constructor
  · rintro ⟨⟨⟨⟨h1, h2⟩, h3⟩, h4⟩, h5⟩
    obtain ⟨a, mid, b, e, la, lb, hm, ha, hb, hh, hl⟩ := wrap_split 1 n (by omega)
    have ea : a = ['_'] := by
      rw [ha]; cases n with
      | nil => simp at h1
      | cons x n => simp at h2; subst h2; rfl
    have eb : b = ['_'] := by
      match b, lb with
      | [x], _ =>
        have : (n.drop (n.length - 1)).head? = n[n.length - 1]? := by rw [List.head?_drop]
        rw [← hb, h3] at this
        simp at this; subst this; rfl
    refine ⟨mid, hm, by rw [← ea]; rw [ea]; rw [ea, eb] at e; exact e, by rw [hh]; exact h4, ?_⟩
    rw [hl]
    rwa [show n.length - 1 - 1 = n.length - 2 by omega]
  · rintro ⟨mid, hm, rfl, hh, hl⟩
    have hpos : 0 < mid.length := List.length_pos_iff.2 hm
    have hlen : (['_'] ++ mid ++ ['_']).length = mid.length + 2 := by simp
    obtain ⟨a, mid', b, e, la, lb, _, ha, hb, hh', hl'⟩ := wrap_split 1 (['_'] ++ mid ++ ['_']) (by omega)
    have ea : a = ['_'] := by rw [ha]; rfl
    have e2 : mid ++ ['_'] = mid' ++ b := by
      rw [ea] at e; simpa using e
    obtain ⟨em, eb⟩ := List.append_inj' e2 (by simp [lb])
    subst em eb
    refine ⟨⟨⟨⟨by omega, rfl⟩, ?_⟩, by rw [← hh']; exact hh⟩, ?_⟩
    · rw [hlen, List.getElem?_append_right (by simp)]
      simp
    · rw [show (['_'] ++ mid ++ ['_']).length - 2 = (['_'] ++ mid ++ ['_']).length - 1 - 1 by omega, ← hl']
      exact hl

/-- Reserved names of the first kind are ordinary names. -/
theorem reserved_plain {n : Str} (h : n ∈ reservedNames) : isDunder n = false ∧ isSunder n = false ∧
    n ∉ reservedSunders := by
  have : ∀ n ∈ reservedNames, isDunder n = false ∧ isSunder n = false ∧ n ∉ reservedSunders := by decide
  exact this n h

/-- Entries at which the loop raises. -/
def Bad (e : Str × Obj) : Prop := e.1 ∈ reservedSunders ∨ (e.1 ∈ reservedNames ∧ e.2.descr = false)

theorem scan_bad (m : Meta) (l : List (Str × Obj)) (h : ∃ e ∈ l, Bad e) : scan m l = .error .reservedNameError := by
  induction l with
  | nil => obtain ⟨e, he, _⟩ := h; simp at he
  | cons x l ih =>
    obtain ⟨k, v⟩ := x
    simp only [scan]
    have rest : ¬ Bad (k, v) → scan m l = .error .reservedNameError := by
      intro hb
      apply ih
      obtain ⟨e, he, hbe⟩ := h
      simp only [List.mem_cons] at he
      rcases he with rfl | he
      · exact absurd hbe hb
      · exact ⟨e, he, hbe⟩
    split
    · rfl
    · rename_i h1
      split
      · rename_i h2
        rw [rest]
        · rfl
        · rintro (h3 | ⟨h3, h4⟩)
          · exact h1 h3
          · have := reserved_plain h3
            dsimp only at h4
            simp [this.1, this.2.1, h4] at h2
      · split
        · rfl
        · rename_i h3
          rw [rest (by rintro (h4 | ⟨h4, _⟩); exacts [h1 h4, h3 h4])]
          split <;> rfl

theorem scan_good (m : Meta) (l : List (Str × Obj)) (h : ∀ e ∈ l, ¬ Bad e) :
    scan m l = .ok (l.filter (fun e => !(isDunder e.1 || isSunder e.1 || e.2.descr) && m.isField e.2),
      l.filter (fun e => !(!(isDunder e.1 || isSunder e.1 || e.2.descr) && m.isField e.2))) := by
  induction l with
  | nil => rfl
  | cons x l ih =>
    obtain ⟨k, v⟩ := x
    have hx := h (k, v) (by simp)
    simp only [Bad, not_or, not_and] at hx
    simp only [scan, ih fun e he => h e (by simp [he])]
    rw [if_neg hx.1]
    split
    · rename_i h2
      simp only [bind, Except.bind, pure, Except.pure, List.filter_cons, h2]
      simp
    · rename_i h2
      have h2' : (isDunder k || isSunder k || v.descr) = false := by simpa using h2
      rw [if_neg (fun hk => by
        have := hx.2 hk
        simp only [Bool.or_eq_false_iff] at h2'
        exact this h2'.2)]
      split <;> rename_i h3 <;> simp only [bind, Except.bind, pure, Except.pure, List.filter_cons, h2'] <;> simp [h3]

end Adt.Names

/-- **C68** (class syntax).  A body that binds a reserved name to anything but a descriptor - so in particular to a
type, an int or `Auto` - raises `ReservedNameError`, whatever else it contains. -/
theorem C68_class (m : Meta) (body : List (Str × Obj)) {n : Str} {v : Obj} (hb : (n, v) ∈ body)
    (hr : n ∈ reservedAttrs) (hd : v.descr = false) :
    scan m body = .error .reservedNameError := by
  apply scan_bad
  simp only [reservedAttrs, List.mem_append] at hr
  exact ⟨_, hb, hr.elim (fun h => Or.inr ⟨h, hd⟩) Or.inl⟩

/-- **C68** (class syntax, exactly).  The loop raises only `ReservedNameError`, and exactly for bodies that bind a
reserved sunder, or a reserved ordinary name to something other than a descriptor (a method, say). -/
theorem C68_class_iff (m : Meta) (body : List (Str × Obj)) (err : PyErr) : scan m body = .error err ↔
    err = .reservedNameError ∧ ∃ e ∈ body, e.1 ∈ reservedSunders ∨ (e.1 ∈ reservedNames ∧ e.2.descr = false) := by
  by_cases h : ∃ e ∈ body, Bad e
  · rw [scan_bad m body h]
    constructor
    · rintro ⟨⟩; exact ⟨rfl, h⟩
    · rintro ⟨rfl, _⟩; rfl
  · rw [scan_good m body (fun e he hb => h ⟨e, he, hb⟩)]
    constructor
    · nofun
    · rintro ⟨_, h'⟩; exact absurd h' h

/-- **C68** (which entries are fields).  Otherwise the fields are, in order, the entries with a name that is neither
`__x__` nor `_x_` whose value is of the right kind and no descriptor; all other entries stay attributes; and no
field has a reserved name. -/
theorem C68_fields {m : Meta} {body fs rest : List (Str × Obj)} (h : scan m body = .ok (fs, rest)) :
    fs.Sublist body ∧ rest.Sublist body ∧ (∀ e ∈ body, e ∈ fs ↔ Declares m e) ∧
      (∀ e ∈ body, e ∈ rest ↔ ¬ Declares m e) ∧ fs.length + rest.length = body.length ∧
      ∀ e ∈ fs, e.1 ∉ reservedAttrs := by
  have hg : ∀ e ∈ body, ¬ Bad e := by
    intro e he hb
    rw [scan_bad m body ⟨e, he, hb⟩] at h; cases h
  rw [scan_good m body hg] at h
  simp only [Except.ok.injEq, Prod.mk.injEq] at h
  obtain ⟨rfl, rfl⟩ := h
  have hdec : ∀ e : Str × Obj, (!(isDunder e.1 || isSunder e.1 || e.2.descr) && m.isField e.2) = true ↔ Declares m e := by
    intro e
    have hf : (if m = .enum then e.2.isInt else e.2.isType) = m.isField e.2 := by cases m <;> rfl
    simp only [Declares, hf, ← isDunder_iff, ← isSunder_iff, Bool.and_eq_true, Bool.not_eq_true', Bool.or_eq_false_iff,
      Bool.not_eq_true, and_assoc]
  refine ⟨List.filter_sublist, List.filter_sublist, fun e he => ?_, fun e he => ?_, ?_, fun e he hr => ?_⟩
  · rw [List.mem_filter, hdec]; simp [he]
  · rw [List.mem_filter, Bool.not_eq_true', Bool.eq_false_iff, Ne, hdec]; simp [he]
  · rw [← List.countP_eq_length_filter, ← List.countP_eq_length_filter, List.length_eq_countP_add_countP
      (fun e : Str × Obj => !(isDunder e.1 || isSunder e.1 || e.2.descr) && m.isField e.2) (l := body)]
    congr 2
    ext e; simp [Bool.or_assoc]
  · rw [List.mem_filter, hdec] at he
    simp only [reservedAttrs, List.mem_append] at hr
    exact hg e he.1 (hr.elim (fun h => Or.inr ⟨h, he.2.2.2.1⟩) Or.inl)

/-- **C68** (`from_fields`).  On an unbound class `from_fields` raises `ReservedNameError` exactly if a field has a
reserved name. -/
theorem C68_from_fields (fields : List (Str × Obj)) :
    (fromFields false fields = .error .reservedNameError ↔ ∃ e ∈ fields, e.1 ∈ reservedAttrs) ∧
    (fromFields false fields = .ok fields ↔ ∀ e ∈ fields, e.1 ∉ reservedAttrs) := by
  unfold fromFields
  simp only [Bool.false_eq_true, if_false]
  by_cases h : fields.any (fun e => decide (e.1 ∈ reservedAttrs)) = true
  · rw [if_pos h]
    simp only [List.any_eq_true, decide_eq_true_eq] at h
    refine ⟨⟨fun _ => h, fun _ => rfl⟩, ⟨nofun, fun h' => ?_⟩⟩
    obtain ⟨e, he, hr⟩ := h; exact absurd hr (h' e he)
  · rw [if_neg h]
    simp only [List.any_eq_true, decide_eq_true_eq] at h
    exact ⟨⟨nofun, fun h' => absurd h' h⟩, ⟨fun _ e he hr => h ⟨e, he, hr⟩, fun _ => rfl⟩⟩

/-- **C68** (`AnonymousProduct[...]`).  A field called `__module__` fails an assertion, otherwise a field with a
reserved name with single underscores raises `ReservedNameError`, and everything else is accepted as it is. -/
theorem C68_anonymous (idx : List (Str × Obj)) :
    (anonymous idx = .error .assertionError ↔ ∃ e ∈ idx, e.1 = "__module__".toList) ∧
    (anonymous idx = .error .reservedNameError ↔
      (∀ e ∈ idx, e.1 ≠ "__module__".toList) ∧ ∃ e ∈ idx, e.1 ∈ reservedSunders) ∧
    (anonymous idx = .ok (idx.map (·.1)) ↔
      ∀ e ∈ idx, e.1 ≠ "__module__".toList ∧ e.1 ∉ reservedSunders) := by
  have hm : "__module__".toList = modName := by decide
  rw [hm]
  unfold anonymous
  by_cases h : idx.any (fun e => decide (e.1 = modName)) = true
  · rw [if_pos h]
    simp only [List.any_eq_true, decide_eq_true_eq] at h
    obtain ⟨e, he, hr⟩ := h
    exact ⟨⟨fun _ => ⟨e, he, hr⟩, fun _ => rfl⟩, ⟨nofun, fun h => absurd hr (h.1 e he)⟩,
      ⟨nofun, fun h => absurd hr (h e he).1⟩⟩
  · rw [if_neg h]
    simp only [List.any_eq_true, decide_eq_true_eq] at h
    by_cases h2 : idx.any (fun e => decide (e.1 ∈ reservedSunders)) = true
    · rw [if_pos h2]
      simp only [List.any_eq_true, decide_eq_true_eq] at h2
      obtain ⟨e, he, hr⟩ := h2
      exact ⟨⟨nofun, fun h' => absurd h' h⟩, ⟨fun _ => ⟨fun e he hr => h ⟨e, he, hr⟩, e, he, hr⟩, fun _ => rfl⟩,
        ⟨nofun, fun h => absurd hr (h e he).2⟩⟩
    · rw [if_neg h2]
      simp only [List.any_eq_true, decide_eq_true_eq] at h2
      exact ⟨⟨nofun, fun h' => absurd h' h⟩, ⟨nofun, fun h => absurd h.2 h2⟩,
        ⟨fun _ e he => ⟨fun hr => h ⟨e, he, hr⟩, fun hr => h2 ⟨e, he, hr⟩⟩, fun _ => rfl⟩⟩

namespace Adt.Names

theorem mem_names (l : List String) (n : Str) : n ∈ l.map String.toList ↔ String.ofList n ∈ l := by
  rw [List.mem_map]
  constructor
  · rintro ⟨s, h, rfl⟩; rwa [String.ofList_toList]
  · intro h; exact ⟨_, h, String.toList_ofList⟩

theorem plain_eq : reservedNames = plainNames.map String.toList := by decide
theorem sunder_eq : reservedSunders = sunderNames.map String.toList := by decide

end Adt.Names

/-- **C68** (the names).  The names in question are the fourteen above: the class statement raises exactly if a
`sunderNames` name is bound, or a `plainNames` name to something other than a descriptor; `from_fields` exactly if a
field has one of the names. -/
theorem C68_listed (m : Meta) (body : List (Str × Obj)) :
    (scan m body = .error .reservedNameError ↔ ∃ e ∈ body, String.ofList e.1 ∈ sunderNames ∨
      (String.ofList e.1 ∈ plainNames ∧ e.2.descr = false)) ∧
    (fromFields false body = .error .reservedNameError ↔
      ∃ e ∈ body, String.ofList e.1 ∈ plainNames ∨ String.ofList e.1 ∈ sunderNames) := by
  simp only [C68_class_iff, (C68_from_fields body).1, reservedAttrs, List.mem_append, plain_eq, sunder_eq, mem_names,
    true_and, and_self]

example (T : Obj) : scan .product [("x".toList, T), ("fields".toList, { id := 3, isType := true })] =
    .error .reservedNameError :=
  ((C68_listed _ _).1).2 ⟨("fields".toList, { id := 3, isType := true }), List.mem_cons_of_mem _ List.mem_cons_self,
    .inr ⟨by rw [String.ofList_toList]; decide, rfl⟩⟩

/-- **C68** (both ways agree).  For fields with ordinary names and values of the right kind, the class statement with
these entries (and the `__module__`, `__qualname__` that Python adds) and `from_fields` declare the same fields, or
both raise `ReservedNameError`. -/
theorem C68_agree (m : Meta) (fields : List (Str × Obj)) (mv qv : Obj) (hf : ∀ e ∈ fields, Declares m e) :
    (scan m ((modName, mv) :: (qualName, qv) :: fields)).map (·.1) = fromFields false fields := by
  have hmod : (modName ∉ reservedSunders ∧ modName ∉ reservedNames ∧ isDunder modName = true) ∧
      (qualName ∉ reservedSunders ∧ qualName ∉ reservedNames ∧ isDunder qualName = true) := by decide
  obtain ⟨⟨m1, m2, m3⟩, ⟨q1, q2, q3⟩⟩ := hmod
  by_cases h : ∃ e ∈ fields, e.1 ∈ reservedAttrs
  · rw [((C68_from_fields fields).1).2 h]
    obtain ⟨e, he, hr⟩ := h
    rw [C68_class m _ (n := e.1) (v := e.2) (by simp [he]) hr (hf e he).2.2.1]
    rfl
  · have hn : ∀ e ∈ fields, e.1 ∉ reservedAttrs := fun e he hr => h ⟨e, he, hr⟩
    rw [((C68_from_fields fields).2).2 hn, scan_good]
    · simp only [Except.map, List.filter_cons, m3, q3, Bool.true_or, Bool.not_true, Bool.false_and, Bool.false_eq_true,
        if_false, Except.ok.injEq]
      rw [List.filter_eq_self]
      intro e he
      obtain ⟨h1, h2, h3, h4⟩ := hf e he
      replace h4 : m.isField e.2 = true := by cases m <;> exact h4
      rw [← isDunder_iff, Bool.not_eq_true] at h1
      rw [← isSunder_iff, Bool.not_eq_true] at h2
      simp [h1, h2, h3, h4]
    · intro e he
      simp only [List.mem_cons] at he
      rcases he with rfl | rfl | he
      · rintro (h | ⟨h, _⟩); exacts [m1 h, m2 h]
      · rintro (h | ⟨h, _⟩); exacts [q1 h, q2 h]
      · have := hn e he
        simp only [reservedAttrs, List.mem_append, not_or] at this
        rintro (h | ⟨h, _⟩); exacts [this.2 h, this.1 h]

/-- **C68** (negation for the rest of the machinery).  `from_fields` takes names that the class statement never makes
fields, such as `__init__`; and `AnonymousProduct[{...}]` takes the reserved name `value_dict` (any of the reserved
ordinary names), whose property then hides the method of the same name. -/
theorem C68_other_negation :
    (∃ n : Str, ∀ (v : Obj) (m : Meta), fromFields false [(n, v)] = .ok [(n, v)] ∧ scan m [(n, v)] = .ok ([], [(n, v)])) ∧
    (∀ n ∈ reservedNames, ∀ v, anonymous [(n, v)] = .ok [n]) := by
  refine ⟨⟨['_', '_', 'i', 'n', 'i', 't', '_', '_'], fun v m => ⟨?_, ?_⟩⟩, fun n hn v => ?_⟩
  · exact ((C68_from_fields _).2).2 (by simp; decide)
  · rw [scan_good m _ (by
      simp only [List.mem_cons, List.not_mem_nil, or_false, forall_eq, Bad]
      rintro (h | ⟨h, _⟩) <;> revert h <;> decide)]
    have : isDunder ['_', '_', 'i', 'n', 'i', 't', '_', '_'] = true := by decide
    simp [this]
  · have : ∀ n ∈ reservedNames, n ≠ modName ∧ n ∉ reservedSunders := by decide
    have := this n hn
    simp [anonymous, this.1, this.2]

/-! ## C91: constructors of products -/

namespace Adt.Names

variable {V : Type}

theorem look_cons (e : Str × V) (l : List (Str × V)) (n : Str) :
    look (e :: l) n = if e.1 = n then some e.2 else look l n := by
  simp only [look, List.find?_cons]
  by_cases h : e.1 = n <;> simp [h]

theorem look_isSome (l : List (Str × V)) (n : Str) : (look l n).isSome ↔ n ∈ l.map (·.1) := by
  induction l with
  | nil => simp [look]
  | cons e l ih =>
    rw [look_cons]
    split
    · rename_i h; simp [h]
    · rename_i h; rw [ih]; simp [Ne.symm h]

theorem look_none (l : List (Str × V)) (n : Str) : look l n = none ↔ n ∉ l.map (·.1) := by
  rw [← look_isSome]; cases look l n <;> simp

theorem look_mem {l : List (Str × V)} (h : (l.map (·.1)).Nodup) {n : Str} {v : V} (hm : (n, v) ∈ l) :
    look l n = some v := by
  induction l with
  | nil => simp at hm
  | cons e l ih =>
    rw [look_cons]
    simp only [List.map_cons, List.nodup_cons, List.mem_map] at h
    simp only [List.mem_cons] at hm
    rcases hm with rfl | hm
    · simp
    · rw [if_neg, ih h.2 hm]
      rintro rfl; exact h.1 ⟨(_, v), hm, rfl⟩

theorem bindRest_ok (ps : List Str) (kw : List (Str × V)) (h : ∀ p ∈ ps, p ∈ kw.map (·.1)) :
    ∃ r, bindRest ps kw = .ok r ∧ r.map (·.1) = ps ∧ ∀ e ∈ r, look kw e.1 = some e.2 := by
  induction ps with
  | nil => exact ⟨[], rfl, rfl, by simp⟩
  | cons p ps ih =>
    obtain ⟨r, h1, h2, h3⟩ := ih fun q hq => h q (by simp [hq])
    obtain ⟨v, hv⟩ := Option.isSome_iff_exists.1 ((look_isSome kw p).2 (h p (by simp)))
    refine ⟨(p, v) :: r, ?_, by simp [h2], ?_⟩
    · simp only [bindRest, hv, h1]; rfl
    · intro e he
      simp only [List.mem_cons] at he
      rcases he with rfl | he
      · exact hv
      · exact h3 e he

theorem zip_fst : ∀ {ps : List Str} {vs : List V}, vs.length ≤ ps.length → (ps.zip vs).map (·.1) = ps.take vs.length
  | _, [], _ => by simp
  | [], _ :: _, h => by simp at h
  | p :: ps, v :: vs, h => by
    simp only [List.zip_cons_cons, List.map_cons, List.length_cons, List.take_succ_cons]
    rw [zip_fst (by simpa using h)]

theorem filterMap_look {ps : List Str} : ∀ {env : List (Str × V)}, env.map (·.1) = ps → ps.Nodup →
    ps.filterMap (look env) = env.map (·.2) := by
  have aux : ∀ (env all : List (Str × V)), (all.map (·.1)).Nodup → env ⊆ all →
      (env.map (·.1)).filterMap (look all) = env.map (·.2) := by
    intro env
    induction env with
    | nil => intros; rfl
    | cons e env ih =>
      intro all hn hs
      have : look all e.1 = some e.2 := look_mem hn (hs (by simp))
      simp only [List.map_cons, List.filterMap_cons, this]
      rw [ih all hn fun x hx => hs (by simp [hx])]
  intro env h hn
  subst h
  exact aux env env hn fun _ h => h

end Adt.Names

/-- **C91** (calls).  Take field names that give a constructor (`creates`), none of them `super` or the name of the
unbound class.  Calling it with the first values positionally and the others by keyword, in any order, hands all
values over in field order. -/
theorem C91_construct {V : Type} (ident : Str → Bool) {uname : Str} {names : List Str} (hc : creates ident names = true)
    (hs : superName ∉ names) (hu : uname ∉ names) (pos rest : List V) (hl : pos.length + rest.length = names.length)
    (kw : List (Str × V)) (hkw : kw.Perm ((names.drop pos.length).zip rest)) :
    construct uname names pos kw = .ok (.passes (pos ++ rest)) := by
  have hnd : names.Nodup := by
    simp only [creates, compiles, Bool.and_eq_true, decide_eq_true_eq, List.nodup_cons] at hc
    exact hc.1.2.2
  have hrl : rest.length = (names.drop pos.length).length := by simp; omega
  have hkeys : (kw.map (·.1)).Perm (names.drop pos.length) := by
    have := hkw.map (·.1)
    rwa [zip_fst (Nat.le_of_eq hrl), hrl, List.take_length] at this
  have hkn : (kw.map (·.1)).Nodup := hkeys.nodup_iff.2 (hnd.sublist (List.drop_sublist _ _))
  obtain ⟨r, h1, h2, h3⟩ := bindRest_ok (names.drop pos.length) kw fun p hp => hkeys.mem_iff.2 hp
  have hrv : r = (names.drop pos.length).zip rest := by
    have hz : ((names.drop pos.length).zip rest).map (·.1) = r.map (·.1) := by
      rw [zip_fst (Nat.le_of_eq hrl), hrl, List.take_length, h2]
    have hlen := congrArg List.length hz
    simp only [List.length_map] at hlen
    refine List.ext_getElem hlen.symm fun i hi hi' => ?_
    have ek : r[i].1 = ((names.drop pos.length).zip rest)[i].1 := by
      have : (((names.drop pos.length).zip rest).map (·.1))[i]? = (r.map (·.1))[i]? := by rw [hz]
      simp only [List.getElem?_map, List.getElem?_eq_getElem hi, List.getElem?_eq_getElem hi'] at this
      exact (Option.some.inj this).symm
    have ev := h3 r[i] (List.getElem_mem hi)
    have hm : (((names.drop pos.length).zip rest)[i].1, ((names.drop pos.length).zip rest)[i].2) ∈ kw :=
      hkw.mem_iff.2 (List.getElem_mem hi')
    rw [ek, look_mem hkn hm] at ev
    exact Prod.ext ek (Option.some.inj ev).symm
  have hb : bindArgs names pos kw = .ok (names.zip pos ++ r) := by
    unfold bindArgs
    rw [if_neg (by omega), if_neg]
    · simp only [h1]; rfl
    · simp only [List.any_eq_true, decide_eq_true_eq, not_exists, not_and, not_not]
      intro e he
      exact hkeys.mem_iff.1 (List.mem_map.2 ⟨e, he, rfl⟩)
  have henv : (names.zip pos ++ r).map (·.1) = names := by
    rw [List.map_append, zip_fst (by omega), h2, List.take_append_drop]
  have hvals : (names.zip pos ++ r).map (·.2) = pos ++ rest := by
    rw [List.map_append, hrv]
    congr 1
    · rw [List.map_snd_zip (by omega)]
    · rw [List.map_snd_zip (by omega)]
  have e1 : look (names.zip pos ++ r) superName = none := (look_none _ _).2 (by rw [henv]; exact hs)
  have e2 : look (names.zip pos ++ r) uname = none := (look_none _ _).2 (by rw [henv]; exact hu)
  simp only [construct, hb, bind, Except.bind, e1, e2, pure, Except.pure]
  rw [filterMap_look henv hnd, hvals]

/-- **C91** (which names).  The constructor can be generated exactly if the names are distinct identifiers, none of
them `cls` or `self`. -/
theorem C91_creates (ident : Str → Bool) (names : List Str) : creates ident names = true ↔
    names.Nodup ∧ (∀ n ∈ names, ident n = true) ∧ clsName ∉ names ∧ selfName ∉ names := by
  simp only [creates, compiles, Bool.and_eq_true, List.all_eq_true, decide_eq_true_eq, List.nodup_cons]
  tauto

/-- **C91** (negation).  None of the names `cls`, `self`, `super` is reserved, and the class statement makes fields of
them; but with a field `cls` or `self` the class cannot be created, and with a field `super` the constructor calls
the value given for it, whatever the other fields are.  Likewise for a field with the name of the unbound class. -/
theorem C91_names_negation {V : Type} (ident : Str → Bool) (m : Meta) (hm : m ≠ .enum) (v : Obj) (hv : v.isType = true)
    (hd : v.descr = false) :
    (∀ n ∈ [clsName, selfName, superName], scan m [(n, v)] = .ok ([(n, v)], [])) ∧
    (∀ names : List Str, clsName ∈ names ∨ selfName ∈ names → creates ident names = false) ∧
    (∀ (uname : Str) (names : List Str) (pos : List V) (o : Outcome V), names.Nodup → superName ∈ names →
      construct uname names pos [] = .ok o → ∃ x ∈ pos, o = .calls x) ∧
    (∀ (uname : Str) (names : List Str) (pos : List V) (o : Outcome V), names.Nodup → superName ∉ names →
      uname ∈ names → construct uname names pos [] = .ok o → ∃ x ∈ pos, o = .superOf x) := by
  have hisf : m.isField v = true := by cases m <;> first | exact hv | exact absurd rfl hm
  have full : ∀ (names : List Str) (pos : List V) (env : List (Str × V)), bindArgs names pos [] = .ok env →
      env = names.zip pos ∧ names.length = pos.length := by
    intro names pos env h
    unfold bindArgs at h
    split at h
    · cases h
    · rename_i hle
      simp only [List.any_nil, Bool.false_eq_true, if_false] at h
      cases hd : names.drop pos.length with
      | nil =>
        rw [hd] at h
        simp only [bindRest, bind, Except.bind, pure, Except.pure, List.append_nil, Except.ok.injEq] at h
        have := congrArg List.length hd
        simp at this
        exact ⟨h.symm, by omega⟩
      | cons p ps => rw [hd] at h; simp [bindRest, look, bind, Except.bind] at h
  have fetch : ∀ (names : List Str) (pos : List V) (n : Str), names.length = pos.length → n ∈ names →
      ∃ x ∈ pos, look (names.zip pos) n = some x := by
    intro names pos n hl hn
    have : n ∈ (names.zip pos).map (·.1) := by
      rw [zip_fst (by omega), ← hl, List.take_length]; exact hn
    obtain ⟨x, hx⟩ := Option.isSome_iff_exists.1 ((look_isSome _ _).2 this)
    refine ⟨x, ?_, hx⟩
    unfold look at hx
    cases hf : (names.zip pos).find? (fun e => e.1 = n) with
    | none => rw [hf] at hx; cases hx
    | some e =>
      rw [hf] at hx
      have := List.mem_of_find?_eq_some hf
      cases hx
      exact (List.of_mem_zip (a := e.1) (b := e.2) this).2
  refine ⟨fun n hn => ?_, fun names hn => ?_, fun uname names pos o hnd hs h => ?_, fun uname names pos o hnd hs hu h => ?_⟩
  · have : ∀ n ∈ [clsName, selfName, superName], isDunder n = false ∧ isSunder n = false ∧ n ∉ reservedSunders ∧
        n ∉ reservedNames := by decide
    obtain ⟨h1, h2, h3, h4⟩ := this n hn
    rw [scan_good m _ (by
      simp only [List.mem_cons, List.not_mem_nil, or_false, forall_eq, Bad]
      rintro (h | ⟨h, _⟩); exacts [h3 h, h4 h])]
    simp [h1, h2, hd, hisf]
  · rw [Bool.eq_false_iff, Ne, C91_creates]
    rintro ⟨_, _, h1, h2⟩
    exact hn.elim h1 h2
  · unfold construct at h
    cases hb : bindArgs names pos ([] : List (Str × V)) with
    | error e => rw [hb] at h; cases h
    | ok env =>
      obtain ⟨rfl, hl⟩ := full _ _ _ hb
      obtain ⟨x, hx, hlx⟩ := fetch names pos superName hl hs
      rw [hb] at h
      simp only [bind, Except.bind, hlx, pure, Except.pure, Except.ok.injEq] at h
      exact ⟨x, hx, h.symm⟩
  · unfold construct at h
    cases hb : bindArgs names pos ([] : List (Str × V)) with
    | error e => rw [hb] at h; cases h
    | ok env =>
      obtain ⟨rfl, hl⟩ := full _ _ _ hb
      obtain ⟨x, hx, hlx⟩ := fetch names pos uname hl hu
      have hsn : look (names.zip pos) superName = none :=
        (look_none _ _).2 (by rw [zip_fst (by omega), ← hl, List.take_length]; exact hs)
      rw [hb] at h
      simp only [bind, Except.bind, hsn, hlx, pure, Except.pure, Except.ok.injEq] at h
      exact ⟨x, hx, h.symm⟩

/-! ### Examples -/

example : scan .product [(['a'], ⟨1, false, true, false⟩), (['_', 'b', '_'], ⟨2, false, true, false⟩), (['c'], ⟨3, true, false, false⟩)] =
    .ok ([(['a'], ⟨1, false, true, false⟩)], [(['_', 'b', '_'], ⟨2, false, true, false⟩), (['c'], ⟨3, true, false, false⟩)]) := by
  decide

example : scan .enum [(['a'], ⟨1, false, false, true⟩), (['f', 'i', 'e', 'l', 'd', 's'], ⟨2, false, false, true⟩)] =
    .error .reservedNameError := by decide

example : Declares .product (['a'], ⟨1, false, true, false⟩) :=
  ⟨by rw [← isDunder_iff]; decide, by rw [← isSunder_iff]; decide, rfl, rfl⟩

example : construct ['T'] [['a'], ['b'], ['c']] [1] [(['c'], 3), (['b'], 2)] = .ok (.passes [1, 2, 3]) := by decide

example : construct ['T'] [['a'], superName] [1, 2] [] = .ok (.calls 2) := by decide

end HW
