import Verif.Lemmas.Smt.Names

/-!
# Properties C40 and C76: names of symbolic values
-/

namespace HW
open Smt

/-- The tables after a history of constructor calls and deaths of objects, from the start of the program. -/
def after (h : List NameCmd) : NameState := (NameState.init.run h).1

/-- The calls of a history with their outcomes. -/
def outcomes (h : List NameCmd) : List (NameCmd × PyM (Option Name)) := (NameState.init.run h).2

/-- A symbolic constructor call without `name=`; `pre = none`: without `prefix=`. -/
abbrev autoCall (ty : Ty) (pre : Option Name) : NameCmd := .create ty true .automatic pre

theorem after_inv (h : List NameCmd) : NameInv (after h) (outcomes h) := by
  simpa [after, outcomes] using NameInv.init.run h

theorem auto_step {s : NameState} {tr} (hi : NameInv s tr) (ty : Ty) (pre : Option Name) :
    ∃ j, s.counters (pre.getD ['V']) ≤ j ∧ s.has (autoName (pre.getD ['V']) j) = false ∧
      (((s.step (autoCall ty pre)).2 = .ok (some (autoName (pre.getD ['V']) j)) ∧
          (∀ ty', (autoName (pre.getD ['V']) j, ty') ∉ s.syms) ∨
            (s.step (autoCall ty pre)).2 = .ok (some (autoName (pre.getD ['V']) j)) ∧
            autoName (pre.getD ['V']) j ∈ s.syms.map Prod.fst) ∨
        (s.step (autoCall ty pre)).2 = .error .typeError ∧
          ∃ ty', (autoName (pre.getD ['V']) j, ty') ∈ s.syms ∧ ty' ≠ ty) := by
  cases hg : genName s (pre.getD ['V']) with
  | none =>
    unfold genName at hg
    split at hg
    · cases hg
    · rename_i hg'; exact (genGo_total _ _ _ hg').elim
  | some r =>
    obtain ⟨n, s'⟩ := r
    obtain ⟨j, hj, rfl, hh, rfl⟩ := genName_spec hg
    refine ⟨j, hj, hh, ?_⟩
    have hst : s.step (autoCall ty pre) =
        ({ s with counters := fun q => if q = pre.getD ['V'] then j + 1 else s.counters q } : NameState).enter
          (autoName (pre.getD ['V']) j) ty := by
      simp [NameState.step, NameState.create, hg]
    rw [hst]
    have hi' := hi.count hj
    rcases enter_spec (ty := ty) (s := { s with counters := fun q => if q = pre.getD ['V'] then j + 1 else s.counters q })
      hh hi'.ids hi'.objs with ⟨sy, he, hsy⟩ | ⟨-, he⟩ | ⟨he, hty⟩
    · rw [he]
      rcases hsy with ⟨-, h1⟩ | ⟨-, h1⟩
      · exact .inl (.inr ⟨rfl, h1⟩)
      · refine .inl (.inl ⟨rfl, fun ty' hm => h1 (List.mem_map.2 ⟨_, hm, rfl⟩)⟩)
    · exact (autoName_ne_nil _ _ he).elim
    · rw [he]; exact .inr ⟨rfl, hty⟩

/-- **C40** an automatically chosen name, with or without a prefix, is not the name of any live symbolic
value and was never before chosen automatically, whatever the history. -/
theorem C40_fresh (h : List NameCmd) (ty : Ty) (pre : Option Name) (n : Name)
    (hn : ((after h).step (autoCall ty pre)).2 = .ok (some n)) :
    (∀ id, (id, n) ∉ (after h).objs) ∧ ∀ ty' pre', (autoCall ty' pre', .ok (some n)) ∉ outcomes h := by
  have hi := after_inv h
  obtain ⟨j, hj, hh, hc⟩ := auto_step hi ty pre
  have hn' : n = autoName (pre.getD ['V']) j := by
    rcases hc with (⟨hc, -⟩ | ⟨hc, -⟩) | ⟨hc, -⟩ <;> rw [hc] at hn <;> simp at hn
    · exact hn.symm
    · exact hn.symm
  subst hn'
  constructor
  · intro id hm
    have := (has_iff _ _).2 ⟨id, (hi.objs _ _).2 hm⟩
    simp [hh] at this
  · intro ty' pre' hm
    obtain ⟨p, k, h1, h2⟩ := hi.auto ty' pre' _ hm
    obtain ⟨h3, h4⟩ := autoName_inj h1
    rw [← h3] at h2
    omega

/-- **C40** the search for a name always ends with one; the call can only fail because pysmt has the name
as a variable of another sort. -/
theorem C40_total (h : List NameCmd) (ty : Ty) (pre : Option Name) :
    (∃ n, ((after h).step (autoCall ty pre)).2 = .ok (some n)) ∨
    (((after h).step (autoCall ty pre)).2 = .error .typeError ∧ ∃ n ty', (n, ty') ∈ (after h).syms ∧ ty' ≠ ty) := by
  obtain ⟨j, -, -, (⟨hc, -⟩ | ⟨hc, -⟩) | ⟨hc, ty', h1, h2⟩⟩ := auto_step (after_inv h) ty pre
  · exact .inl ⟨_, hc⟩
  · exact .inl ⟨_, hc⟩
  · exact .inr ⟨hc, _, ty', h1, h2⟩

/-- **C40** no two live symbolic values have the same name. -/
theorem C40_distinct (h : List NameCmd) : ((after h).objs.map Prod.snd).Nodup := (after_inv h).names

/-- **C40** explicitly asking for the name of a live symbolic value raises `ValueError` and changes
nothing. -/
theorem C40_live_name (h : List NameCmd) (ty : Ty) (n : Name) (id : Nat) (hl : (id, n) ∈ (after h).objs) :
    (after h).step (.create ty true (.str n) none) = (after h, .error .valueError) := by
  have := (has_iff _ _).2 ⟨id, ((after_inv h).objs _ _).2 hl⟩
  simp [NameState.step, NameState.create, this]

/-- **C40** any other non-empty name is granted, unless pysmt knows it with another sort; the value is then
live under that name. -/
theorem C40_explicit (h : List NameCmd) (ty : Ty) (n : Name) (hne : n ≠ [])
    (hl : ∀ id, (id, n) ∉ (after h).objs) (hs : ∀ ty', (n, ty') ∈ (after h).syms → ty' = ty) :
    ((after h).step (.create ty true (.str n) none)).2 = .ok (some n) ∧
    ((after h).next, n) ∈ ((after h).step (.create ty true (.str n) none)).1.objs := by
  have hi := after_inv h
  have hh : (after h).has n = false := by
    rw [Bool.eq_false_iff]
    intro hc
    obtain ⟨id, hm⟩ := (has_iff _ _).1 hc
    exact hl id ((hi.objs _ _).1 hm)
  have hst : (after h).step (.create ty true (.str n) none) = (after h).enter n ty := by
    simp [NameState.step, NameState.create, hh]
  rw [hst]
  rcases enter_spec (ty := ty) hh hi.ids hi.objs with ⟨sy, he, -⟩ | ⟨-, he⟩ | ⟨-, ty', h1, h2⟩
  · rw [he]; exact ⟨rfl, by simp⟩
  · exact (hne he).elim
  · exact (h2 (hs ty' h1)).elim

/-- **C40** a value that is not symbolic cannot be named: `TypeError`, whatever name or prefix. -/
theorem C40_value_named (s : NameState) (ty : Ty) (name : NameArg) (pre : Option Name)
    (h : name ≠ .automatic ∨ pre ≠ none) :
    s.step (.create ty false name pre) = (s, .error .typeError) := by
  simp [NameState.step, NameState.create, h]

/-- **C40** `name=` together with `prefix=` is a `ValueError`; a name that is not a string a `TypeError`. -/
theorem C40_bad_arguments (s : NameState) (ty : Ty) (name : NameArg) (p : Name) (h : name ≠ .automatic) :
    s.step (.create ty true name (some p)) = (s, .error .valueError) ∧
    s.step (.create ty true .other none) = (s, .error .typeError) := by
  simp [NameState.step, NameState.create, h]

/-- The explicit name `V_1` is skipped; after its object dies the automatic names go on. -/
example : (outcomes [autoCall .bool none, .create .bool true (.str ['V', '_', '1']) none, autoCall .bool none,
      .create .bool true (.str ['V', '_', '1']) none, .drop 1, autoCall .bool none]).map Prod.snd =
    [.ok (some ['V', '_', '0']), .ok (some ['V', '_', '1']), .ok (some ['V', '_', '2']), .error .valueError,
     .ok none, .ok (some ['V', '_', '3'])] := by decide

/-! ## C76 -/

/-- **C76 (partial)**: full claim: a new automatically named value is a variable no earlier term mentions
(all variables of terms are in pysmt's symbol table).  Proved for histories in which no explicit name looks
like an automatic one with the same prefix. -/
theorem C76_new_variable_partial (h : List NameCmd) (ty : Ty) (pre : Option Name)
    (hx : ∀ k ty' pre', (NameCmd.create ty' true (.str (autoName (pre.getD ['V']) k)) pre') ∉ h) :
    ∃ n, ((after h).step (autoCall ty pre)).2 = .ok (some n) ∧ ∀ ty', (n, ty') ∉ (after h).syms := by
  have hi := after_inv h
  obtain ⟨j, hj, hh, hc⟩ := auto_step hi ty pre
  have key : autoName (pre.getD ['V']) j ∉ (after h).syms.map Prod.fst := by
    intro hm
    rcases hi.decl _ hm with ⟨p, k, h1, h2⟩ | ⟨ty', pre', h1⟩
    · obtain ⟨h3, h4⟩ := autoName_inj h1
      rw [← h3] at h2; omega
    · have : ∀ (s : NameState) l, ∀ x ∈ (s.run l).2, x.1 ∈ l := by
        intro s l
        induction l generalizing s with
        | nil => simp [NameState.run]
        | cons c l ih =>
          intro x hx
          simp only [NameState.run, List.mem_cons] at hx
          rcases hx with rfl | hx
          · simp
          · exact List.mem_cons_of_mem _ (ih _ x hx)
      exact hx _ _ _ (this _ _ _ h1)
  refine ⟨autoName (pre.getD ['V']) j, ?_, fun ty' hm => key (List.mem_map.2 ⟨_, hm, rfl⟩)⟩
  rcases hc with (⟨hc, -⟩ | ⟨hc, -⟩) | ⟨-, ty', hm, -⟩
  · exact hc
  · exact hc
  · exact (key (List.mem_map.2 ⟨_, hm, rfl⟩)).elim

example : (autoCall .bool none) ∈ [autoCall .bool none, .create (.bv 8) true (.str ['x']) none] ∧
    (after [autoCall .bool none, .create (.bv 8) true (.str ['x']) none]).syms =
      [(['x'], .bv 8), (['V', '_', '0'], .bool)] := by decide

/-- **C76 refuted**: after a value explicitly named `V_0` has died, the first automatic value is the same
variable again — terms built from the first one mention it. -/
theorem C76_alias_refuted :
    let h := [NameCmd.create (.bv 8) true (.str ['V', '_', '0']) none, .drop 0]
    ((after h).step (autoCall (.bv 8) none)).2 = .ok (some ['V', '_', '0']) ∧
    (['V', '_', '0'], Ty.bv 8) ∈ (after h).syms := by decide

/-- **C76 refuted**: with another sort the call fails. -/
theorem C76_sort_refuted :
    ((after [.create (.bv 8) true (.str ['V', '_', '0']) none, .drop 0]).step (autoCall .bool none)).2 =
      .error .typeError := by decide

end HW
