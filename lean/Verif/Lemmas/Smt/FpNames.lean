import Verif.Lemmas.Smt.Names
import Verif.Model.Smt.FpNames

namespace HW.Smt

theorem fvName_inj {j k : Nat} (h : fvName j = fvName k) : j = k := by
  simp only [fvName, List.cons.injEq, true_and] at h
  exact toDigits_inj h

theorem fvName_ne_auto (k : Nat) (p : Name) (j : Nat) : fvName k ≠ autoName p j := by
  intro h
  have h1 : '_' ∈ autoName p j := by simp [autoName]
  rw [← h] at h1
  simp only [fvName, List.mem_cons] at h1
  rcases h1 with h1 | h1 | h1
  · exact absurd h1 (by decide)
  · exact absurd h1 (by decide)
  · exact Nat.underscore_not_in_toDigits h1

theorem freshGo_spec {sy : List (Name × Ty)} : ∀ {fuel k j : Nat}, freshGo sy k fuel = some j →
    k ≤ j ∧ fvName j ∉ sy.map Prod.fst
  | 0, _, _, h => by cases h
  | fuel + 1, k, j, h => by
      unfold freshGo at h
      split at h
      · obtain ⟨h1, h2⟩ := freshGo_spec h; exact ⟨by omega, h2⟩
      · rename_i hn; injection h with h; subst h; exact ⟨le_refl _, hn⟩

theorem freshGo_none {sy : List (Name × Ty)} : ∀ {fuel k : Nat}, freshGo sy k fuel = none →
    ∀ i < fuel, fvName (k + i) ∈ sy.map Prod.fst
  | 0, _, _, _, h => by omega
  | fuel + 1, k, h, i, hi => by
      unfold freshGo at h
      split at h
      · rename_i hm
        cases i with
        | zero => exact hm
        | succ i => have := freshGo_none h i (by omega); rwa [show k + 1 + i = k + (i + 1) by omega] at this
      · cases h

theorem freshGo_total (sy : List (Name × Ty)) (k : Nat) : freshGo sy k (sy.length + 1) ≠ none := by
  intro h
  have hall := freshGo_none h
  let l : List Name := (List.range (sy.length + 1)).map fun i => fvName (k + i)
  have hn : l.Nodup := by
    apply List.Pairwise.map _ _ List.nodup_range
    intro a b hab e
    exact hab (by have := fvName_inj e; omega)
  have hs : l ⊆ sy.map Prod.fst := by
    intro n hn
    simp only [l, List.mem_map, List.mem_range] at hn
    obtain ⟨i, hi, rfl⟩ := hn
    exact hall i hi
  have := hn.length_le_of_subset hs
  simp [l] at this

theorem symbol_ok {s s' : NameState} {n : Name} {ty : Ty} (h : s.symbol n ty = .ok s') :
    n ∈ s'.syms.map Prod.fst ∧ (∀ m ∈ s.syms.map Prod.fst, m ∈ s'.syms.map Prod.fst) ∧
      ∃ sy, s' = { s with syms := sy } ∧ (sy = s.syms ∨ sy = (n, ty) :: s.syms) := by
  unfold NameState.symbol at h
  split at h
  · rename_i d hd
    have h1 := List.find?_some hd
    have h2 := List.mem_of_find?_eq_some hd
    simp only [decide_eq_true_eq] at h1
    split at h
    · injection h with h; subst h
      exact ⟨List.mem_map.2 ⟨d, h2, h1⟩, fun _ h => h, _, rfl, .inl rfl⟩
    · cases h
  · split at h
    · cases h
    · injection h with h; subst h
      exact ⟨by simp, fun m hm => by simp only [List.map_cons, List.mem_cons]; exact .inr hm, _, rfl, .inr rfl⟩

theorem symbol_new {s : NameState} {n : Name} {ty : Ty} (h : n ∉ s.syms.map Prod.fst) (h0 : n ≠ []) :
    s.symbol n ty = .ok { s with syms := (n, ty) :: s.syms } := by
  unfold NameState.symbol
  split
  · rename_i d hd
    have h1 := List.find?_some hd
    simp only [decide_eq_true_eq] at h1
    exact absurd (List.mem_map.2 ⟨d, List.mem_of_find?_eq_some hd, h1⟩) h
  · rw [if_neg h0]

/-- Declaring a variable from outside keeps the invariant of the tables. -/
theorem NameInv.extern {s s' : NameState} {tr} (h : NameInv s tr) {n : Name} {ty : Ty} (hs : s.symbol n ty = .ok s') :
    ∃ tr', NameInv s' tr' := by
  obtain ⟨-, -, sy, rfl, rfl | rfl⟩ := symbol_ok hs
  · exact ⟨tr, h⟩
  · refine ⟨(NameCmd.create ty true (.str n) none, .ok (some n)) :: tr, h.objs, h.keys, h.names, h.ids, ?_, ?_, ?_⟩
    · intro m id hm
      simp only [List.map_cons, List.mem_cons]
      exact .inr (h.syms m id hm)
    · intro ty' pre m hm
      rcases List.mem_cons.1 hm with hm | hm
      · simp at hm
      · exact h.auto ty' pre m hm
    · intro m hm
      simp only [List.map_cons, List.mem_cons] at hm
      rcases hm with rfl | hm
      · exact .inr ⟨ty, none, by simp⟩
      · rcases h.decl m hm with h' | ⟨ty', pre, h'⟩
        · exact .inl h'
        · exact .inr ⟨ty', pre, List.mem_cons_of_mem _ h'⟩

/-- The invariant of the tables of both modules. -/
structure JInv (s : JState) : Prop where
  bits : ∃ tr, NameInv s.b tr
  tab : ∀ n id, (n, id) ∈ s.ftable → (id, n) ∈ s.fobjs
  ids : ∀ id n, (id, n) ∈ s.fobjs → id < s.fnext
  keys : (s.ftable.map Prod.fst).Nodup
  idn : (s.fobjs.map Prod.fst).Nodup
  syms : ∀ id n, (id, n) ∈ s.fobjs → n ∈ s.b.syms.map Prod.fst
  kinds : ∀ id n, (id, n) ∈ s.fobjs → (n, id) ∈ s.ftable ∨ ∃ k, n = fvName k

theorem JInv.init : JInv .init := ⟨⟨[], NameInv.init⟩, by simp [JState.init], by simp [JState.init], by simp [JState.init],
  by simp [JState.init], by simp [JState.init], by simp [JState.init]⟩

/-- What a call in the other classes does to live objects and declared variables. -/
theorem bits_step {s : NameState} {tr} (h : NameInv s tr) (c : NameCmd) :
    (∀ m ∈ s.syms.map Prod.fst, m ∈ (s.step c).1.syms.map Prod.fst) ∧
    ∀ id n, (id, n) ∈ (s.step c).1.objs → (id, n) ∈ s.objs ∨ (∃ ty sy pre, c = .create ty sy (.str n) pre) ∨
      ∃ ty sy pre k, c = .create ty sy .automatic pre ∧ n = autoName (pre.getD ['V']) k := by
  have ent : ∀ {s : NameState} {tr}, NameInv s tr → ∀ {n : Name} {ty : Ty}, s.has n = false →
      (∀ m ∈ s.syms.map Prod.fst, m ∈ (s.enter n ty).1.syms.map Prod.fst) ∧
      ∀ id m, (id, m) ∈ (s.enter n ty).1.objs → (id, m) ∈ s.objs ∨ m = n := by
    intro s tr h n ty hn
    rcases enter_spec (ty := ty) hn h.ids h.objs with ⟨sy, he, hsy⟩ | ⟨he, -⟩ | ⟨he, -⟩
    · rw [he]
      refine ⟨fun m hm => ?_, fun id m hm => ?_⟩
      · rcases hsy with ⟨rfl, -⟩ | ⟨rfl, -⟩
        · exact hm
        · exact List.mem_cons_of_mem _ hm
      · rcases List.mem_cons.1 hm with hm | hm
        · injection hm with h1 h2; exact .inr h2
        · exact .inl hm
    · rw [he]; exact ⟨fun _ hm => hm, fun _ _ hm => .inl hm⟩
    · rw [he]; exact ⟨fun _ hm => hm, fun _ _ hm => .inl hm⟩
  have same : (∀ m ∈ s.syms.map Prod.fst, m ∈ s.syms.map Prod.fst) ∧
    ∀ id n, (id, n) ∈ s.objs → (id, n) ∈ s.objs ∨ (∃ ty sy pre, c = .create ty sy (.str n) pre) ∨
      ∃ ty sy pre k, c = .create ty sy .automatic pre ∧ n = autoName (pre.getD ['V']) k :=
    ⟨fun _ h => h, fun _ _ h => .inl h⟩
  cases c with
  | drop id => exact ⟨fun _ h => h, fun _ _ hm => .inl (List.mem_filter.1 hm).1⟩
  | create ty sy name pre =>
    simp only [NameState.step, NameState.create]
    split
    · exact same
    split
    · exact same
    cases name with
    | other => exact same
    | str n =>
      dsimp only
      split
      · exact same
      · rename_i hn
        obtain ⟨h1, h2⟩ := ent h (ty := ty) (n := n) (by simpa using hn)
        refine ⟨h1, fun id m hm => ?_⟩
        rcases h2 id m hm with h' | rfl
        · exact .inl h'
        · exact .inr (.inl ⟨_, _, _, rfl⟩)
    | automatic =>
      dsimp only
      split
      · split
        · rename_i n s' hg
          obtain ⟨j, hj, hn, hh, rfl⟩ := genName_spec hg
          obtain ⟨h1, h2⟩ := ent (h.count hj) (ty := ty) (n := n) hh
          refine ⟨h1, fun id m hm => ?_⟩
          rcases h2 id m hm with h' | rfl
          · exact .inl h'
          · exact .inr (.inr ⟨_, _, _, j, rfl, hn⟩)
        · exact same
      · exact same

theorem JInv.step {s : JState} (h : JInv s) (c : JCmd) : JInv (s.step c).1 := by
  obtain ⟨tr, hb⟩ := h.bits
  have nofresh : ∀ n, (s.fnext, n) ∉ s.fobjs := fun n hm => by have := h.ids _ _ hm; omega
  have idn' : ∀ n, (((s.fnext, n) :: s.fobjs).map Prod.fst).Nodup := fun n => by
    simp only [List.map_cons, List.nodup_cons]
    refine ⟨fun hm => ?_, h.idn⟩
    obtain ⟨⟨i, m⟩, h1, h2⟩ := List.mem_map.1 hm
    dsimp only at h2; subst h2
    exact nofresh m h1
  cases c with
  | bits c =>
    exact ⟨⟨_, hb.step c⟩, h.tab, h.ids, h.keys, h.idn, fun id n hm => (bits_step hb c).1 _ (h.syms id n hm), h.kinds⟩
  | fpDrop id =>
    refine ⟨⟨tr, hb⟩, ?_, ?_, ?_, ?_, ?_, ?_⟩
    · intro n i hm
      simp only [JState.step, JState.killFp, List.mem_filter] at hm ⊢
      exact ⟨h.tab n i hm.1, hm.2⟩
    · intro i n hm; exact h.ids i n (List.mem_filter.1 hm).1
    · exact (List.filter_sublist.map _).nodup h.keys
    · exact (List.filter_sublist.map _).nodup h.idn
    · intro i n hm; exact h.syms i n (List.mem_filter.1 hm).1
    · intro i n hm
      simp only [JState.step, JState.killFp, List.mem_filter] at hm ⊢
      rcases h.kinds i n hm.1 with h' | h'
      · exact .inl ⟨h', hm.2⟩
      · exact .inr h'
  | fp w sy name =>
    simp only [JState.step, JState.mkFp]
    split
    · exact h
    cases name with
    | other => exact h
    | str n =>
      dsimp only
      split
      · exact h
      · rename_i hn
        cases hs : s.b.symbol n (.bv w) with
        | error e => exact ⟨h.bits, h.tab, fun i m hm => Nat.lt_succ_of_lt (h.ids i m hm), h.keys, h.idn, h.syms, h.kinds⟩
        | ok b =>
          obtain ⟨h1, h2, -⟩ := symbol_ok hs
          refine ⟨hb.extern hs, ?_, ?_, ?_, idn' n, ?_, ?_⟩
          · intro m i hm
            rcases List.mem_cons.1 hm with hm | hm
            · injection hm with e1 e2; subst e1; subst e2; exact List.mem_cons_self
            · exact List.mem_cons_of_mem _ (h.tab m i hm)
          · intro i m hm
            rcases List.mem_cons.1 hm with hm | hm
            · injection hm with e1 e2; subst e1; exact Nat.lt_succ_self _
            · exact Nat.lt_succ_of_lt (h.ids i m hm)
          · simp only [List.map_cons, List.nodup_cons]; exact ⟨hn, h.keys⟩
          · intro i m hm
            rcases List.mem_cons.1 hm with hm | hm
            · injection hm with e1 e2; subst e2; exact h1
            · exact h2 _ (h.syms i m hm)
          · intro i m hm
            rcases List.mem_cons.1 hm with hm | hm
            · injection hm with e1 e2; subst e1; subst e2; exact .inl List.mem_cons_self
            · exact (h.kinds i m hm).imp (List.mem_cons_of_mem _) id
    | automatic =>
      dsimp only
      split
      · split
        · rename_i k hk
          cases hs : s.b.symbol (fvName k) (.bv w) with
          | error e => exact h
          | ok b =>
            obtain ⟨h1, h2, -⟩ := symbol_ok hs
            refine ⟨hb.extern hs, ?_, ?_, h.keys, idn' _, ?_, ?_⟩
            · exact fun m i hm => List.mem_cons_of_mem _ (h.tab m i hm)
            · intro i m hm
              rcases List.mem_cons.1 hm with hm | hm
              · injection hm with e1 e2; subst e1; exact Nat.lt_succ_self _
              · exact Nat.lt_succ_of_lt (h.ids i m hm)
            · intro i m hm
              rcases List.mem_cons.1 hm with hm | hm
              · injection hm with e1 e2; subst e2; exact h1
              · exact h2 _ (h.syms i m hm)
            · intro i m hm
              rcases List.mem_cons.1 hm with hm | hm
              · injection hm with e1 e2; subst e2; exact .inr ⟨k, rfl⟩
              · exact h.kinds i m hm
        · exact h
      · exact h

theorem JInv.run {s : JState} (h : JInv s) : ∀ l : List JCmd, JInv (s.run l)
  | [] => h
  | c :: l => JInv.run (h.step c) l

end HW.Smt
