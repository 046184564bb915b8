import Verif.Model.Z3.Names
import Verif.Lemmas.Smt.Names

/-! # Lemmas about the name tables of the z3 family -/

namespace HW.Z3
open Smt (autoName_inj filter_self)

theorem vName_inj {j k : Nat} (h : vName j = vName k) : j = k := (autoName_inj h).2

theorem Names.has_iff (s : Names) (n : Name) : s.has n = true ↔ ∃ id, (n, id) ∈ s.table := by
  simp [Names.has]

theorem Names.has_false {s : Names} {n : Name} : s.has n = false ↔ ∀ id, (n, id) ∉ s.table := by
  rw [Bool.eq_false_iff, Ne, s.has_iff]
  push Not
  rfl

theorem Names.genGo_spec {s : Names} : ∀ {fuel k : Nat} {n : Name} {k' : Nat},
    s.genGo k fuel = some (n, k') → ∃ j, k ≤ j ∧ k' = j + 1 ∧ n = vName j ∧ s.has n = false
  | 0, _, _, _, h => by simp [genGo] at h
  | fuel + 1, k, n, k', h => by
    simp only [genGo] at h
    split at h
    · obtain ⟨j, h1, h2⟩ := genGo_spec h
      exact ⟨j, by omega, h2⟩
    · rename_i hk
      simp only [Option.some.injEq, Prod.mk.injEq] at h
      obtain ⟨rfl, rfl⟩ := h
      exact ⟨k, Nat.le_refl _, rfl, rfl, by simpa using hk⟩

theorem Names.genGo_none {s : Names} : ∀ {fuel k : Nat}, s.genGo k fuel = none →
    ∀ i, i < fuel → s.has (vName (k + i)) = true
  | 0, _, _, i, hi => by omega
  | fuel + 1, k, h, i, hi => by
    simp only [genGo] at h
    split at h
    · rename_i hk
      cases i with
      | zero => exact hk
      | succ i =>
        have := genGo_none h i (by omega)
        rwa [show k + (i + 1) = k + 1 + i from by omega]
    · cases h

/-- The search ends: there are more candidates than names in the table. -/
theorem Names.genGo_total (s : Names) (k : Nat) : s.genGo k (s.table.length + 1) ≠ none := by
  intro h
  have hall := genGo_none h
  let l : List Name := (List.range (s.table.length + 1)).map fun i => vName (k + i)
  have hn : l.Nodup := by
    apply List.Pairwise.map _ _ List.nodup_range
    intro a b hab e
    exact hab (by have := vName_inj e; omega)
  have hs : l ⊆ s.table.map Prod.fst := by
    intro n hn
    simp only [l, List.mem_map, List.mem_range] at hn
    obtain ⟨i, hi, rfl⟩ := hn
    simpa [Names.has] using hall i hi
  have := hn.length_le_of_subset hs
  simp [l] at this

theorem Names.gen_spec (s : Names) : ∃ j, s.counter ≤ j ∧ s.has (vName j) = false ∧
    s.gen = some (vName j, { s with counter := j + 1 }) := by
  unfold gen
  cases hg : s.genGo s.counter (s.table.length + 1) with
  | none => exact (s.genGo_total _ hg).elim
  | some r =>
    obtain ⟨n, k⟩ := r
    obtain ⟨j, h1, rfl, rfl, h4⟩ := genGo_spec hg
    exact ⟨j, h1, h4, rfl⟩

/-- The invariant of the tables; `tr` is the history of outcomes. -/
structure NamesInv (s : Names) (tr : List (NameCmd × PyM (Option Name))) : Prop where
  objs : ∀ n id, (n, id) ∈ s.table ↔ ∃ ty, (id, n, ty) ∈ s.objs
  names : (s.objs.map fun o => o.2.1).Nodup
  ids : ∀ n id, (n, id) ∈ s.table → id < s.next
  live : ∀ id n ty, (id, n, ty) ∈ s.objs → (n, ty) ∈ s.consts ∧ ty ≠ .vec 0
  auto : ∀ ty n, (NameCmd.create ty true .automatic, .ok (some n)) ∈ tr → ∃ k, n = vName k ∧ k < s.counter
  decl : ∀ n ty, (n, ty) ∈ s.consts → (∃ k, n = vName k ∧ k < s.counter) ∨
    (NameCmd.create ty true (.str n), .ok (some n)) ∈ tr

theorem NamesInv.init : NamesInv .init [] := by
  constructor <;> simp [Names.init]

theorem NamesInv.quiet {s : Names} {tr} (h : NamesInv s tr) (c : NameCmd) {r : PyM (Option Name)}
    (hr : ∀ n, r ≠ .ok (some n)) : NamesInv s (tr ++ [(c, r)]) where
  objs := h.objs
  names := h.names
  ids := h.ids
  live := h.live
  auto ty n hx := by
    simp only [List.mem_append, List.mem_singleton, Prod.mk.injEq] at hx
    rcases hx with hx | ⟨-, hx⟩
    · exact h.auto ty n hx
    · exact (hr n hx.symm).elim
  decl n ty hn := (h.decl n ty hn).imp id fun h' => List.mem_append_left _ h'

theorem NamesInv.kill {s : Names} {tr} (h : NamesInv s tr) (id : Nat) : NamesInv (s.kill id) tr := by
  refine ⟨?_, ?_, ?_, ?_, h.auto, h.decl⟩
  · intro n i
    simp only [Names.kill, List.mem_filter, h.objs n i]
    constructor
    · rintro ⟨⟨ty, h1⟩, h2⟩; exact ⟨ty, h1, h2⟩
    · rintro ⟨ty, h1, h2⟩; exact ⟨⟨ty, h1⟩, h2⟩
  · exact (List.filter_sublist.map _).nodup h.names
  · intro n i hm
    exact h.ids n i (List.mem_filter.1 hm).1
  · intro i n ty hm
    exact h.live i n ty (List.mem_filter.1 hm).1

/-- What entering a fresh name does. -/
theorem Names.enter_spec {s : Names} {n : Name} (hn : s.has n = false)
    (hids : ∀ m id, (m, id) ∈ s.table → id < s.next)
    (hobjs : ∀ m id, (m, id) ∈ s.table ↔ ∃ ty, (id, m, ty) ∈ s.objs) (ty : Sort') :
    (ty ≠ .vec 0 → s.enter n ty = (⟨s.counter, (n, s.next) :: s.table, (s.next, n, ty) :: s.objs,
      (n, ty) :: s.consts, s.next + 1⟩, .ok (some n))) ∧
    (ty = .vec 0 → s.enter n ty = ({ s with next := s.next + 1 }, .error .z3Exception)) := by
  have hf : s.table.filter (fun e => decide (e.1 ≠ n)) = s.table := by
    apply filter_self
    rintro ⟨m, id⟩ hm
    have : m ≠ n := by
      rintro rfl
      exact has_false.1 hn id hm
    simpa using this
  have hk1 : s.table.filter (fun e => decide (e.2 ≠ s.next)) = s.table := by
    apply filter_self
    rintro ⟨m, id⟩ hm
    have := hids m id hm
    simp; omega
  have hk2 : s.objs.filter (fun o => decide (o.1 ≠ s.next)) = s.objs := by
    apply filter_self
    rintro ⟨id, m, ty⟩ hm
    have := hids m id ((hobjs m id).2 ⟨ty, hm⟩)
    simp; omega
  constructor
  · intro hty
    match ty, hty with
    | .bit, _ => simp only [enter, insert, hf]
    | .vec (k + 1), _ => simp only [enter, insert, hf]
  · rintro rfl
    simp only [enter, insert, hf, kill, hk2]
    rw [List.filter_cons_of_neg (by simp), hk1]

theorem NamesInv.count {s : Names} {tr} (h : NamesInv s tr) {j : Nat} (hj : s.counter ≤ j) :
    NamesInv { s with counter := j + 1 } tr where
  objs := h.objs
  names := h.names
  ids := h.ids
  live := h.live
  auto ty n hx := by
    obtain ⟨k, h1, h2⟩ := h.auto ty n hx
    exact ⟨k, h1, by dsimp only; omega⟩
  decl n ty hx := by
    rcases h.decl n ty hx with ⟨k, h1, h2⟩ | h'
    · exact .inl ⟨k, h1, by dsimp only; omega⟩
    · exact .inr h'

theorem NamesInv.enter {s : Names} {tr} (h : NamesInv s tr) {n : Name} {ty : Sort'} (hn : s.has n = false)
    (c : NameCmd) (hc : (∃ k, n = vName k ∧ k < s.counter) ∨ c = .create ty true (.str n)) :
    NamesInv (s.enter n ty).1 (tr ++ [(c, (s.enter n ty).2)]) := by
  obtain ⟨hs1, hs2⟩ := Names.enter_spec hn h.ids h.objs ty
  by_cases hty : ty = .vec 0
  · rw [hs2 hty]
    have hb : NamesInv { s with next := s.next + 1 } tr := ⟨h.objs, h.names, fun m id hm => by
      have := h.ids m id hm
      dsimp only; omega, h.live, h.auto, h.decl⟩
    exact hb.quiet c nofun
  · rw [hs1 hty]
    have hno : ∀ id ty, (id, n, ty) ∉ s.objs := fun id ty hm => Names.has_false.1 hn id ((h.objs n id).2 ⟨ty, hm⟩)
    constructor
    · intro m id
      simp only [List.mem_cons, Prod.mk.injEq, h.objs m id]
      constructor
      · rintro (⟨rfl, rfl⟩ | ⟨ty', h'⟩)
        · exact ⟨ty, .inl ⟨rfl, rfl, rfl⟩⟩
        · exact ⟨ty', .inr h'⟩
      · rintro ⟨ty', ⟨rfl, rfl, -⟩ | h'⟩
        · exact .inl ⟨rfl, rfl⟩
        · exact .inr ⟨ty', h'⟩
    · simp only [List.map_cons, List.nodup_cons]
      refine ⟨?_, h.names⟩
      intro hm
      obtain ⟨⟨id, m, ty'⟩, h1, h2⟩ := List.mem_map.1 hm
      dsimp only at h2; subst h2
      exact hno _ _ h1
    · intro m id hm
      simp only [List.mem_cons, Prod.mk.injEq] at hm
      rcases hm with ⟨-, rfl⟩ | hm
      · dsimp only; omega
      · have := h.ids m id hm; dsimp only; omega
    · intro id m ty' hm
      simp only [List.mem_cons, Prod.mk.injEq] at hm ⊢
      rcases hm with ⟨-, rfl, rfl⟩ | hm
      · exact ⟨.inl ⟨rfl, rfl⟩, hty⟩
      · exact ⟨.inr (h.live _ _ _ hm).1, (h.live _ _ _ hm).2⟩
    · intro ty' m hm
      simp only [List.mem_append, List.mem_singleton, Prod.mk.injEq] at hm
      rcases hm with hm | ⟨rfl, hm⟩
      · exact h.auto ty' m hm
      · simp only [Except.ok.injEq, Option.some.injEq] at hm
        subst hm
        rcases hc with hc | hc
        · exact hc
        · cases hc
    · intro m ty' hm
      simp only [List.mem_cons, Prod.mk.injEq] at hm
      rcases hm with ⟨rfl, rfl⟩ | hm
      · rcases hc with hc | rfl
        · exact .inl hc
        · exact .inr (by simp)
      · exact (h.decl m ty' hm).imp id fun h' => List.mem_append_left _ h'

theorem NamesInv.step {s : Names} {tr} (h : NamesInv s tr) (c : NameCmd) :
    NamesInv (s.step c).1 (tr ++ [(c, (s.step c).2)]) := by
  cases c with
  | drop id => exact (h.kill id).quiet _ nofun
  | create ty sy name =>
    simp only [Names.step, Names.create]
    split
    · exact h.quiet _ nofun
    rename_i h1
    cases name with
    | other => exact h.quiet _ nofun
    | str n =>
      dsimp only
      split
      · exact h.quiet _ nofun
      · rename_i hn
        have hsy : sy = true := by
          cases sy
          · simp at h1
          · rfl
        subst hsy
        exact h.enter (by simpa using hn) _ (.inr rfl)
    | automatic =>
      dsimp only
      split
      · obtain ⟨j, hj, hh, hg⟩ := s.gen_spec
        rw [hg]
        exact (h.count hj).enter hh _ (.inl ⟨j, rfl, Nat.lt_succ_self j⟩)
      · exact h.quiet _ nofun

theorem NamesInv.run {s : Names} {tr} (h : NamesInv s tr) (l : List NameCmd) :
    NamesInv (s.run l).1 (tr ++ (s.run l).2) := by
  induction l generalizing s tr with
  | nil => simpa [Names.run] using h
  | cons c l ih => simpa [Names.run] using ih (h.step c)

theorem Names.run_mem (l : List NameCmd) : ∀ (s : Names), ∀ x ∈ (s.run l).2, x.1 ∈ l := by
  induction l with
  | nil => simp [Names.run]
  | cons c l ih =>
    intro s x hx
    simp only [Names.run, List.mem_cons] at hx
    rcases hx with rfl | hx
    · simp
    · exact List.mem_cons_of_mem _ (ih _ x hx)

end HW.Z3
