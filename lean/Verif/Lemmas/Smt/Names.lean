import Verif.Model.Smt.Names

/-! # Lemmas about automatic names and the name tables -/

namespace HW.Smt

theorem digitChar_inj {a b : Nat} (ha : a < 10) (hb : b < 10) (h : a.digitChar = b.digitChar) : a = b := by
  have : ∀ a b : Fin 10, (a : Nat).digitChar = (b : Nat).digitChar → a = b := by decide
  have := this ⟨a, ha⟩ ⟨b, hb⟩ h
  exact congrArg Fin.val this

theorem toDigits_inj {a : Nat} : ∀ {b : Nat}, Nat.toDigits 10 a = Nat.toDigits 10 b → a = b := by
  induction a using Nat.strongRecOn with
  | ind a ih =>
    intro b h
    rw [Nat.toDigits_eq_if (by decide), Nat.toDigits_eq_if (n := b) (by decide)] at h
    have pos : ∀ n, Nat.toDigits 10 n ≠ [] := fun n hn => by
      rw [Nat.toDigits_eq_if (by decide)] at hn
      split at hn <;> simp at hn
    by_cases ha : a < 10 <;> by_cases hb : b < 10
    · rw [if_pos ha, if_pos hb] at h
      injection h with h
      exact digitChar_inj ha hb h
    · rw [if_pos ha, if_neg hb] at h
      have := congrArg List.length h
      have := List.length_pos_iff.2 (pos (b / 10))
      simp at *
    · rw [if_neg ha, if_pos hb] at h
      have := congrArg List.length h
      have := List.length_pos_iff.2 (pos (a / 10))
      simp at *
    · rw [if_neg ha, if_neg hb] at h
      obtain ⟨h1, h2⟩ := List.append_inj' h rfl
      have h3 := ih (a / 10) (by omega) h1
      injection h2 with h2
      have := digitChar_inj (Nat.mod_lt _ (by decide)) (Nat.mod_lt _ (by decide)) h2
      omega

/-- A text splits in only one way at its last underscore. -/
theorem split_last {c : Char} {a a' b b' : List Char} (hb : c ∉ b) (hb' : c ∉ b')
    (h : a ++ c :: b = a' ++ c :: b') : a = a' ∧ b = b' := by
  induction a generalizing a' with
  | nil =>
    cases a' with
    | nil => simpa using h
    | cons d a' =>
      simp only [List.nil_append, List.cons_append, List.cons.injEq] at h
      exact (hb (h.2 ▸ by simp)).elim
  | cons d a ih =>
    cases a' with
    | nil =>
      simp only [List.nil_append, List.cons_append, List.cons.injEq] at h
      exact (hb' (h.2 ▸ by simp)).elim
    | cons d' a' =>
      simp only [List.cons_append, List.cons.injEq] at h
      obtain ⟨h1, h2⟩ := ih h.2
      exact ⟨by rw [h.1, h1], h2⟩

theorem autoName_inj {p q : Name} {j k : Nat} (h : autoName p j = autoName q k) : p = q ∧ j = k := by
  obtain ⟨h1, h2⟩ := split_last Nat.underscore_not_in_toDigits Nat.underscore_not_in_toDigits h
  exact ⟨h1, toDigits_inj h2⟩

theorem autoName_ne_nil (p : Name) (k : Nat) : autoName p k ≠ [] := by simp [autoName]

theorem has_iff (s : NameState) (n : Name) : s.has n = true ↔ ∃ id, (n, id) ∈ s.table := by
  simp [NameState.has]

theorem genGo_spec {s : NameState} {p : Name} : ∀ {fuel k : Nat} {n : Name} {k' : Nat},
    genGo s p k fuel = some (n, k') → ∃ j, k ≤ j ∧ k' = j + 1 ∧ n = autoName p j ∧ s.has n = false ∧
      ∀ i, k ≤ i → i < j → s.has (autoName p i) = true
  | 0, _, _, _, h => by simp [genGo] at h
  | fuel + 1, k, n, k', h => by
    simp only [genGo] at h
    split at h
    · rename_i hk
      obtain ⟨j, h1, h2, h3, h4, h5⟩ := genGo_spec h
      refine ⟨j, by omega, h2, h3, h4, fun i hi hij => ?_⟩
      by_cases hik : i = k
      · subst hik; exact hk
      · exact h5 i (by omega) hij
    · rename_i hk
      simp only [Option.some.injEq, Prod.mk.injEq] at h
      obtain ⟨rfl, rfl⟩ := h
      exact ⟨k, Nat.le_refl _, rfl, rfl, by simpa using hk, fun i h1 h2 => by omega⟩

theorem genGo_none {s : NameState} {p : Name} : ∀ {fuel k : Nat}, genGo s p k fuel = none →
    ∀ i, i < fuel → s.has (autoName p (k + i)) = true
  | 0, _, _, i, hi => by omega
  | fuel + 1, k, h, i, hi => by
    simp only [genGo] at h
    split at h
    · rename_i hk
      cases i with
      | zero => exact hk
      | succ i =>
        have := genGo_none h i (by omega)
        rwa [show k + (i + 1) = k + 1 + i from by omega]
    · cases h

/-- The search ends: there are more candidates than names in the table. -/
theorem genGo_total (s : NameState) (p : Name) (k : Nat) : genGo s p k (s.table.length + 1) ≠ none := by
  intro h
  have hall := genGo_none h
  let l : List Name := (List.range (s.table.length + 1)).map fun i => autoName p (k + i)
  have hn : l.Nodup := by
    apply List.Pairwise.map _ _ List.nodup_range
    intro a b hab e
    exact hab (by have := (autoName_inj e).2; omega)
  have hs : l ⊆ s.table.map Prod.fst := by
    intro n hn
    simp only [l, List.mem_map, List.mem_range] at hn
    obtain ⟨i, hi, rfl⟩ := hn
    have := hall i hi
    simpa [NameState.has] using this
  have := hn.length_le_of_subset hs
  simp [l] at this

/-- The invariant of the tables. `tr` is the history of outcomes. -/
structure NameInv (s : NameState) (tr : List (NameCmd × PyM (Option Name))) : Prop where
  objs : ∀ n id, (n, id) ∈ s.table ↔ (id, n) ∈ s.objs
  keys : (s.table.map Prod.fst).Nodup
  names : (s.objs.map Prod.snd).Nodup
  ids : ∀ n id, (n, id) ∈ s.table → id < s.next
  syms : ∀ n id, (n, id) ∈ s.table → n ∈ s.syms.map Prod.fst
  auto : ∀ ty pre n, (NameCmd.create ty true .automatic pre, .ok (some n)) ∈ tr →
    ∃ p k, n = autoName p k ∧ k < s.counters p
  /-- Every declared variable was made by an explicit name or an automatic one below the counter. -/
  decl : ∀ n, n ∈ s.syms.map Prod.fst → (∃ p k, n = autoName p k ∧ k < s.counters p) ∨
    ∃ ty pre, (NameCmd.create ty true (.str n) pre, .ok (some n)) ∈ tr

theorem NameInv.init : NameInv .init [] := by
  constructor <;> simp [NameState.init]

theorem filter_self {α : Type} {l : List α} {f : α → Bool} (h : ∀ a ∈ l, f a = true) : l.filter f = l :=
  List.filter_eq_self.2 h

/-- What the second half of a constructor call does to the tables. -/
theorem enter_spec {s : NameState} {n : Name} {ty : Ty} (hn : s.has n = false)
    (hids : ∀ m id, (m, id) ∈ s.table → id < s.next) (hobjs : ∀ m id, (m, id) ∈ s.table ↔ (id, m) ∈ s.objs) :
    (∃ sy, s.enter n ty = (⟨s.counters, (n, s.next) :: s.table, (s.next, n) :: s.objs, sy, s.next + 1⟩,
        .ok (some n)) ∧
        ((sy = s.syms ∧ n ∈ s.syms.map Prod.fst) ∨ (sy = (n, ty) :: s.syms ∧ n ∉ s.syms.map Prod.fst))) ∨
    (s.enter n ty = ({ s with next := s.next + 1 }, .error .valueError) ∧ n = []) ∨
    (s.enter n ty = ({ s with next := s.next + 1 }, .error .typeError) ∧ ∃ ty', (n, ty') ∈ s.syms ∧ ty' ≠ ty) := by
  have hf : s.table.filter (fun e => decide (e.1 ≠ n)) = s.table := by
    apply filter_self
    rintro ⟨m, id⟩ hm
    have : m ≠ n := by
      rintro rfl
      have := (has_iff s m).2 ⟨id, hm⟩
      simp [hn] at this
    simpa using this
  have hk1 : s.table.filter (fun e => decide (e.2 ≠ s.next)) = s.table := by
    apply filter_self
    rintro ⟨m, id⟩ hm
    have := hids m id hm
    simp; omega
  have hk2 : s.objs.filter (fun o => decide (o.1 ≠ s.next)) = s.objs := by
    apply filter_self
    rintro ⟨id, m⟩ hm
    have := hids m id ((hobjs m id).2 hm)
    simp; omega
  unfold NameState.enter
  simp only [NameState.insert, NameState.symbol, hf]
  cases hd : s.syms.find? (fun d => decide (d.1 = n)) with
  | some d =>
    have h1 := List.find?_some hd
    have h2 := List.mem_of_find?_eq_some hd
    simp only [decide_eq_true_eq] at h1
    dsimp only
    by_cases hty : d.2 = ty
    · left
      refine ⟨s.syms, by rw [if_pos hty], .inl ⟨rfl, ?_⟩⟩
      exact List.mem_map.2 ⟨d, h2, h1⟩
    · right; right
      rw [if_neg hty]
      refine ⟨?_, d.2, by rw [← h1]; exact h2, hty⟩
      simp only [NameState.kill, hk2, Prod.mk.injEq, and_true]
      rw [List.filter_cons_of_neg (by simp), hk1]
  | none =>
    have hnot : n ∉ s.syms.map Prod.fst := by
      intro hm
      obtain ⟨d, hd1, hd2⟩ := List.mem_map.1 hm
      have := List.find?_eq_none.1 hd d hd1
      simp [hd2] at this
    dsimp only
    by_cases he : n = []
    · right; left
      rw [if_pos he]
      refine ⟨?_, he⟩
      simp only [NameState.kill, hk2, Prod.mk.injEq, and_true]
      rw [List.filter_cons_of_neg (by simp), hk1]
    · left
      rw [if_neg he]
      exact ⟨_, rfl, .inr ⟨rfl, hnot⟩⟩

theorem NameInv.mono {s : NameState} {tr tr'} (h : NameInv s tr) (hsub : ∀ x ∈ tr, x ∈ tr')
    (hauto : ∀ x ∈ tr', x ∈ tr ∨ ∀ ty pre n, x ≠ (NameCmd.create ty true .automatic pre, .ok (some n))) :
    NameInv s tr' where
  objs := h.objs
  keys := h.keys
  names := h.names
  ids := h.ids
  syms := h.syms
  auto ty pre n hx := by
    rcases hauto _ hx with h' | h'
    · exact h.auto ty pre n h'
    · exact (h' ty pre n rfl).elim
  decl n hn := by
    rcases h.decl n hn with h' | ⟨ty, pre, h'⟩
    · exact .inl h'
    · exact .inr ⟨ty, pre, hsub _ h'⟩

theorem NameInv.bump {s : NameState} {tr} (h : NameInv s tr) : NameInv { s with next := s.next + 1 } tr where
  objs := h.objs
  keys := h.keys
  names := h.names
  ids n id hx := by have := h.ids n id hx; dsimp only; omega
  syms := h.syms
  auto := h.auto
  decl := h.decl

/-- Entering a fresh name keeps the invariant. -/
theorem NameInv.enter {s : NameState} {tr} (h : NameInv s tr) {n : Name} {ty : Ty} (hn : s.has n = false)
    (c : NameCmd)
    (hc : (∃ p k, n = autoName p k ∧ k < s.counters p) ∨ ∃ pre, c = .create ty true (.str n) pre) :
    NameInv (s.enter n ty).1 (tr ++ [(c, (s.enter n ty).2)]) := by
  rcases enter_spec (ty := ty) hn h.ids h.objs with ⟨sy, he, hsy⟩ | ⟨he, -⟩ | ⟨he, -⟩
  · rw [he]
    have hnk : n ∉ s.table.map Prod.fst := by
      intro hm
      obtain ⟨⟨m, id⟩, h1, h2⟩ := List.mem_map.1 hm
      dsimp only at h2; subst h2
      have := (has_iff s m).2 ⟨id, h1⟩
      simp [hn] at this
    have hsub : ∀ m, m ∈ s.syms.map Prod.fst → m ∈ sy.map Prod.fst := by
      rcases hsy with ⟨rfl, -⟩ | ⟨rfl, -⟩
      · exact fun m h => h
      · intro m hm; simp only [List.map_cons, List.mem_cons]; exact .inr hm
    have hnsy : n ∈ sy.map Prod.fst := by
      rcases hsy with ⟨rfl, h⟩ | ⟨rfl, -⟩
      · exact h
      · simp
    constructor
    · intro m id
      simp only [List.mem_cons, Prod.mk.injEq, h.objs m id]
      tauto
    · simp only [List.map_cons, List.nodup_cons]; exact ⟨hnk, h.keys⟩
    · simp only [List.map_cons, List.nodup_cons]
      refine ⟨?_, h.names⟩
      intro hm
      obtain ⟨⟨id, m⟩, h1, h2⟩ := List.mem_map.1 hm
      dsimp only at h2; subst h2
      exact hnk (List.mem_map.2 ⟨_, (h.objs m id).2 h1, rfl⟩)
    · intro m id hm
      simp only [List.mem_cons, Prod.mk.injEq] at hm
      rcases hm with ⟨-, rfl⟩ | hm
      · dsimp only; omega
      · have := h.ids m id hm; dsimp only; omega
    · intro m id hm
      simp only [List.mem_cons, Prod.mk.injEq] at hm
      rcases hm with ⟨rfl, -⟩ | hm
      · exact hnsy
      · exact hsub m (h.syms m id hm)
    · intro ty' pre m hm
      simp only [List.mem_append, List.mem_singleton, Prod.mk.injEq] at hm
      rcases hm with hm | ⟨rfl, hm⟩
      · exact h.auto ty' pre m hm
      · simp only [Except.ok.injEq, Option.some.injEq] at hm
        subst hm
        rcases hc with hc | ⟨pre, hc⟩
        · exact hc
        · cases hc
    · intro m hm
      have hm' : m = n ∨ m ∈ s.syms.map Prod.fst := by
        rcases hsy with ⟨rfl, -⟩ | ⟨rfl, -⟩
        · exact .inr hm
        · simpa using hm
      rcases hm' with rfl | hm'
      · rcases hc with hc | ⟨pre, rfl⟩
        · exact .inl hc
        · exact .inr ⟨ty, pre, by simp⟩
      · rcases h.decl m hm' with h' | ⟨ty', pre, h'⟩
        · exact .inl h'
        · exact .inr ⟨ty', pre, by simp [h']⟩
  all_goals
    rw [he]
    exact h.bump.mono (by simp +contextual) (by
      intro x hx
      simp only [List.mem_append, List.mem_singleton] at hx
      rcases hx with hx | rfl
      · exact .inl hx
      · exact .inr fun _ _ _ e => by simp at e)

theorem genName_spec {s : NameState} {p : Name} {n : Name} {s' : NameState} (h : genName s p = some (n, s')) :
    ∃ j, s.counters p ≤ j ∧ n = autoName p j ∧ s.has n = false ∧
      s' = { s with counters := fun q => if q = p then j + 1 else s.counters q } := by
  unfold genName at h
  split at h
  · rename_i m k hg
    obtain ⟨j, h1, h2, h3, h4, -⟩ := genGo_spec hg
    simp only [Option.some.injEq, Prod.mk.injEq] at h
    obtain ⟨rfl, rfl⟩ := h
    exact ⟨j, h1, h3, h4, by rw [h2]⟩
  · cases h

theorem NameInv.count {s : NameState} {tr} (h : NameInv s tr) {p : Name} {j : Nat} (hj : s.counters p ≤ j) :
    NameInv { s with counters := fun q => if q = p then j + 1 else s.counters q } tr := by
  have up : ∀ n : Name, (∃ q k, n = autoName q k ∧ k < s.counters q) →
      ∃ q k, n = autoName q k ∧ k < if q = p then j + 1 else s.counters q := by
    rintro n ⟨q, k, h1, h2⟩
    refine ⟨q, k, h1, ?_⟩
    split
    · subst_vars; omega
    · exact h2
  exact ⟨h.objs, h.keys, h.names, h.ids, h.syms, fun ty pre n hx => up n (h.auto ty pre n hx),
    fun n hn => (h.decl n hn).imp (up n) id⟩

theorem NameInv.kill {s : NameState} {tr} (h : NameInv s tr) (id : Nat) : NameInv (s.kill id) tr := by
  refine ⟨?_, ?_, ?_, ?_, ?_, h.auto, h.decl⟩
  · intro n i
    simp only [NameState.kill, List.mem_filter, h.objs n i]
  · exact (List.filter_sublist.map _).nodup h.keys
  · exact (List.filter_sublist.map _).nodup h.names
  · intro n i hm
    exact h.ids n i (List.mem_filter.1 hm).1
  · intro n i hm
    exact h.syms n i (List.mem_filter.1 hm).1

theorem NameInv.step {s : NameState} {tr} (h : NameInv s tr) (c : NameCmd) :
    NameInv (s.step c).1 (tr ++ [(c, (s.step c).2)]) := by
  have quiet : ∀ {s' : NameState} {r : PyM (Option Name)}, NameInv s' tr → (∀ n, r ≠ .ok (some n)) →
      NameInv s' (tr ++ [(c, r)]) := by
    intro s' r hs hr
    refine hs.mono (by simp +contextual) (fun x hx => ?_)
    simp only [List.mem_append, List.mem_singleton] at hx
    rcases hx with hx | rfl
    · exact .inl hx
    · refine .inr fun _ _ n e => ?_
      simp only [Prod.mk.injEq] at e
      exact hr n e.2
  cases c with
  | drop id => exact quiet (h.kill id) (by simp [NameState.step])
  | create ty sy name pre =>
    simp only [NameState.step, NameState.create]
    split
    · exact quiet h (by simp)
    split
    · exact quiet h (by simp)
    rename_i h1 h2
    cases name with
    | other => exact quiet h (by simp)
    | str n =>
      dsimp only
      split
      · exact quiet h (by simp)
      · rename_i hn
        have hsy : sy = true := by
          cases sy
          · simp at h1
          · rfl
        subst hsy
        exact h.enter (by simpa using hn) _ (.inr ⟨pre, rfl⟩)
    | automatic =>
      dsimp only
      split
      · split
        · rename_i n s' hg
          obtain ⟨j, hj, hn, hh, rfl⟩ := genName_spec hg
          exact (h.count hj).enter (n := n) hh _ (.inl ⟨_, j, hn, by simp⟩)
        · exact quiet h (by simp)
      · exact quiet h (by simp)

theorem NameInv.run {s : NameState} {tr} (h : NameInv s tr) (l : List NameCmd) :
    NameInv (s.run l).1 (tr ++ (s.run l).2) := by
  induction l generalizing s tr with
  | nil => simpa [NameState.run] using h
  | cons c l ih =>
    have := ih (h.step c)
    simpa [NameState.run] using this

end HW.Smt
