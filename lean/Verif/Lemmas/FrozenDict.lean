import Verif.Model.FrozenDict

/-! # Lemmas about item lists -/

namespace HW.Frozen

variable {α : Type} {O : PyObj α}

theorem PyObj.eq_congr (a : α) {b c : α} (h : O.eq b c = true) : O.eq a b = O.eq a c := by
  cases hab : O.eq a b <;> cases hac : O.eq a c <;> try rfl
  · rw [O.trans a c b hac (O.symm _ _ h)] at hab; cases hab
  · rw [O.trans a b c hab h] at hac; cases hac

theorem PyObj.eq_comm (a b : α) : O.eq a b = O.eq b a := by
  cases hab : O.eq a b <;> cases hac : O.eq b a <;> try rfl
  · rw [O.symm _ _ hac] at hab; cases hab
  · rw [O.symm _ _ hab] at hac; cases hac

/-- Keys are pairwise unequal. -/
def Distinct (O : PyObj α) (d : Items α) : Prop := d.Pairwise fun e e' => O.eq e.1 e'.1 = false

/-- Items are equal. -/
def ItemEq (O : PyObj α) (e e' : α × α) : Prop := O.eq e.1 e'.1 = true ∧ O.eq e.2 e'.2 = true

theorem put_keys (d : Items α) (k v : α) : ∀ e ∈ put O d k v, O.eq e.1 k = true ∨ e ∈ d := by
  induction d with
  | nil => intro e he; simp [put] at he; subst he; exact Or.inl (O.refl _)
  | cons x d ih =>
    intro e he
    simp only [put] at he
    split at he
    · rename_i hx
      simp only [List.mem_cons] at he
      rcases he with rfl | he
      · exact Or.inl hx
      · exact Or.inr (by simp [he])
    · simp only [List.mem_cons] at he
      rcases he with rfl | he
      · exact Or.inr (by simp)
      · rcases ih e he with h | h
        · exact Or.inl h
        · exact Or.inr (by simp [h])

theorem put_distinct {d : Items α} (h : Distinct O d) (k v : α) : Distinct O (put O d k v) := by
  induction d with
  | nil => simp [put, Distinct]
  | cons x d ih =>
    simp only [Distinct, List.pairwise_cons] at h
    simp only [put]
    split
    · simp only [Distinct, List.pairwise_cons]; exact h
    · rename_i hx
      simp only [Distinct, List.pairwise_cons]
      refine ⟨fun e he => ?_, ih h.2⟩
      rcases put_keys d k v e he with h' | h'
      · rw [PyObj.eq_congr _ h']; simpa using hx
      · exact h.1 e h'

theorem foldl_distinct (l : Items α) : ∀ {d : Items α}, Distinct O d →
    Distinct O (l.foldl (fun d e => put O d e.1 e.2) d) := by
  induction l with
  | nil => intro d h; exact h
  | cons e l ih => intro d h; exact ih (put_distinct h _ _)

theorem ofPairs_distinct (l : Items α) : Distinct O (ofPairs O l) := foldl_distinct l (by simp [Distinct])

theorem get_put (d : Items α) (k v k' : α) :
    get O (put O d k v) k' = if O.eq k k' then some v else get O d k' := by
  induction d with
  | nil =>
    simp only [put, get, List.find?_cons, List.find?_nil]
    cases O.eq k k' <;> simp
  | cons x d ih =>
    simp only [put]
    by_cases hx : O.eq x.1 k = true
    · rw [if_pos hx]
      simp only [get, List.find?_cons]
      have : O.eq x.1 k' = O.eq k k' := by
        rw [PyObj.eq_comm x.1, PyObj.eq_comm k, PyObj.eq_congr _ hx]
      rw [this]
      cases O.eq k k' <;> simp
    · rw [if_neg hx]
      simp only [get, List.find?_cons] at ih ⊢
      cases hk : O.eq x.1 k' with
      | true =>
        have : O.eq k k' = false := by
          rw [Bool.eq_false_iff]; intro h
          exact hx (O.trans _ _ _ hk (O.symm _ _ h))
        rw [this]; simp
      | false => exact ih

theorem mem_get {d : Items α} (h : Distinct O d) {e : α × α} (he : e ∈ d) {k : α} (hk : O.eq e.1 k = true) :
    get O d k = some e.2 := by
  induction d with
  | nil => simp at he
  | cons x d ih =>
    simp only [Distinct, List.pairwise_cons] at h
    simp only [get, List.find?_cons]
    simp only [List.mem_cons] at he
    rcases he with rfl | he
    · rw [hk]; rfl
    · have : O.eq x.1 k = false := by rw [← PyObj.eq_congr x.1 hk]; exact h.1 e he
      rw [this]
      exact ih h.2 he

theorem get_some {d : Items α} {k v : α} (h : get O d k = some v) : ∃ e ∈ d, O.eq e.1 k = true ∧ e.2 = v := by
  unfold get at h
  cases hf : d.find? (fun e => O.eq e.1 k) with
  | none => rw [hf] at h; cases h
  | some e =>
    rw [hf] at h
    exact ⟨e, List.mem_of_find?_eq_some hf, by simpa using List.find?_some hf, Option.some.inj h⟩

/-- `dict.__eq__` means: a reordering of one matches the other item by item. -/
theorem sameMap_iff {d d' : Items α} (h : Distinct O d) (h' : Distinct O d') :
    sameMap O d d' = true ↔ ∃ d'' : Items α, d''.Perm d' ∧ List.Forall₂ (ItemEq O) d d'' := by
  constructor
  · intro hs
    simp only [sameMap, Bool.and_eq_true, beq_iff_eq, List.all_eq_true] at hs
    obtain ⟨hl, ha⟩ := hs
    induction d generalizing d' with
    | nil =>
      simp only [List.length_nil] at hl
      have := List.length_eq_zero_iff.1 hl.symm
      subst this
      exact ⟨[], .refl _, .nil⟩
    | cons x d ih =>
      have hx := ha x (by simp)
      simp only [Distinct, List.pairwise_cons] at h
      split at hx
      · rename_i v hv
        obtain ⟨e, he, hek, rfl⟩ := get_some hv
        obtain ⟨s, t, rfl⟩ := List.append_of_mem he
        have hst : Distinct O (s ++ t) := List.Pairwise.sublist (by simp) h'
        obtain ⟨d'', hp, hf⟩ := ih h.2 hst (by simp at hl ⊢; omega) (by
          intro y hy
          have := ha y (by simp [hy])
          split at this
          · rename_i w hw
            obtain ⟨e', he', hek', rfl⟩ := get_some hw
            have hne : e' ∈ s ++ t := by
              simp only [List.mem_append, List.mem_cons] at he' ⊢
              rcases he' with h1 | rfl | h1
              · exact Or.inl h1
              · have := h.1 y hy
                rw [O.trans _ _ _ (O.symm _ _ hek) hek'] at this; cases this
              · exact Or.inr h1
            rw [mem_get hst hne hek']; exact this
          · cases this)
        refine ⟨e :: d'', ?_, .cons ⟨O.symm _ _ hek, hx⟩ hf⟩
        exact (hp.cons e).trans List.perm_middle.symm
      · cases hx
  · rintro ⟨d'', hp, hf⟩
    simp only [sameMap, Bool.and_eq_true, beq_iff_eq, List.all_eq_true]
    refine ⟨hf.length_eq.trans hp.length_eq, fun e he => ?_⟩
    have aux : ∀ {l l' : Items α}, List.Forall₂ (ItemEq O) l l' → ∀ {e}, e ∈ l → ∃ e' ∈ l', ItemEq O e e' := by
      intro l l' hf
      induction hf with
      | nil => intro e he; simp at he
      | cons h1 _ ih =>
        intro e he
        simp only [List.mem_cons] at he
        rcases he with rfl | he
        · exact ⟨_, by simp, h1⟩
        · obtain ⟨e', h2, h3⟩ := ih he
          exact ⟨e', by simp [h2], h3⟩
    obtain ⟨e', he', h1, h2⟩ := aux hf he
    rw [mem_get h' (hp.mem_iff.1 he') (O.symm _ _ h1)]
    exact h2

theorem sameMap_get {d d' : Items α} (h : Distinct O d) (h' : Distinct O d') : sameMap O d d' = true ↔
    ∀ k, (∀ v, get O d k = some v → ∃ v', get O d' k = some v' ∧ O.eq v v' = true) ∧
         (∀ v', get O d' k = some v' → ∃ v, get O d k = some v ∧ O.eq v v' = true) := by
  constructor
  · intro hs k
    obtain ⟨d'', hp, hf⟩ := (sameMap_iff h h').1 hs
    have hd'' : Distinct O d'' := (hp.pairwise_iff (fun {a b} hab => by rw [PyObj.eq_comm]; exact hab)).2 h'
    have e1 : ∀ v, get O d k = some v → ∃ v', get O d'' k = some v' ∧ O.eq v v' = true := by
      intro v hv
      obtain ⟨e, he, hk, rfl⟩ := get_some hv
      clear hs hp hv
      induction hf with
      | nil => simp at he
      | @cons a b l l' hab hfl ih =>
        simp only [Distinct, List.pairwise_cons] at h hd''
        simp only [List.mem_cons] at he
        rcases he with rfl | he
        · exact ⟨b.2, mem_get (by simpa [Distinct] using hd'') (by simp) (O.trans _ _ _ (O.symm _ _ hab.1) hk), hab.2⟩
        · obtain ⟨v', hv', hvv⟩ := ih h.2 hd''.2 he
          obtain ⟨e', he', hk', rfl⟩ := get_some hv'
          exact ⟨e'.2, mem_get (by simpa [Distinct] using hd'') (by simp [he']) hk', hvv⟩
    have e2 : ∀ v', get O d'' k = some v' → ∃ v, get O d k = some v ∧ O.eq v v' = true := by
      intro v hv
      obtain ⟨e, he, hk, rfl⟩ := get_some hv
      clear hs hp hv e1
      induction hf with
      | nil => simp at he
      | @cons a b l l' hab hfl ih =>
        simp only [Distinct, List.pairwise_cons] at h hd''
        simp only [List.mem_cons] at he
        rcases he with rfl | he
        · exact ⟨a.2, mem_get (by simpa [Distinct] using h) (by simp) (O.trans _ _ _ hab.1 hk), hab.2⟩
        · obtain ⟨v', hv', hvv⟩ := ih h.2 hd''.2 he
          obtain ⟨e', he', hk', rfl⟩ := get_some hv'
          exact ⟨e'.2, mem_get (by simpa [Distinct] using h) (by simp [he']) hk', hvv⟩
    have e3 : get O d' k = get O d'' k := by
      cases hg : get O d'' k with
      | some v =>
        obtain ⟨e, he, hk, rfl⟩ := get_some hg
        exact mem_get h' (hp.mem_iff.1 he) hk
      | none =>
        cases hg' : get O d' k with
        | none => rfl
        | some v =>
          obtain ⟨e, he, hk, rfl⟩ := get_some hg'
          rw [mem_get hd'' (hp.mem_iff.2 he) hk] at hg; cases hg
    rw [e3]; exact ⟨e1, e2⟩
  · intro hk
    have sub : ∀ {l l' : Items α}, Distinct O l → (∀ e ∈ l, ∃ e' ∈ l', O.eq e.1 e'.1 = true) → l.length ≤ l'.length := by
      intro l
      induction l with
      | nil => intros; simp
      | cons x l ih =>
        intro l' hd ha
        simp only [Distinct, List.pairwise_cons] at hd
        obtain ⟨e, he, hxe⟩ := ha x (by simp)
        obtain ⟨s, t, rfl⟩ := List.append_of_mem he
        have := ih (l' := s ++ t) hd.2 (fun y hy => by
          obtain ⟨e', he', hye⟩ := ha y (by simp [hy])
          refine ⟨e', ?_, hye⟩
          simp only [List.mem_append, List.mem_cons] at he' ⊢
          rcases he' with h1 | rfl | h1
          · exact Or.inl h1
          · have := hd.1 y hy
            rw [O.trans _ _ _ hxe (O.symm _ _ hye)] at this; cases this
          · exact Or.inr h1)
        simp at this ⊢; omega
    simp only [sameMap, Bool.and_eq_true, beq_iff_eq, List.all_eq_true]
    refine ⟨Nat.le_antisymm (sub h fun e he => ?_) (sub h' fun e he => ?_), fun e he => ?_⟩
    · obtain ⟨v', hv', _⟩ := (hk e.1).1 e.2 (mem_get h he (O.refl _))
      obtain ⟨e', he', hek, _⟩ := get_some hv'
      exact ⟨e', he', O.symm _ _ hek⟩
    · obtain ⟨v', hv', _⟩ := (hk e.1).2 e.2 (mem_get h' he (O.refl _))
      obtain ⟨e', he', hek, _⟩ := get_some hv'
      exact ⟨e', he', O.symm _ _ hek⟩
    · obtain ⟨v', hv', hvv⟩ := (hk e.1).1 e.2 (mem_get h he (O.refl _))
      rw [hv']; exact hvv

theorem itemHash_eq {e e' : α × α} (h : ItemEq O e e') : itemHash O e = itemHash O e' := by
  simp only [itemHash, O.compat _ _ h.1, O.compat _ _ h.2]

theorem map_itemHash {d d' : Items α} (h : List.Forall₂ (ItemEq O) d d') :
    d.map (itemHash O) = d'.map (itemHash O) := by
  induction h with
  | nil => rfl
  | cons h1 _ ih => simp only [List.map_cons, itemHash_eq h1, ih]

theorem sameMap_symm {d d' : Items α} (h : Distinct O d) (h' : Distinct O d') :
    sameMap O d d' = sameMap O d' d := by
  rw [Bool.eq_iff_iff, sameMap_get h h', sameMap_get h' h]
  constructor <;> intro hk k <;> refine ⟨fun v hv => ?_, fun v hv => ?_⟩
  · obtain ⟨w, h1, h2⟩ := (hk k).2 v hv; exact ⟨w, h1, O.symm _ _ h2⟩
  · obtain ⟨w, h1, h2⟩ := (hk k).1 v hv; exact ⟨w, h1, O.symm _ _ h2⟩
  · obtain ⟨w, h1, h2⟩ := (hk k).2 v hv; exact ⟨w, h1, O.symm _ _ h2⟩
  · obtain ⟨w, h1, h2⟩ := (hk k).1 v hv; exact ⟨w, h1, O.symm _ _ h2⟩

theorem sameKeys_symm : ∀ (d d' : Items α), sameKeys O d d' = sameKeys O d' d
  | [], [] => rfl
  | [], _ :: _ => rfl
  | _ :: _, [] => rfl
  | e :: d, e' :: d' => by simp only [sameKeys, PyObj.eq_comm e.1, sameKeys_symm d d']

/-- Same mapping and same key order is equality item by item. -/
theorem ordered_iff {d d' : Items α} (h : Distinct O d) (h' : Distinct O d') :
    (sameMap O d d' && sameKeys O d d') = true ↔ List.Forall₂ (ItemEq O) d d' := by
  rw [Bool.and_eq_true]
  constructor
  · rintro ⟨hs, hk⟩
    have hl : d.length = d'.length := by
      simp only [sameMap, Bool.and_eq_true, beq_iff_eq] at hs; exact hs.1
    have ha := ((sameMap_get h h').1 hs)
    clear hs
    have hv : ∀ e ∈ d, ∀ e' ∈ d', O.eq e.1 e'.1 = true → O.eq e.2 e'.2 = true := by
      intro e he e' he' hee
      obtain ⟨v', hv', hvv⟩ := (ha e.1).1 e.2 (mem_get h he (O.refl _))
      rw [mem_get h' he' (O.symm _ _ hee)] at hv'
      cases hv'; exact hvv
    clear ha h h'
    induction d generalizing d' with
    | nil => cases d' with
      | nil => exact .nil
      | cons _ _ => simp at hl
    | cons e d ih => cases d' with
      | nil => simp at hl
      | cons e' d' =>
        simp only [sameKeys, Bool.and_eq_true] at hk
        refine .cons ⟨hk.1, hv e (by simp) e' (by simp) hk.1⟩ (ih hk.2 (by simpa using hl) ?_)
        intro a ha b hb; exact hv a (by simp [ha]) b (by simp [hb])
  · intro hf
    refine ⟨(sameMap_iff h h').2 ⟨d', .refl _, hf⟩, ?_⟩
    clear h h'
    induction hf with
    | nil => rfl
    | cons h1 _ ih => simp only [sameKeys, h1.1, ih]; rfl

end HW.Frozen
