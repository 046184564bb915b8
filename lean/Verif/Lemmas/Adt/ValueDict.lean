import Verif.Lemmas.Adt.ValueEq

/-!
# `value_dict` and `from_values`
-/

namespace HW.Adt

variable {W : World}

theorem lookup_iff' {κ α : Type} [DecidableEq κ] {n : κ} {v : α} : ∀ {kw : List (κ × α)}, (kw.map Prod.fst).Nodup →
    (kw.lookup n = some v ↔ (n, v) ∈ kw)
  | [], _ => by simp
  | (m, w) :: kw, hn => by
      simp only [List.map_cons, List.nodup_cons, List.mem_map, not_exists, not_and] at hn
      by_cases e : n = m
      · subst e
        simp only [List.lookup_cons, BEq.rfl, Option.some.injEq, List.mem_cons, Prod.mk.injEq, true_and]
        refine ⟨fun h => .inl h.symm, ?_⟩
        rintro (h | h)
        · exact h.symm
        · exact absurd rfl (hn.1 (n, v) h)
      · have hb : (n == m) = false := by simpa using e
        simp only [List.lookup_cons, hb, List.mem_cons, Prod.mk.injEq, e, false_and, false_or]
        exact lookup_iff' hn.2

/-- Keys of a field dictionary. -/
def keysOf (k : Con) (fs : List Ty) : List Key := (fieldDict k fs).map Prod.fst

theorem keysOf_tuple {k : Con} {fs} (hs : k.shape = .tuple) : keysOf k fs = (List.range fs.length).map Key.int := by
  unfold keysOf fieldDict
  rw [hs]
  apply List.ext_getElem?
  intro i
  simp only [List.getElem?_map, List.getElem?_mapIdx]
  by_cases h : i < fs.length
  · simp [h]
  · simp [h]

theorem keysOf_names {k : Con} {fs} (hs : k.shape ≠ .tuple) (hs' : k.shape ≠ .sum) (hl : k.names.length = fs.length) :
    keysOf k fs = k.names.map Key.name := by
  unfold keysOf fieldDict
  cases h : k.shape <;> simp_all [List.map_fst_zip]

theorem keysOf_sum {k : Con} {fs} (hs : k.shape = .sum) : keysOf k fs = fs.map Key.ty := by
  unfold keysOf fieldDict
  rw [hs]
  simp

theorem fieldDict_length {k : Con} {fs} (hf : Fits k fs) : (fieldDict k fs).length = fs.length := by
  unfold fieldDict
  unfold Fits at hf
  cases h : k.shape <;> simp_all

theorem fieldDict_get {k : Con} {fs} (hf : Fits k fs) {i : Nat} {t : Ty} (ht : fs[i]? = some t) :
    ∃ key, (fieldDict k fs)[i]? = some (key, t) ∧ (keysOf k fs)[i]? = some key := by
  unfold keysOf
  have : i < (fieldDict k fs).length := by
    rw [fieldDict_length hf]; exact (List.getElem?_eq_some_iff.1 ht).1
  have hg := List.getElem?_eq_getElem this
  have h2 : (fieldDict k fs)[i].2 = t := by
    have : ((fieldDict k fs).map Prod.snd)[i]? = some t := by
      rw [← ht]
      congr 1
      unfold fieldDict
      unfold Fits at hf
      cases h : k.shape with
      | tuple =>
          apply List.ext_getElem?
          intro j
          simp only [List.getElem?_map, List.getElem?_mapIdx]
          cases fs[j]? <;> rfl
      | sum => simp [Function.comp_def]
      | anon => rw [h] at hf; exact List.map_snd_zip (by simp [hf.1])
      | product => rw [h] at hf; exact List.map_snd_zip (by simp [hf.1])
      | tagged => rw [h] at hf; exact List.map_snd_zip (by simp [hf.1])
    rw [List.getElem?_map, hg] at this
    simpa using this
  refine ⟨(fieldDict k fs)[i].1, ?_, ?_⟩
  · rw [hg, ← h2]
  · rw [List.getElem?_map, hg]; rfl

theorem keys_nodup {T k fs} (hT : Built W T) (hv : T.view = some (k, fs)) : (keysOf k fs).Nodup := by
  have hf := view_fits hT hv
  unfold Fits at hf
  have hnm : Function.Injective Key.name := fun a b h => by cases h; rfl
  cases h : k.shape with
  | tuple =>
      rw [keysOf_tuple h]
      exact List.nodup_range.map fun a b h => by cases h; rfl
  | sum =>
      rw [keysOf_sum h]
      refine List.Nodup.map (fun a b h => by cases h; rfl) ?_
      exact view_sum_nodup hT hv h
  | anon => rw [h] at hf; rw [keysOf_names (by simp [h]) (by simp [h]) hf.1]; exact hf.2.map hnm
  | product => rw [h] at hf; rw [keysOf_names (by simp [h]) (by simp [h]) hf.1]; exact hf.2.map hnm
  | tagged => rw [h] at hf; rw [keysOf_names (by simp [h]) (by simp [h]) hf.1]; exact hf.2.map hnm

theorem sameKeys_iff {d : List (Key × Val)} {k fs} : sameKeys d (fieldDict k fs) = true ↔
    ∀ key, key ∈ d.map Prod.fst ↔ key ∈ keysOf k fs := by
  unfold sameKeys keysOf
  simp only [Bool.and_eq_true, List.all_eq_true, List.contains_eq_mem, decide_eq_true_eq]
  constructor
  · rintro ⟨h1, h2⟩ key
    constructor
    · intro h
      obtain ⟨p, hp, rfl⟩ := List.mem_map.1 h
      exact h1 p hp
    · intro h
      obtain ⟨p, hp, rfl⟩ := List.mem_map.1 h
      exact h2 p hp
  · intro h
    exact ⟨fun p hp => (h p.1).1 (List.mem_map_of_mem hp), fun p hp => (h p.1).2 (List.mem_map_of_mem hp)⟩

theorem wellTyped_iff {none : Bool} {k : Con} {fs : List Ty} {d : List (Key × Val)} (hn : (keysOf k fs).Nodup) :
    wellTyped W none k fs d = true ↔ ∀ p ∈ d, ∃ t, (p.1, t) ∈ fieldDict k fs ∧
      ((none = true ∧ p.2.isNone = true) ∨ W.sub p.2.cls t = true) := by
  unfold wellTyped
  rw [List.all_eq_true]
  refine forall₂_congr fun p _ => ?_
  cases h : (fieldDict k fs).lookup p.1 with
  | none =>
      simp only [Bool.false_eq_true, false_iff, not_exists, not_and]
      intro t ht
      rw [(lookup_iff' hn).2 ht] at h
      cases h
  | some t =>
      have hm := (lookup_iff' hn).1 h
      simp only [Bool.or_eq_true, Bool.and_eq_true]
      constructor
      · exact fun h' => ⟨t, hm, h'⟩
      · rintro ⟨t', ht', h'⟩
        rw [(lookup_iff' hn).2 ht'] at h
        cases h
        exact h'

theorem fromArgs_fold (n : Nat) (d : List (Key × Val)) :
    fromArgs n d = d.foldl putArg (List.replicate n noneV) := rfl

theorem foldl_set {vs : List Val} : ∀ (n : Nat) (l : List Val), l.length = n + vs.length →
    (vs.mapIdx fun i v => (Key.int (n + i), v)).foldl
      putArg l = l.take n ++ vs := by
  induction vs with
  | nil => intro n l hl; simp at hl ⊢; omega
  | cons v vs ih =>
      intro n l hl
      simp only [List.length_cons] at hl
      simp only [List.mapIdx_cons, Nat.add_zero, List.foldl_cons, putArg]
      have := ih (n + 1) (l.set n v) (by simp; omega)
      rw [show (vs.mapIdx fun i v => (Key.int (n + (i + 1)), v)) = vs.mapIdx fun i v => (Key.int (n + 1 + i), v) by
        congr; funext i v; congr 2; omega]
      rw [this, List.take_add_one, List.getElem?_set_self (by omega), List.take_set_of_le (Nat.le_refl n)]
      simp

theorem fromArgs_eq (vs : List Val) : fromArgs vs.length (vs.mapIdx fun i v => (Key.int i, v)) = vs := by
  rw [fromArgs_fold]
  have := foldl_set (vs := vs) 0 (List.replicate vs.length noneV) (by simp)
  simpa using this

theorem putArg_get {d : List (Key × Val)} {i : Nat} {v : Val} (hn : (d.map Prod.fst).Nodup) :
    ∀ {l : List Val}, i < l.length → ((Key.int i, v) ∈ d → (d.foldl putArg l)[i]? = some v) ∧
      (Key.int i ∉ d.map Prod.fst → (d.foldl putArg l)[i]? = l[i]?) := by
  induction d with
  | nil => simp
  | cons p d ih =>
      obtain ⟨key, w⟩ := p
      simp only [List.map_cons, List.nodup_cons] at hn
      intro l hl
      have hl' : i < (putArg l (key, w)).length := by unfold putArg; cases key <;> simpa using hl
      obtain ⟨h1, h2⟩ := ih hn.2 hl'
      simp only [List.foldl_cons, List.mem_cons, List.map_cons, Prod.mk.injEq, not_or]
      constructor
      · rintro (⟨rfl, rfl⟩ | h)
        · rw [h2 hn.1]
          exact List.getElem?_set_self hl
        · exact h1 h
      · rintro ⟨h3, h4⟩
        rw [h2 h4]
        cases key with
        | int j =>
            refine List.getElem?_set_ne ?_
            rintro rfl
            exact h3 rfl
        | name n => rfl
        | ty t => rfl

theorem putArg_length (d : List (Key × Val)) : ∀ l : List Val, (d.foldl putArg l).length = l.length := by
  induction d with
  | nil => simp
  | cons p d ih =>
      intro l
      rw [List.foldl_cons, ih]
      unfold putArg
      cases p.1 <;> simp

/-- The values of a dictionary in the order of the fields. -/
theorem dict_order {ks : List Key} {d : List (Key × Val)} (hk : ks.Nodup) (hd : (d.map Prod.fst).Nodup)
    (h : ∀ key, key ∈ d.map Prod.fst ↔ key ∈ ks) : ∃ vs : List Val, vs.length = ks.length ∧ d.Perm (ks.zip vs) := by
  refine ⟨ks.map fun key => (d.lookup key).getD noneV, by simp, ?_⟩
  rw [List.perm_ext_iff_of_nodup hd.of_map]
  · rintro ⟨key, v⟩
    constructor
    · intro hm
      have h1 : key ∈ ks := (h key).1 (List.mem_map_of_mem hm)
      rw [List.mem_iff_getElem?]
      obtain ⟨i, hi⟩ := List.mem_iff_getElem?.1 h1
      refine ⟨i, ?_⟩
      rw [List.getElem?_zip_eq_some]
      refine ⟨hi, ?_⟩
      simp [hi, (lookup_iff' hd).2 hm]
    · intro hm
      rw [List.mem_iff_getElem?] at hm
      obtain ⟨i, hi⟩ := hm
      rw [List.getElem?_zip_eq_some] at hi
      obtain ⟨h1, h2⟩ := hi
      simp only [List.getElem?_map, h1, Option.map_some, Option.some.injEq] at h2
      have h3 := (h key).2 (List.mem_of_getElem? h1)
      obtain ⟨⟨key', w⟩, hp, rfl⟩ := List.mem_map.1 h3
      rw [(lookup_iff' hd).2 hp] at h2
      cases h2
      exact hp
  · refine List.Nodup.of_map Prod.fst ?_
    rw [List.map_fst_zip (by simp)]
    exact hk

theorem fromArgs_perm {n : Nat} {vs : List Val} {d : List (Key × Val)} (hl : vs.length = n)
    (hp : d.Perm (((List.range n).map Key.int).zip vs)) : fromArgs d.length d = vs := by
  have hdl : d.length = n := by rw [hp.length_eq]; simp [hl]
  have hkp : (d.map Prod.fst).Perm ((List.range n).map Key.int) := by
    have := hp.map Prod.fst
    rwa [List.map_fst_zip (by simp [hl])] at this
  have hd : (d.map Prod.fst).Nodup := hkp.nodup_iff.2 (List.nodup_range.map fun a b h => by cases h; rfl)
  apply List.ext_getElem?
  intro i
  rw [fromArgs_fold, hdl]
  by_cases hi : i < n
  · have hv : vs[i]? = some vs[i] := List.getElem?_eq_getElem (by omega)
    rw [hv, (putArg_get hd (l := List.replicate n noneV) (v := vs[i]) (by simpa using hi)).1]
    rw [hp.mem_iff, List.mem_iff_getElem?]
    refine ⟨i, ?_⟩
    rw [List.getElem?_zip_eq_some]
    simp [hi]
  · rw [List.getElem?_eq_none (by rw [putArg_length]; simpa using hi), List.getElem?_eq_none (by omega)]

theorem sub_of_zip {W : World} {k : Con} {fs : List Ty} {vs : List Val} {d : List (Key × Val)} (hf : Fits k fs)
    (hl : vs.length = fs.length) (hp : d.Perm ((keysOf k fs).zip vs)) (hn : (keysOf k fs).Nodup) :
    wellTyped W false k fs d = true ↔ ∀ (i : Nat) v t, vs[i]? = some v → fs[i]? = some t → W.sub v.cls t = true := by
  rw [wellTyped_iff hn]
  constructor
  · intro h i v t hv ht
    obtain ⟨key, h1, h2⟩ := fieldDict_get hf ht
    have hm : (key, v) ∈ d := by
      rw [hp.mem_iff, List.mem_iff_getElem?]
      exact ⟨i, by rw [List.getElem?_zip_eq_some]; exact ⟨h2, hv⟩⟩
    obtain ⟨t', ht', h3⟩ := h _ hm
    have e1 := (lookup_iff' hn).2 ht'
    have e2 := (lookup_iff' (kw := fieldDict k fs) hn).2 (List.mem_of_getElem? h1)
    dsimp only at e1
    rw [e2] at e1
    cases e1
    simpa using h3
  · rintro h ⟨key, v⟩ hm
    rw [hp.mem_iff, List.mem_iff_getElem?] at hm
    obtain ⟨i, hi⟩ := hm
    rw [List.getElem?_zip_eq_some] at hi
    have hlt : i < fs.length := by rw [← hl]; exact (List.getElem?_eq_some_iff.1 hi.2).1
    obtain ⟨key', h1, h2⟩ := fieldDict_get hf (List.getElem?_eq_getElem hlt)
    rw [h2] at hi
    cases hi.1
    exact ⟨_, List.mem_of_getElem? h1, .inr (h i v _ hi.2 (List.getElem?_eq_getElem hlt))⟩

theorem zip_keys {k fs} {vs : List Val} {d : List (Key × Val)} (hf : Fits k fs) (hl : vs.length = fs.length)
    (hp : d.Perm ((keysOf k fs).zip vs)) : ∀ key, key ∈ d.map Prod.fst ↔ key ∈ keysOf k fs := by
  intro key
  have hkl : (keysOf k fs).length = fs.length := by rw [keysOf, List.length_map, fieldDict_length hf]
  have := hp.map Prod.fst
  rw [List.map_fst_zip (by omega)] at this
  exact this.mem_iff

end HW.Adt
