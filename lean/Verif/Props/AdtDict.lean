import Verif.Lemmas.Adt.ValueDict

/-!
# `value_dict` and `from_values` (C53)
-/

namespace HW

open Adt

variable {W : World} {L : Leaves}

/-! ### What `from_values` does with an arbitrary dictionary -/

/-- Wrong keys: `ValueError`. -/
theorem C53_keys {T : Ty} {k : Con} {fs : List Ty} {d : List (Key × Val)} (hv : T.view = some (k, fs))
    (h : ¬ ∀ key, (∃ v, (key, v) ∈ d) ↔ ∃ t, (key, t) ∈ fieldDict k fs) :
    fromValues W T d = .error .valueError := by
  unfold fromValues
  rw [hv]
  dsimp only
  rw [if_pos]
  rw [sameKeys_iff]
  simpa [keysOf] using h

/-- An entry not of the type of its field (nor, for unions, `None`): `TypeError`. -/
theorem C53_illtyped {T : Ty} {k : Con} {fs : List Ty} {d : List (Key × Val)} (hT : Built W T)
    (hv : T.view = some (k, fs)) (h : ∀ key, (∃ v, (key, v) ∈ d) ↔ ∃ t, (key, t) ∈ fieldDict k fs)
    {key : Key} {v : Val} {t : Ty} (hd : (key, v) ∈ d) (ht : (key, t) ∈ fieldDict k fs) (hvt : W.sub v.cls t = false)
    (hn : v.isNone = false ∨ (k.shape ≠ .sum ∧ k.shape ≠ .tagged)) : fromValues W T d = .error .typeError := by
  have hks := keys_nodup hT hv
  have hwt : ∀ b : Bool, (b = false ∨ v.isNone = false) → ¬ wellTyped W b k fs d = true := by
    intro b hb hw
    obtain ⟨t', ht', h'⟩ := (wellTyped_iff hks).1 hw _ hd
    have e1 := (lookup_iff' (kw := fieldDict k fs) hks).2 ht
    have e2 := (lookup_iff' (kw := fieldDict k fs) hks).2 ht'
    dsimp only at e2 h'
    rw [e1] at e2
    cases e2
    rcases h' with ⟨h1, h2⟩ | h'
    · rcases hb with hb | hb
      · rw [hb] at h1; cases h1
      · rw [hb] at h2; cases h2
    · rw [hvt] at h'; cases h'
  unfold fromValues
  rw [hv]
  dsimp only
  rw [if_neg (by rw [not_not, sameKeys_iff]; simpa [keysOf] using h)]
  cases hs : k.shape with
  | tuple => dsimp only; rw [if_pos (hwt _ (.inl rfl))]
  | anon => dsimp only; rw [if_pos (hwt _ (.inl rfl))]
  | product => dsimp only; rw [if_pos (hwt _ (.inl rfl))]
  | sum => dsimp only; rw [if_pos (hwt _ (.inr (by simpa [hs] using hn)))]
  | tagged => dsimp only; rw [if_pos (hwt _ (.inr (by simpa [hs] using hn)))]

/-- Unions: other than one entry that is not `None`: an error (`ValueError` if the entries are well typed). -/
theorem C53_count {T : Ty} {k : Con} {fs : List Ty} {d : List (Key × Val)} (hT : Built W T)
    (hv : T.view = some (k, fs)) (hs : k.shape = .sum ∨ k.shape = .tagged)
    (h : ∀ key, (∃ v, (key, v) ∈ d) ↔ ∃ t, (key, t) ∈ fieldDict k fs)
    (hw : ∀ key v t, (key, v) ∈ d → (key, t) ∈ fieldDict k fs → v.isNone = true ∨ W.sub v.cls t = true)
    (hc : (d.filter fun p => !p.2.isNone).length ≠ 1) : fromValues W T d = .error .valueError := by
  have hks := keys_nodup hT hv
  have hwt : wellTyped W true k fs d = true := by
    rw [wellTyped_iff hks]
    rintro ⟨key, v⟩ hm
    obtain ⟨t, ht⟩ := (h key).1 ⟨v, hm⟩
    exact ⟨t, ht, (hw key v t hm ht).imp (fun h => ⟨rfl, h⟩) id⟩
  unfold fromValues
  rw [hv]
  dsimp only
  rw [if_neg (by rw [not_not, sameKeys_iff]; simpa [keysOf] using h)]
  rcases hs with hs | hs <;> rw [hs] <;> dsimp only <;> rw [if_neg (by rw [not_not]; exact hwt)] <;> split
  · rename_i e; simp [e] at hc
  · rfl
  · rename_i e; simp [e] at hc
  · rfl

/-- Tuples and products: exactly the dictionaries, in any order, with the right keys and well-typed values give a
value, the one with these values in its fields. -/
theorem C53_tuple {T : Ty} {k : Con} {fs : List Ty} {d : List (Key × Val)} {x : Val} (hT : Built W T)
    (hv : T.view = some (k, fs)) (hs : k.shape ≠ .sum) (hs' : k.shape ≠ .tagged) (hd : (d.map Prod.fst).Nodup) :
    fromValues W T d = .ok x ↔ ∃ vs, x = .tup T false vs ∧ vs.length = fs.length ∧
      d.Perm (((fieldDict k fs).map Prod.fst).zip vs) ∧
      ∀ (i : Nat) v t, vs[i]? = some v → fs[i]? = some t → W.sub v.cls t = true := by
  have hks := keys_nodup hT hv
  have hf := view_fits hT hv
  have hkl : (keysOf k fs).length = fs.length := by rw [keysOf, List.length_map, fieldDict_length hf]
  by_cases h : ∀ key, key ∈ d.map Prod.fst ↔ key ∈ keysOf k fs
  swap
  · constructor
    · intro hx
      unfold fromValues at hx
      rw [hv] at hx
      dsimp only at hx
      rw [if_pos (by rw [sameKeys_iff]; exact h)] at hx
      cases hx
    · rintro ⟨vs, -, hl, hp, -⟩
      exact absurd (zip_keys hf hl hp) h
  obtain ⟨vs, hl, hp⟩ := dict_order hks hd h
  rw [hkl] at hl
  have huniq : ∀ ws : List Val, ws.length = fs.length → d.Perm ((keysOf k fs).zip ws) → ws = vs := by
    intro ws hwl hwp
    have e := hp.symm.trans hwp
    apply List.ext_getElem?
    intro i
    by_cases hi : i < fs.length
    · have h1 : ((keysOf k fs)[i]'(by omega), vs[i]'(by omega)) ∈ (keysOf k fs).zip ws := by
        rw [← e.mem_iff, List.mem_iff_getElem?]
        exact ⟨i, by rw [List.getElem?_zip_eq_some]; exact ⟨List.getElem?_eq_getElem _, List.getElem?_eq_getElem _⟩⟩
      rw [List.mem_iff_getElem?] at h1
      obtain ⟨j, hj⟩ := h1
      rw [List.getElem?_zip_eq_some] at hj
      have := (List.nodup_iff_injective_getElem.1 hks)
      have hjl := (List.getElem?_eq_some_iff.1 hj.1)
      obtain ⟨hj1, hj2⟩ := hjl
      have hij : j = i := by
        have := @this ⟨j, hj1⟩ ⟨i, by omega⟩ hj2
        simpa using this
      subst hij
      rw [hj.2, List.getElem?_eq_getElem (by omega)]
    · rw [List.getElem?_eq_none (by omega), List.getElem?_eq_none (by omega)]
  have hwt := sub_of_zip (W := W) hf hl hp hks
  have hR : (∃ ws, x = .tup T false ws ∧ ws.length = fs.length ∧ d.Perm (((fieldDict k fs).map Prod.fst).zip ws) ∧
      ∀ (i : Nat) v t, ws[i]? = some v → fs[i]? = some t → W.sub v.cls t = true) ↔
      x = .tup T false vs ∧ wellTyped W false k fs d = true := by
    rw [hwt]
    constructor
    · rintro ⟨ws, h1, h2, h3, h4⟩
      cases huniq ws h2 h3
      exact ⟨h1, h4⟩
    · rintro ⟨h1, h2⟩
      exact ⟨vs, h1, hl, hp, h2⟩
  rw [hR]
  unfold fromValues
  rw [hv]
  dsimp only
  rw [if_neg (by rw [not_not, sameKeys_iff]; exact h)]
  have fin : ∀ m : PyM (List Val), (wellTyped W false k fs d = true → m = .ok vs) →
      ((if ¬ wellTyped W false k fs d = true then .error .typeError else (do return .tup T false (← m)) : PyM Val) =
        .ok x ↔ x = .tup T false vs ∧ wellTyped W false k fs d = true) := by
    intro m hm
    by_cases hw : wellTyped W false k fs d = true
    · rw [if_neg (by rw [not_not]; exact hw), hm hw]
      simp only [pyBindOk, pure, Except.pure, Except.ok.injEq, hw, and_true]
      exact eq_comm
    · rw [if_pos hw]
      simp [hw]
  have prod : k.shape = .anon ∨ k.shape = .product → wellTyped W false k fs d = true →
      callTuple (Val.isinst W) k fs [] (d.map fun p => (p.1.asName, p.2)) = .ok vs := by
    intro hs'' hw
    have hn : k.names.length = fs.length ∧ k.names.Nodup := by
      unfold Fits at hf
      rcases hs'' with e | e <;> rw [e] at hf <;> exact hf
    have hkn : keysOf k fs = k.names.map Key.name := keysOf_names (by rcases hs'' with e | e <;> simp [e]) hs hn.1
    unfold callTuple
    rw [if_neg (by rcases hs'' with e | e <;> simp [e])]
    have hz : (d.map fun p => (p.1.asName, p.2)).Perm (k.names.zip vs) := by
      have := hp.map (fun p : Key × Val => (p.1.asName, p.2))
      rw [hkn, List.zip_map_left, List.map_map] at this
      refine this.trans (.of_eq ?_)
      conv => rhs; rw [← List.map_id (k.names.zip vs)]
      rfl
    have hkd : ((d.map fun p => (p.1.asName, p.2)).map Prod.fst).Nodup := by
      have := hz.map Prod.fst
      rw [List.map_fst_zip (by omega)] at this
      exact this.nodup_iff.2 hn.2
    rw [(bindArgs_iff hn.2 hkd (pos := ([] : List Val)) (vs := vs)).2 ⟨by omega, rfl, by simpa using hz⟩]
    exact initTuple_ok.2 ⟨rfl, hl, hwt.1 hw⟩
  cases hsh : k.shape with
  | sum => exact absurd hsh hs
  | tagged => exact absurd hsh hs'
  | anon => exact fin _ (prod (.inl hsh))
  | product => exact fin _ (prod (.inr hsh))
  | tuple =>
      refine fin _ fun hw => ?_
      unfold callTuple
      rw [if_pos hsh, if_pos rfl]
      have hkt : keysOf k fs = (List.range fs.length).map Key.int := keysOf_tuple hsh
      rw [hkt] at hp
      rw [fromArgs_perm hl hp]
      exact initTuple_ok.2 ⟨rfl, hl, hwt.1 hw⟩

/-- Tagged unions: one entry that is not `None`, of the type of its field. -/
theorem C53_tagged {T : Ty} {k : Con} {fs : List Ty} {d : List (Key × Val)} (hT : Built W T)
    (hv : T.view = some (k, fs)) (hs : k.shape = .tagged)
    (h : ∀ key, (∃ v, (key, v) ∈ d) ↔ ∃ t, (key, t) ∈ fieldDict k fs) {i : Nat} {n : Name} {v : Val} {t : Ty}
    (hn : k.names[i]? = some n) (ht : fs[i]? = some t) (hvt : W.sub v.cls t = true)
    (hc : (d.filter fun p => !p.2.isNone) = [(.name n, v)]) : fromValues W T d = .ok (.tag T i v) := by
  have hks := keys_nodup hT hv
  have hf := view_fits hT hv
  have hf' : k.names.length = fs.length ∧ k.names.Nodup := by
    unfold Fits at hf
    rw [hs] at hf
    exact hf
  have hmem : (Key.name n, t) ∈ fieldDict k fs := by
    unfold fieldDict
    rw [hs]
    dsimp only
    rw [List.mem_iff_getElem?]
    exact ⟨i, by rw [List.getElem?_zip_eq_some]; simp [hn, ht]⟩
  have hwt : wellTyped W true k fs d = true := by
    rw [wellTyped_iff hks]
    rintro ⟨key, w⟩ hm
    obtain ⟨t', ht'⟩ := (h key).1 ⟨w, hm⟩
    refine ⟨t', ht', ?_⟩
    by_cases hw : w.isNone = true
    · exact .inl ⟨rfl, hw⟩
    · have : (key, w) ∈ d.filter fun p => !p.2.isNone := by
        rw [List.mem_filter]; exact ⟨hm, by simpa using hw⟩
      rw [hc, List.mem_singleton] at this
      cases this
      have e1 := (lookup_iff' (kw := fieldDict k fs) hks).2 ht'
      have e2 := (lookup_iff' (kw := fieldDict k fs) hks).2 hmem
      rw [e2] at e1
      cases e1
      exact .inr hvt
  unfold fromValues
  rw [hv]
  dsimp only
  rw [if_neg (by rw [not_not, sameKeys_iff]; simpa [keysOf] using h)]
  rw [hs]
  dsimp only
  rw [if_neg (by rw [not_not]; exact hwt), hc]
  dsimp only [Key.asName]
  have hidx : k.names.idxOf n = i := by
    obtain ⟨hi, e⟩ := List.getElem?_eq_some_iff.1 hn
    rw [← e]
    exact hf'.2.idxOf_getElem i hi
  simp only [callTagged, ne_eq, not_true_eq_false, if_false, List.mem_of_getElem? hn, if_true, hidx, ht,
    Val.isinst, hvt]
  rfl

/-- Sums: one entry that is not `None`; its class must be an alternative. -/
theorem C53_sum {T : Ty} {k : Con} {fs : List Ty} {d : List (Key × Val)} (hT : Built W T)
    (hv : T.view = some (k, fs)) (hs : k.shape = .sum)
    (h : ∀ key, (∃ v, (key, v) ∈ d) ↔ ∃ t, (key, t) ∈ fieldDict k fs) {v : Val} {t : Ty} (hvt : W.sub v.cls t = true)
    (hc : (d.filter fun p => !p.2.isNone) = [(.ty t, v)]) :
    fromValues W T d = if v.cls ∈ fs then .ok (.sum T v) else .error .typeError := by
  have hks := keys_nodup hT hv
  have hwt : wellTyped W true k fs d = true := by
    rw [wellTyped_iff hks]
    rintro ⟨key, w⟩ hm
    obtain ⟨t', ht'⟩ := (h key).1 ⟨w, hm⟩
    refine ⟨t', ht', ?_⟩
    by_cases hw : w.isNone = true
    · exact .inl ⟨rfl, hw⟩
    · have : (key, w) ∈ d.filter fun p => !p.2.isNone := by
        rw [List.mem_filter]; exact ⟨hm, by simpa using hw⟩
      rw [hc, List.mem_singleton] at this
      cases this
      unfold fieldDict at ht'
      rw [hs] at ht'
      simp only [List.mem_map, Prod.mk.injEq, Key.ty.injEq] at ht'
      obtain ⟨_, -, rfl, rfl⟩ := ht'
      exact .inr hvt
  unfold fromValues
  rw [hv]
  dsimp only
  rw [if_neg (by rw [not_not, sameKeys_iff]; simpa [keysOf] using h)]
  rw [hs]
  dsimp only
  rw [if_neg (by rw [not_not]; exact hwt), hc]
  dsimp only [callSum]
  split <;> rfl

/-! ### Round trips -/

/-- The dictionary of a tuple or product reconstructs it as freshly constructed. -/
theorem C53_roundtrip_tuple {T : Ty} {a : Bool} {vs : List Val} (hT : Built W T) (hok : (Val.tup T a vs).Ok W) :
    ∃ d, (Val.tup T a vs).valueDict W = .ok d ∧ fromValues W T d = .ok (.tup T false vs) := by
  obtain ⟨k, fs, hv, hs, hs', hl, ht⟩ := hok
  have hf := view_fits hT hv
  have hkl : (keysOf k fs).length = fs.length := by rw [keysOf, List.length_map, fieldDict_length hf]
  refine ⟨(keysOf k fs).zip vs, ?_, ?_⟩
  · unfold Val.valueDict
    simp only [Val.cls, hv, hl, Nat.lt_irrefl, if_false]
    rfl
  · refine (C53_tuple hT hv hs hs' ?_).2 ⟨vs, rfl, hl, .refl _, ht⟩
    rw [List.map_fst_zip (by omega)]
    exact keys_nodup hT hv

/-- So the round trip gives an equal value, if no field was assigned. -/
theorem C53_roundtrip_fresh_partial {T : Ty} {vs : List Val} (hT : Built W T) (hok : (Val.tup T false vs).Ok W) :
    ∃ d y, (Val.tup T false vs).valueDict W = .ok d ∧ fromValues W T d = .ok y ∧
      Val.eq W L (.tup T false vs) y = true := by
  obtain ⟨d, h1, h2⟩ := C53_roundtrip_tuple hT hok
  exact ⟨d, _, h1, h2, eqv_refl _ _⟩

/-- After an assignment the round trip gives an unequal value. -/
theorem C53_roundtrip_assigned_negation {T : Ty} {vs : List Val} (hT : Built W T) (hok : (Val.tup T true vs).Ok W) :
    ∃ d y, (Val.tup T true vs).valueDict W = .ok d ∧ fromValues W T d = .ok y ∧
      Val.eq W L (.tup T true vs) y = false := by
  obtain ⟨d, h1, h2⟩ := C53_roundtrip_tuple hT hok
  refine ⟨d, _, h1, h2, ?_⟩
  unfold Val.eq
  simp only [Val.eqv]
  split <;> simp

theorem Adt.sumDict_filter {w : Val} (fs : List Ty) (hw : w.isNone = false) :
    ((fs.map fun t => (Key.ty t, if w.isinst W t then w else noneV)).filter fun p => !p.2.isNone) =
      (fs.filter fun t => W.sub w.cls t).map fun t => (Key.ty t, w) := by
  induction fs with
  | nil => rfl
  | cons t ts ih =>
      simp only [List.map_cons, List.filter_cons, Val.isinst]
      simp only [Val.isinst] at ih
      by_cases h : W.sub w.cls t = true
      · simp [h, hw, ih]
      · have h' : W.sub w.cls t = false := by simpa using h
        have hn : noneV.isNone = true := by simp [noneV, Val.isNone]
        simp only [h', Bool.false_eq_true, if_false, hn, Bool.not_true]
        exact ih

/-- A sum value round-trips iff its class is an alternative, it is an instance of no other alternative, and it is not
`None`. -/
theorem C53_roundtrip_sum_partial {T : Ty} {w : Val} (hT : Built W T) (hok : (Val.sum T w).Ok W) {k : Con}
    {fs : List Ty} (hv : T.view = some (k, fs)) :
    ∃ d, (Val.sum T w).valueDict W = .ok d ∧
      (fromValues W T d = .ok (.sum T w) ↔ w.cls ∈ fs ∧ w.isNone = false ∧ ∀ t ∈ fs, W.sub w.cls t = true → t = w.cls) ∧
      (∀ y, fromValues W T d = .ok y → y = .sum T w) ∧
      (w.isNone = true → fromValues W T d = .error .valueError) ∧
      (∀ t ∈ fs, ∀ t' ∈ fs, t ≠ t' → W.sub w.cls t = true → W.sub w.cls t' = true →
        fromValues W T d = .error .valueError) ∧
      (w.isNone = false → w.cls ∉ fs → (∃ t ∈ fs, ∀ t' ∈ fs, W.sub w.cls t' = true → t' = t) →
        fromValues W T d = .error .typeError) := by
  obtain ⟨k', fs', hv', hs, t0, ht0, ht0s⟩ := hok
  rw [hv] at hv'
  cases hv'
  have hnd : fs.Nodup := view_sum_nodup hT hv hs
  let d : List (Key × Val) := fs.map fun t => (Key.ty t, if w.isinst W t then w else noneV)
  have hd : (Val.sum T w).valueDict W = .ok d := by
    unfold Val.valueDict
    simp only [Val.cls, hv]
    rfl
  have hkeys : ∀ key, (∃ v, (key, v) ∈ d) ↔ ∃ t, (key, t) ∈ fieldDict k fs := by
    intro key
    simp only [d, fieldDict, hs, List.mem_map, Prod.mk.injEq]
    constructor
    · rintro ⟨v, t, ht, rfl, -⟩; exact ⟨t, t, ht, rfl, rfl⟩
    · rintro ⟨t, t', ht, rfl, -⟩; exact ⟨_, t', ht, rfl, rfl⟩
  have hnone : noneV.isNone = true := by simp [noneV, Val.isNone]
  have hw : ∀ key v t, (key, v) ∈ d → (key, t) ∈ fieldDict k fs → v.isNone = true ∨ W.sub v.cls t = true := by
    intro key v t h1 h2
    simp only [d, fieldDict, hs, List.mem_map, Prod.mk.injEq] at h1 h2
    obtain ⟨t1, -, rfl, rfl⟩ := h1
    obtain ⟨t2, -, e, rfl⟩ := h2
    cases e
    by_cases h : W.sub w.cls t1 = true
    · simp [Val.isinst, h]
    · simp [Val.isinst, h, hnone]
  have hcount : (d.filter fun p => !p.2.isNone).length ≠ 1 → fromValues W T d = .error .valueError :=
    fun h => C53_count hT hv (.inl hs) hkeys hw h
  have hN : w.isNone = true → fromValues W T d = .error .valueError := by
    intro hn
    refine hcount ?_
    have : d.filter (fun p => !p.2.isNone) = [] := by
      rw [List.filter_eq_nil_iff]
      intro p hp
      obtain ⟨t, -, rfl⟩ := List.mem_map.1 hp
      dsimp only
      split <;> simp [hn, hnone]
    simp [this]
  have hO : w.isNone = false → ∀ t ∈ fs, ∀ t' ∈ fs, t ≠ t' → W.sub w.cls t = true → W.sub w.cls t' = true →
      fromValues W T d = .error .valueError := by
    intro hn t ht t' ht' hne h1 h2
    refine hcount ?_
    rw [sumDict_filter fs hn, List.length_map]
    intro hl
    obtain ⟨u, hu⟩ := List.length_eq_one_iff.1 hl
    have m1 : t ∈ fs.filter fun t => W.sub w.cls t := List.mem_filter.2 ⟨ht, h1⟩
    have m2 : t' ∈ fs.filter fun t => W.sub w.cls t := List.mem_filter.2 ⟨ht', h2⟩
    rw [hu, List.mem_singleton] at m1 m2
    exact hne (m1.trans m2.symm)
  have hU : w.isNone = false → ∀ t ∈ fs, W.sub w.cls t = true → (∀ t' ∈ fs, W.sub w.cls t' = true → t' = t) →
      fromValues W T d = if w.cls ∈ fs then .ok (.sum T w) else .error .typeError := by
    intro hn t ht h1 h2
    refine C53_sum hT hv hs hkeys h1 ?_
    rw [sumDict_filter fs hn]
    have hf : (fs.filter fun t => W.sub w.cls t).Nodup := hnd.filter _
    have hall : ∀ u ∈ fs.filter fun t => W.sub w.cls t, u = t := by
      intro u hu
      obtain ⟨a, b⟩ := List.mem_filter.1 hu
      exact h2 u a b
    have hm : t ∈ fs.filter fun t => W.sub w.cls t := List.mem_filter.2 ⟨ht, h1⟩
    cases hl : fs.filter fun t => W.sub w.cls t with
    | nil => rw [hl] at hm; cases hm
    | cons u us =>
        rw [hl] at hf hall
        cases hall u (by simp)
        cases us with
        | nil => rfl
        | cons u' us =>
            cases hall u' (by simp)
            simp at hf
  have hcases : w.isNone = false → (∃ t ∈ fs, W.sub w.cls t = true ∧ ∀ t' ∈ fs, W.sub w.cls t' = true → t' = t) ∨
      fromValues W T d = .error .valueError := by
    intro hn
    by_cases h : ∀ t' ∈ fs, W.sub w.cls t' = true → t' = t0
    · exact .inl ⟨t0, ht0, ht0s, h⟩
    · push Not at h
      obtain ⟨t', a, b, c⟩ := h
      exact .inr (hO hn t0 ht0 t' a (Ne.symm c) ht0s b)
  refine ⟨d, hd, ⟨fun h => ?_, ?_⟩, fun y h => ?_, hN, ?_, ?_⟩
  · by_cases hn : w.isNone = true
    · rw [hN hn] at h; cases h
    · have hn' : w.isNone = false := by simpa using hn
      rcases hcases hn' with ⟨t, a, b, c⟩ | e
      · rw [hU hn' t a b c] at h
        split at h
        · rename_i hm
          have := c _ hm (W.sub_refl _)
          exact ⟨hm, hn', fun t' h1 h2 => (c t' h1 h2).trans this.symm⟩
        · cases h
      · rw [e] at h; cases h
  · rintro ⟨h1, h2, h3⟩
    rw [hU h2 w.cls h1 (W.sub_refl _) h3, if_pos h1]
  · by_cases hn : w.isNone = true
    · rw [hN hn] at h; cases h
    · have hn' : w.isNone = false := by simpa using hn
      rcases hcases hn' with ⟨t, a, b, c⟩ | e
      · rw [hU hn' t a b c] at h
        split at h
        · cases h; rfl
        · cases h
      · rw [e] at h; cases h
  · intro t ht t' ht' hne h1 h2
    by_cases hn : w.isNone = true
    · exact hN hn
    · exact hO (by simpa using hn) t ht t' ht' hne h1 h2
  · rintro hn hm ⟨t, ht, h⟩
    have : t0 = t := h t0 ht0 ht0s
    subst this
    rw [hU hn t0 ht ht0s h, if_neg hm]

theorem Adt.tagDict_filter {w : Val} (i : Nat) (hw : w.isNone = false) : ∀ (names : List Name) (n : Name) (o : Nat),
    names[i]? = some n →
    ((names.mapIdx fun j m => (Key.name m, if o + i = o + j then w else noneV)).filter fun p => !p.2.isNone) =
      [(Key.name n, w)] := by
  have hnone : noneV.isNone = true := by simp [noneV, Val.isNone]
  induction i with
  | zero =>
      intro names n o h
      cases names with
      | nil => cases h
      | cons m ms =>
          simp only [List.getElem?_cons_zero, Option.some.injEq] at h
          subst h
          simp only [List.mapIdx_cons, if_true, List.filter_cons, hw, Bool.not_false]
          congr 1
          rw [List.filter_eq_nil_iff]
          intro p hp
          obtain ⟨j, hj, rfl⟩ := List.mem_mapIdx.1 hp
          simp [hnone]
  | succ i ih =>
      intro names n o h
      cases names with
      | nil => cases h
      | cons m ms =>
          simp only [List.getElem?_cons_succ] at h
          have := ih ms n (o + 1) h
          have e : ¬ (o + (i + 1) = o + 0) := by omega
          simp only [List.mapIdx_cons, e, if_false, List.filter_cons, hnone, Bool.not_true, Bool.false_eq_true]
          rw [← this]
          congr 2
          funext j m
          congr 2
          simp only [eq_iff_iff]
          omega

/-- A tagged union value round-trips iff it does not hold `None`. -/
theorem C53_roundtrip_tagged_partial {T : Ty} {i : Nat} {w : Val} (hT : Built W T) (hok : (Val.tag T i w).Ok W) :
    ∃ d, (Val.tag T i w).valueDict W = .ok d ∧
      (w.isNone = false → fromValues W T d = .ok (.tag T i w)) ∧
      (w.isNone = true → fromValues W T d = .error .valueError) := by
  obtain ⟨k, fs, t, hv, hs, ht, hwt⟩ := hok
  have hf := view_fits hT hv
  have hf' : k.names.length = fs.length ∧ k.names.Nodup := by
    unfold Fits at hf
    rw [hs] at hf
    exact hf
  let d : List (Key × Val) := k.names.mapIdx fun j n => (Key.name n, if i = j then w else noneV)
  have hd : (Val.tag T i w).valueDict W = .ok d := by
    unfold Val.valueDict
    simp only [Val.cls, hv]
    rfl
  have hnone : noneV.isNone = true := by simp [noneV, Val.isNone]
  have hfd : fieldDict k fs = (k.names.map Key.name).zip fs := by unfold fieldDict; rw [hs]
  have hkeys : ∀ key, (∃ v, (key, v) ∈ d) ↔ ∃ t, (key, t) ∈ fieldDict k fs := by
    intro key
    have h1 : d.map Prod.fst = k.names.map Key.name := by
      apply List.ext_getElem?
      intro j
      simp only [d, List.getElem?_map, List.getElem?_mapIdx]
      cases k.names[j]? <;> rfl
    have h2 : (fieldDict k fs).map Prod.fst = k.names.map Key.name := by
      rw [hfd, List.map_fst_zip (by simp [hf'.1])]
    have e1 : (∃ v, (key, v) ∈ d) ↔ key ∈ d.map Prod.fst := by simp
    have e2 : (∃ t, (key, t) ∈ fieldDict k fs) ↔ key ∈ (fieldDict k fs).map Prod.fst := by simp
    rw [e1, e2, h1, h2]
  have hi : i < k.names.length := by rw [hf'.1]; exact (List.getElem?_eq_some_iff.1 ht).1
  refine ⟨d, hd, fun hn => ?_, fun hn => ?_⟩
  · refine C53_tagged hT hv hs hkeys (List.getElem?_eq_getElem hi) ht hwt ?_
    have := tagDict_filter i hn k.names _ 0 (List.getElem?_eq_getElem hi)
    simpa [d] using this
  · have hall : ∀ p ∈ d, p.2.isNone = true := by
      intro p hp
      obtain ⟨j, hj, rfl⟩ := List.mem_mapIdx.1 hp
      dsimp only
      split <;> simp [hn, hnone]
    refine C53_count hT hv (.inr hs) hkeys (fun key v t h1 _ => .inl (hall _ h1)) ?_
    have : d.filter (fun p => !p.2.isNone) = [] := by
      rw [List.filter_eq_nil_iff]
      intro p hp
      simp [hall p hp]
    simp [this]

/-! ### Refutations -/

/-- `Sum[A, B]` with `B` deriving from `A`: a value holding a `B` can be made, but not from its own dictionary. -/
theorem C53_overlap_negation {A B : Ty} (hA : Built W A) (hB : Built W B) (hAB : W.sub B A = true) (hne : A ≠ B)
    {v : Val} (hv : v.cls = B) (b : Base) : ∃ x d, constructV W (mkSum W b [A, B]) [v] [] = .ok x ∧
      x.valueDict W = .ok d ∧ fromValues W (mkSum W b [A, B]) d = .error .valueError := by
  have hT : Built W (mkSum W b [A, B]) := .sum _ _ (by
    intro t ht
    simp only [List.mem_cons, List.not_mem_nil, or_false] at ht
    rcases ht with rfl | rfl
    · exact hA
    · exact hB)
  have hmA : A ∈ W.canon [A, B] := (W.mem_canon _ _).2 (by simp)
  have hmB : B ∈ W.canon [A, B] := (W.mem_canon _ _).2 (by simp)
  obtain ⟨d, h1, -, -, -, h2, -⟩ := C53_roundtrip_sum_partial (w := v) hT
    ⟨_, _, rfl, rfl, B, hmB, by rw [hv]; exact W.sub_refl _⟩ rfl
  refine ⟨_, d, ?_, h1, h2 A hmA B hmB hne (by rw [hv]; exact hAB) (by rw [hv]; exact W.sub_refl _)⟩
  simp only [constructV, mkSum, Ty.view, callSum, hv, hmB, if_true]
  rfl

/-- `Sum[type(None), A](None)`. -/
theorem C53_none_negation {A : Ty} (hA : Built W A) (b : Base) :
    ∃ x d, constructV W (mkSum W b [noneTy, A]) [noneV] [] = .ok x ∧ x.valueDict W = .ok d ∧
      fromValues W (mkSum W b [noneTy, A]) d = .error .valueError := by
  have hT : Built W (mkSum W b [noneTy, A]) := .sum _ _ (by
    intro t ht
    simp only [List.mem_cons, List.not_mem_nil, or_false] at ht
    rcases ht with rfl | rfl
    · exact .leaf _
    · exact hA)
  have hm : noneTy ∈ W.canon [noneTy, A] := (W.mem_canon _ _).2 (by simp)
  obtain ⟨d, h1, -, -, h2, -, -⟩ := C53_roundtrip_sum_partial (w := noneV) hT
    ⟨_, _, rfl, rfl, noneTy, hm, W.sub_refl _⟩ rfl
  refine ⟨_, d, ?_, h1, h2 (by simp [noneV, Val.isNone])⟩
  simp only [constructV, mkSum, Ty.view, callSum, noneV, Val.cls, hm, if_true]
  rfl

/-- `class U(TaggedUnion): n = type(None)`, `U(n=None)`. -/
theorem C53_tagged_none_negation {T : Ty} {i : Nat} (hT : Built W T) (hok : (Val.tag T i noneV).Ok W) :
    ∃ d, (Val.tag T i noneV).valueDict W = .ok d ∧ fromValues W T d = .error .valueError := by
  obtain ⟨d, h1, -, h2⟩ := C53_roundtrip_tagged_partial hT hok
  exact ⟨d, h1, h2 (by simp [noneV, Val.isNone])⟩

/-- `Sum[A]` after `s[A] = b` with `b` of a proper subclass of `A` (accepted): not from its own dictionary. -/
theorem C53_subclass_negation {a b : Nat} (hne : a ≠ b) (hb : b ≠ 99)
    (hs : W.sub (.leaf (.cls b)) (.leaf (.cls a)) = true) :
    ∃ (ops : List Op) (x : Val) (d : List (Key × Val)), (Store.run W [] ops).read 2 2 = some x ∧ x.WT W ∧
      x.cls = mkSum W (.user 0) [.leaf (.cls a)] ∧ x.valueDict W = .ok d ∧
      fromValues W x.cls d = .error .typeError := by
  have hc : W.canon [.leaf (.cls a)] = [.leaf (.cls a)] := by
    have h1 := W.nodup_canon [Ty.leaf (.cls a)]
    have h2 := W.mem_canon [Ty.leaf (.cls a)]
    cases h : W.canon [.leaf (.cls a)] with
    | nil => have := h2 (.leaf (.cls a)); rw [h] at this; simp at this
    | cons t ts =>
        rw [h] at h1 h2
        have : t = .leaf (.cls a) := by simpa using (h2 t).1 (by simp)
        subst this
        cases ts with
        | nil => rfl
        | cons u us =>
            have : u = .leaf (.cls a) := by simpa using (h2 u).1 (by simp)
            subst this
            simp at h1
  have hT : Built W (mkSum W (.user 0) [.leaf (.cls a)]) := .sum _ _ (by simpa using Built.leaf _)
  have hok : (Val.sum (mkSum W (.user 0) [.leaf (.cls a)]) (.leaf (.leaf (.cls b)) 0)).Ok W :=
    ⟨_, _, rfl, rfl, .leaf (.cls a), by rw [hc]; simp, hs⟩
  obtain ⟨d, h1, -, -, -, -, h2⟩ := C53_roundtrip_sum_partial (w := .leaf (.leaf (.cls b)) 0) hT hok rfl
  refine ⟨[.other (.leaf (.cls a)) 0, .other (.leaf (.cls b)) 0, .new (mkSum W (.user 0) [.leaf (.cls a)]) [0] [],
    .setSum 2 (.leaf (.cls a)) 1], _, d, ?_, ?_, rfl, h1, h2 ?_ ?_ ?_⟩
  · simp [Store.run, Store.step, Ty.isPlain, Store.alloc, Store.setSum, construct, mkSum, Ty.view, hc, callSum, Obj.cls,
      Store.isinst, hs, Store.read, bind, Except.bind, pure, Except.pure]
  · intro w hw
    cases hw with
    | self => exact hok
    | sum hw => cases hw; rfl
  · simp [Val.isNone, noneTy, hb]
  · rw [hc]; simp [Val.cls, Ne.symm hne]
  · rw [hc]; exact ⟨.leaf (.cls a), by simp, by simp⟩

/-- A product of two fields, its dictionary given in the other order. -/
example {b : Base} {A B : Ty} (hA : Built W A) (hB : Built W B) {x y : Val} (hx : x.cls = A) (hy : y.cls = B) :
    fromValues W (mkProduct b 1 0 [8, 9] [A, B]) [(.name 9, y), (.name 8, x)] =
      .ok (.tup (mkProduct b 1 0 [8, 9] [A, B]) false [x, y]) := by
  have hT : Built W (mkProduct b 1 0 [8, 9] [A, B]) := .product _ _ _ _ _ rfl (by simp) (by
    intro t ht
    simp only [List.mem_cons, List.not_mem_nil, or_false] at ht
    rcases ht with rfl | rfl
    · exact hA
    · exact hB)
  refine (C53_tuple hT rfl (by simp) (by simp) (by simp)).2 ⟨[x, y], rfl, rfl, ?_, ?_⟩
  · exact List.Perm.swap _ _ _
  · intro i v t h1 h2
    match i with
    | 0 => simp at h1 h2; subst h1 h2; rw [hx]; exact W.sub_refl _
    | 1 => simp at h1 h2; subst h1 h2; rw [hy]; exact W.sub_refl _
    | i + 2 => simp at h1

/-- Refused: a missing key. -/
example {b : Base} {A B : Ty} {x : Val} :
    fromValues W (mkProduct b 1 0 [8, 9] [A, B]) [(.name 8, x)] = .error .valueError := by
  refine C53_keys (k := ⟨.product, b, 1, 0, [8, 9]⟩) (fs := [A, B]) rfl fun h => ?_
  obtain ⟨v, hv⟩ := (h (.name 9)).2 ⟨B, by simp [fieldDict]⟩
  simp at hv

/-- The hypotheses of the refutations can be met. -/
example : (World.under (.leaf (.cls 0)) [.leaf (.cls 1)]).sub (.leaf (.cls 1)) (.leaf (.cls 0)) = true := by
  simp [World.under]

example : ∃ (W : World) (T : Ty), Built W T ∧ (Val.tag T 0 noneV).Ok W := by
  have hb : Built World.std (mkTagged World.std (.user 0) 1 0 [8] [noneTy]) :=
    .tagged _ _ _ _ _ rfl (by simp) (by simpa [noneTy] using Built.leaf _)
  have hc : World.std.canonF ⟨.tagged, .user 0, 1, 0, [8]⟩ ([8].zip [noneTy]) = [(8, noneTy)] :=
    List.perm_singleton.1 (World.std.perm_canonF _ _)
  refine ⟨World.std, _, hb, ?_⟩
  unfold mkTagged
  rw [hc]
  exact ⟨_, _, noneTy, rfl, rfl, rfl, World.std.sub_refl _⟩

/-- A sum value that round-trips. -/
example : ∃ (W : World) (T : Ty) (w : Val) (k : Con) (fs : List Ty), Built W T ∧ (Val.sum T w).Ok W ∧
    T.view = some (k, fs) ∧ fs.length = 2 ∧ w.cls ∈ fs ∧ w.isNone = false ∧
    ∀ t ∈ fs, W.sub w.cls t = true → t = w.cls := by
  refine ⟨World.std, mkSum World.std (.user 0) [.leaf (.cls 0), .leaf (.cls 1)], .leaf (.leaf (.cls 0)) 3, _, _,
    .sum _ _ (by simp [Built.leaf]), ⟨_, _, rfl, rfl, .leaf (.cls 0), ?_, World.std.sub_refl _⟩, rfl, ?_, ?_, ?_, ?_⟩
  · exact (World.std.mem_canon _ _).2 (by simp)
  · have : (World.std.canon [.leaf (.cls 0), .leaf (.cls 1)]).Perm [.leaf (.cls 0), .leaf (.cls 1)] := by
      rw [List.perm_ext_iff_of_nodup (World.std.nodup_canon _) (by simp)]
      exact World.std.mem_canon _
    rw [this.length_eq]
    rfl
  · exact (World.std.mem_canon _ _).2 (by simp [Val.cls])
  · simp [Val.isNone, noneTy]
  · intro t _ h
    simpa [World.std, Val.cls, eq_comm] using h

end HW
