import Verif.Lemmas.Adt.Heap

/-!
# ADT values in a store: exact behaviour of single operations
-/

namespace HW.Adt

variable {W : World}

theorem bindOk {α β : Type} {x : PyM α} {f : α → PyM β} {b : β} (h : (x >>= f) = .ok b) :
    ∃ a, x = .ok a ∧ f a = .ok b := by
  cases x with
  | ok a => exact ⟨a, rfl, h⟩
  | error e => cases h

/-! ### Call signatures -/

theorem lookup_iff {α : Type} {n : Name} {v : α} : ∀ {kw : List (Name × α)}, (kw.map Prod.fst).Nodup →
    (kw.lookup n = some v ↔ (n, v) ∈ kw)
  | [], _ => by simp
  | (m, w) :: kw, hn => by
      simp only [List.map_cons, List.nodup_cons, List.mem_map, not_exists, not_and] at hn
      by_cases e : n = m
      · subst e
        simp only [List.lookup_cons, BEq.rfl, Option.some.injEq, List.mem_cons, Prod.mk.injEq, true_and]
        refine ⟨fun h => .inl h.symm, ?_⟩
        rintro (h | h)
        · exact h.symm
        · exact absurd rfl (hn.1 (n, v) h)
      · have hb : (n == m) = false := by simpa using e
        simp only [List.lookup_cons, hb, List.mem_cons, Prod.mk.injEq, e, false_and, false_or]
        exact lookup_iff hn.2

theorem mapM_iff {α β : Type} {f : α → Option β} : ∀ {l : List α} {r : List β}, l.mapM f = some r ↔
    l.length = r.length ∧ ∀ (i : Nat) a b, l[i]? = some a → r[i]? = some b → f a = some b
  | [], r => by
      simp only [List.mapM_nil, Option.pure_def, Option.some.injEq, List.length_nil, List.getElem?_nil, reduceCtorEq,
        false_implies, implies_true, and_true]
      exact ⟨fun h => h ▸ rfl, fun h => (List.length_eq_zero_iff.1 h.symm).symm⟩
  | a :: l, r => by
      simp only [List.mapM_cons, Option.bind_eq_bind, Option.pure_def, Option.bind_eq_some_iff, Option.some.injEq]
      constructor
      · rintro ⟨b, hb, r', hr, rfl⟩
        obtain ⟨h1, h2⟩ := mapM_iff.1 hr
        refine ⟨by simp [h1], fun i a' b' ha hb' => ?_⟩
        cases i with
        | zero => simp only [List.getElem?_cons_zero, Option.some.injEq] at ha hb'; rw [← ha, ← hb', hb]
        | succ i => exact h2 i a' b' (by simpa using ha) (by simpa using hb')
      · rintro ⟨h1, h2⟩
        cases r with
        | nil => simp at h1
        | cons b r =>
            refine ⟨b, h2 0 a b rfl rfl, r, mapM_iff.2 ⟨by simpa using h1, fun i a' b' ha hb => ?_⟩, rfl⟩
            exact h2 (i + 1) a' b' (by simpa using ha) (by simpa using hb)

theorem bindArgs_iff {α : Type} {names : List Name} {pos : List α} {kw : List (Name × α)} {vs : List α}
    (hn : names.Nodup) (hk : (kw.map Prod.fst).Nodup) :
    bindArgs names pos kw = .ok vs ↔ vs.length = names.length ∧ pos = vs.take pos.length ∧
      kw.Perm ((names.drop pos.length).zip (vs.drop pos.length)) := by
  have hrest : (names.drop pos.length).Nodup := hn.sublist (List.drop_sublist _ _)
  have hkn : kw.Nodup := hk.of_map
  have hz : ∀ l : List α, (names.drop pos.length).length = l.length → ((names.drop pos.length).zip l).Nodup := by
    intro l hl
    refine List.Nodup.of_map Prod.fst ?_
    rw [List.map_fst_zip (by omega)]
    exact hrest
  have hperm : ∀ l : List α, (names.drop pos.length).length = l.length →
      ((kw.all (fun p => (names.drop pos.length).contains p.1) = true ∧
        (names.drop pos.length).mapM (fun n => kw.lookup n) = some l) ↔
      kw.Perm ((names.drop pos.length).zip l)) := by
    intro l hl
    rw [List.perm_ext_iff_of_nodup hkn (hz l hl), mapM_iff]
    simp only [List.all_eq_true, List.contains_eq_mem, decide_eq_true_eq, hl, true_and]
    constructor
    · rintro ⟨h1, h2⟩ ⟨n, v⟩
      constructor
      · intro hm
        have hr := h1 _ hm
        obtain ⟨i, hi⟩ := List.mem_iff_getElem?.1 hr
        obtain ⟨hi', -⟩ := List.getElem?_eq_some_iff.1 hi
        have hli := List.getElem?_eq_getElem (l := l) (hl ▸ hi' : i < l.length)
        have := h2 i n _ hi hli
        rw [(lookup_iff hk).2 hm] at this
        refine List.mem_iff_getElem?.2 ⟨i, ?_⟩
        rw [List.getElem?_zip_eq_some]
        exact ⟨hi, by rw [hli]; exact this.symm⟩
      · intro hm
        obtain ⟨i, hi⟩ := List.mem_iff_getElem?.1 hm
        rw [List.getElem?_zip_eq_some] at hi
        exact (lookup_iff hk).1 (h2 i n v hi.1 hi.2)
    · intro h
      constructor
      · rintro ⟨n, v⟩ hm
        exact (List.of_mem_zip ((h (n, v)).1 hm)).1
      · intro i n v h1 h2
        refine (lookup_iff hk).2 ((h (n, v)).2 (List.mem_iff_getElem?.2 ⟨i, ?_⟩))
        rw [List.getElem?_zip_eq_some]
        exact ⟨h1, h2⟩
  unfold bindArgs
  split
  · rename_i hlt
    simp only [reduceCtorEq, false_iff, not_and]
    intro h1 h2
    have := congrArg List.length h2
    simp only [List.length_take] at this
    omega
  · rename_i hlt
    have hle : pos.length ≤ names.length := Nat.le_of_not_lt hlt
    dsimp only
    constructor
    · intro h
      split at h
      · rename_i ha
        split at h
        · rename_i l hm
          cases h
          have hl := (mapM_iff.1 hm).1
          refine ⟨?_, by simp, ?_⟩
          · simp only [List.length_append, ← hl, List.length_drop]; omega
          · rw [List.drop_left']
            · exact (hperm l hl).1 ⟨ha, hm⟩
            · rfl
        · cases h
      · cases h
    · rintro ⟨h1, h2, h3⟩
      obtain ⟨ha, hm⟩ := (hperm _ (by simp [h1])).2 h3
      rw [if_pos ha, hm]
      dsimp only
      conv => lhs; rw [h2]
      simp only [List.length_take]
      congr 1
      rw [Nat.min_eq_left (by omega)]
      exact List.take_append_drop _ _

theorem bindArgs_error {α : Type} {names : List Name} {pos : List α} {kw : List (Name × α)} {e}
    (h : bindArgs names pos kw = .error e) : e = .typeError := by
  unfold bindArgs at h
  dsimp only at h
  repeat' split at h
  all_goals cases h
  all_goals rfl

theorem initTuple_error {α : Type} {inst : α → Ty → Bool} {fs : List Ty} {vs : List α} :
    (vs.length ≠ fs.length → initTuple inst fs vs = .error .valueError) ∧
    (vs.length = fs.length → (¬ ∀ (i : Nat) v t, vs[i]? = some v → fs[i]? = some t → inst v t = true) →
      initTuple inst fs vs = .error .typeError) := by
  constructor
  · intro h
    rw [initTuple, if_pos h]
  · intro h h'
    rw [initTuple, if_neg (by simpa using h), if_neg]
    rw [checkFields_iff h]
    exact h'

/-! ### Tuples and products -/

/-- The position an index denotes. -/
theorem pyIndex_mod {n : Nat} {i : Int} : pyIndex n i = if -(n : Int) ≤ i ∧ i < n then some (i % n).toNat else none := by
  split
  · rename_i h
    rw [pyIndex_iff]
    have hn : (0 : Int) < n := by omega
    have h1 := Int.emod_nonneg i (by omega : (n : Int) ≠ 0)
    have h2 := Int.emod_lt_of_pos i hn
    refine ⟨by omega, ?_⟩
    rw [Int.toNat_of_nonneg h1]
    by_cases hi : 0 ≤ i
    · left; exact Int.emod_eq_of_lt hi h.2
    · right
      rw [← Int.add_emod_right, Int.emod_eq_of_lt (by omega) (by omega)]
  · rename_i h
    cases hp : pyIndex n i with
    | none => rfl
    | some j =>
        exfalso
        have := pyIndex_iff.1 hp
        omega

theorem setItem_int_ok {h : Store} {r T a vs k fs} (hr : h[r]? = some (.tup T a vs)) (hv : T.view = some (k, fs))
    (hl : vs.length = fs.length) {i : Int} {v : Ref} :
    (∃ t, -(fs.length : Int) ≤ i ∧ i < fs.length ∧ fs[(i % fs.length).toNat]? = some t ∧ Inst W h v t ∧
      h.setItem W r (.int i) v = ⟨h.set r (.tup T true (vs.set (i % fs.length).toNat v)), .ok ()⟩) ∨
    (∃ e, (¬ (-(fs.length : Int) ≤ i ∧ i < fs.length) ∧ e = .indexError ∨
      -(fs.length : Int) ≤ i ∧ i < fs.length ∧
        (∀ t, fs[(i % fs.length).toNat]? = some t → ¬ Inst W h v t) ∧ e = .typeError) ∧
      h.setItem W r (.int i) v = ⟨h, .error e⟩) := by
  unfold Store.setItem
  rw [hr]
  simp only [hv]
  unfold setItemValue
  simp only [pyIndex_mod, hl]
  by_cases hi : -(fs.length : Int) ≤ i ∧ i < fs.length
  · have hn : (0 : Int) < fs.length := by omega
    have h1 := Int.emod_nonneg i (by omega : (fs.length : Int) ≠ 0)
    have h2 := Int.emod_lt_of_pos i hn
    have hp : (i % fs.length).toNat < fs.length := by omega
    simp only [if_pos hi, List.getElem?_eq_getElem hp]
    by_cases hI : h.isinst W v fs[(i % fs.length).toNat] = true
    · left
      simp only [if_pos hI]
      exact ⟨_, hi.1, hi.2, rfl, isinst_iff.1 hI, trivial⟩
    · right
      simp only [if_neg hI]
      refine ⟨.typeError, .inr ⟨hi.1, hi.2, ?_, rfl⟩, rfl⟩
      intro t ht
      cases ht
      exact fun h => hI (isinst_iff.2 h)
  · right
    simp only [if_neg hi]
    exact ⟨.indexError, .inl ⟨hi, rfl⟩, rfl⟩

theorem getItem_eq {h : Store} {r T a vs} (hr : h[r]? = some (.tup T a vs)) (i : Int) :
    (-(vs.length : Int) ≤ i ∧ i < vs.length ∧ ∃ v, vs[(i % vs.length).toNat]? = some v ∧ h.getItem r i = .ok v) ∨
    (¬ (-(vs.length : Int) ≤ i ∧ i < vs.length) ∧ h.getItem r i = .error .indexError) := by
  unfold Store.getItem
  rw [hr]
  simp only [pyIndex_mod]
  by_cases hi : -(vs.length : Int) ≤ i ∧ i < vs.length
  · have hn : (0 : Int) < vs.length := by omega
    have h1 := Int.emod_nonneg i (by omega : (vs.length : Int) ≠ 0)
    have h2 := Int.emod_lt_of_pos i hn
    have hp : (i % vs.length).toNat < vs.length := by omega
    left
    simp only [if_pos hi, List.getElem?_eq_getElem hp]
    exact ⟨hi.1, hi.2, _, rfl, rfl⟩
  · right
    simp only [if_neg hi]
    exact ⟨hi, trivial⟩

theorem setAttr_tup {h : Store} {r T a vs k fs n v} (hr : h[r]? = some (.tup T a vs)) (hv : T.view = some (k, fs))
    (hl : vs.length = fs.length) (hf : k.names.length = fs.length) (hn : n ∈ k.names) :
    h.setAttr W r n v = h.setItem W r (.int (k.names.idxOf n)) v := by
  have hlt : k.names.idxOf n < fs.length := hf ▸ List.idxOf_lt_length_of_mem hn
  unfold Store.setAttr
  rw [hr]
  simp only [hv, if_pos hn, List.getElem?_eq_getElem hlt]
  split
  · rfl
  · rename_i hI
    rcases setItem_int_ok (W := W) hr hv hl (i := (k.names.idxOf n : Int)) (v := v) with
      ⟨t, h1, h2, h3, h4, h5⟩ | ⟨e, ⟨h1, rfl⟩ | ⟨h1, h2, h3, rfl⟩, h5⟩
    · rw [Int.emod_eq_of_lt (by omega) h2, Int.toNat_natCast, List.getElem?_eq_getElem hlt] at h3
      cases h3
      exact absurd (isinst_iff.2 h4) hI
    · exfalso; apply h1; constructor <;> omega
    · exact h5.symm

/-! ### Histories of one object -/

/-- `r` is a tuple or product of the class `T` with `n` fields, the field `p` of which holds `x`. -/
def Holds (h : Store) (r : Ref) (T : Ty) (n p : Nat) (x : Ref) : Prop :=
  ∃ a vs, h[r]? = some (.tup T a vs) ∧ vs.length = n ∧ vs[p]? = some x

theorem Holds.set {h : Store} {r T n p x} (hh : Holds h r T n p x) {a vs} (hr : h[r]? = some (.tup T a vs)) {q : Nat}
    {v : Ref} (hq : q ≠ p) : Holds (h.set r (.tup T true (vs.set q v))) r T n p x := by
  obtain ⟨a', vs', h1, h2, h3⟩ := hh
  rw [hr] at h1
  cases h1
  obtain ⟨hlt, -⟩ := List.getElem?_eq_some_iff.1 hr
  refine ⟨true, vs.set q v, by simp [hlt], by simpa using h2, ?_⟩
  rw [List.getElem?_set_ne hq]
  exact h3

theorem holds_setItem {h : Store} {r T k fs p x i v} (hv : T.view = some (k, fs)) (hh : Holds h r T fs.length p x)
    (hw : i % (fs.length : Int) ≠ p) : Holds (h.setItem W r (.int i) v).st r T fs.length p x := by
  obtain ⟨a, vs, h1, h2, h3⟩ := id hh
  rcases setItem_int_ok (W := W) h1 hv h2 (i := i) (v := v) with ⟨t, e1, e2, e3, e4, e5⟩ | ⟨e, -, e5⟩
  · rw [e5]
    refine hh.set h1 ?_
    have := Int.emod_nonneg i (by omega : (fs.length : Int) ≠ 0)
    omega
  · rw [e5]; exact hh

theorem holds_step {h : Store} {r T k fs p x} (hv : T.view = some (k, fs)) (hn : k.names ≠ [] → k.names.length = fs.length)
    (hh : Holds h r T fs.length p x) {op : Op} (hw : ¬ op.Writes r k.names fs.length p) :
    Holds (h.step W op).st r T fs.length p x := by
  obtain ⟨a, vs, h1, h2, h3⟩ := id hh
  have hlt : r < h.length := (List.getElem?_eq_some_iff.1 h1).1
  have frame : op.target ≠ some r → Holds (h.step W op).st r T fs.length p x := fun ht =>
    ⟨a, vs, by rw [step_frame hlt ht]; exact h1, h2, h3⟩
  cases op with
  | setItem r' idx v =>
      by_cases e : r' = r
      · subst e
        cases idx with
        | int i => exact holds_setItem hv hh fun hi => hw ⟨rfl, hi⟩
        | slice s => exact absurd rfl hw
        | str m =>
            have : (h.step W (.setItem r' (.str m) v)).st = h := by
              simp only [Store.step, Store.setItem, h1, hv, setItemValue]
              by_cases hc : k.shape = .product ∧ m ∉ k.names
              · simp only [if_pos hc]
              · simp only [if_neg hc]
            rw [this]; exact hh
      · exact frame (by simpa [Op.target] using e)
  | setAttr r' m v =>
      by_cases e : r' = r
      · subst e
        by_cases hm : m ∈ k.names
        · have hl := hn (List.ne_nil_of_mem hm)
          have hlt' : k.names.idxOf m < fs.length := hl ▸ List.idxOf_lt_length_of_mem hm
          simp only [Store.step]
          rw [setAttr_tup h1 hv h2 hl hm]
          refine holds_setItem hv hh fun hi => hw ⟨rfl, ?_⟩
          rw [Int.emod_eq_of_lt (by omega) (by omega)] at hi
          have hi : k.names.idxOf m = p := by omega
          rw [← hi]
          exact List.getElem?_idxOf hm
        · have : (h.step W (.setAttr r' m v)).st = h := by
            simp only [Store.step, Store.setAttr, h1, hv, if_neg hm]
          rw [this]; exact hh
      · exact frame (by simpa [Op.target] using e)
  | setSum r' T' v =>
      by_cases e : r' = r
      · subst e
        have : (h.step W (.setSum r' T' v)).st = h := by simp only [Store.step, Store.setSum, h1]
        rw [this]; exact hh
      · exact frame (by simpa [Op.target] using e)
  | touch r' q =>
      by_cases e : r' = r
      · subst e
        have : (h.step W (.touch r' q)).st = h := by simp only [Store.step, h1]
        rw [this]; exact hh
      · exact frame (by simpa [Op.target] using e)
  | other T q => exact frame (by simp [Op.target])
  | member e i => exact frame (by simp [Op.target])
  | new T pos kw => exact frame (by simp [Op.target])
  | newUnbound b pos => exact frame (by simp [Op.target])

theorem holds_run {h : Store} {r T k fs p x} (hv : T.view = some (k, fs)) (hn : k.names ≠ [] → k.names.length = fs.length)
    (hh : Holds h r T fs.length p x) {ops : List Op} (hw : ∀ op ∈ ops, ¬ op.Writes r k.names fs.length p) :
    Holds (h.run W ops) r T fs.length p x := by
  induction ops generalizing h with
  | nil => exact hh
  | cons op ops ih => exact ih (holds_step hv hn hh (hw op (by simp))) fun o ho => hw o (by simp [ho])

theorem Holds.get {h : Store} {r T n p x} (hh : Holds h r T n p x) {i : Int} (h1 : -(n : Int) ≤ i) (h2 : i < n)
    (h3 : i % n = p) : h.getItem r i = .ok x := by
  obtain ⟨a, vs, hr, hl, hp⟩ := hh
  rcases getItem_eq hr i with ⟨e1, e2, v, e3, e4⟩ | ⟨e1, -⟩
  · rw [hl, h3, Int.toNat_natCast, hp] at e3
    cases e3
    exact e4
  · exfalso; apply e1; rw [hl]; exact ⟨h1, h2⟩

theorem tag_step {h : Store} {r T k fs i v} (hv : T.view = some (k, fs)) (hr : h[r]? = some (.tag T i v)) {op : Op}
    (ht : ¬ op.Tags r k.names) : (h.step W op).st[r]? = some (.tag T i v) := by
  have hlt : r < h.length := (List.getElem?_eq_some_iff.1 hr).1
  have frame : op.target ≠ some r → (h.step W op).st[r]? = some (.tag T i v) := fun ht => by
    rw [step_frame hlt ht]; exact hr
  cases op with
  | setItem r' idx w =>
      by_cases e : r' = r
      · subst e
        simp only [Store.step, Store.setItem, hr]
      · exact frame (by simpa [Op.target] using e)
  | setAttr r' m w =>
      by_cases e : r' = r
      · subst e
        have hm : m ∉ k.names := fun hm => ht ⟨rfl, hm⟩
        simp only [Store.step, Store.setAttr, hr, hv, if_neg hm]
      · exact frame (by simpa [Op.target] using e)
  | setSum r' T' w =>
      by_cases e : r' = r
      · subst e
        simp only [Store.step, Store.setSum, hr]
      · exact frame (by simpa [Op.target] using e)
  | touch r' q =>
      by_cases e : r' = r
      · subst e
        simp only [Store.step, hr]
      · exact frame (by simpa [Op.target] using e)
  | other T q => exact frame (by simp [Op.target])
  | member e i => exact frame (by simp [Op.target])
  | new T pos kw => exact frame (by simp [Op.target])
  | newUnbound b pos => exact frame (by simp [Op.target])

theorem tag_run {h : Store} {r T k fs i v} (hv : T.view = some (k, fs)) (hr : h[r]? = some (.tag T i v)) {ops : List Op}
    (ht : ∀ op ∈ ops, ¬ op.Tags r k.names) : (h.run W ops)[r]? = some (.tag T i v) := by
  induction ops generalizing h with
  | nil => exact hr
  | cons op ops ih => exact ih (tag_step hv hr (ht op (by simp))) fun o ho => ht o (by simp [ho])

end HW.Adt
