import Verif.Lemmas.Adt.Type
import Verif.Spec.AdtHeap

/-! # Lemmas on stores of ADT values -/

namespace HW.Adt

variable {W : World} {q : Prop}

/-- `Obj.Typed`, for tuples and products if `q`. -/
def Obj.TypedIf (W : World) (q : Prop) (h : Store) : Obj → Prop
  | .tup T a vs => q → Obj.Typed W h (.tup T a vs)
  | o => o.Typed W h

def Store.TypedIf (W : World) (q : Prop) (h : Store) : Prop :=
  ∀ (r : Ref) (o : Obj), h[r]? = some o → o.TypedIf W q h

theorem Obj.Typed.if {h : Store} {o : Obj} (ho : o.Typed W h) : o.TypedIf W q h := by
  cases o <;> first | exact ho | exact fun _ => ho

theorem Obj.TypedIf.typed {h : Store} {o : Obj} (ho : o.TypedIf W True h) : o.Typed W h := by
  cases o <;> first | exact ho | exact ho trivial


theorem isinst_iff {h : Store} {r T} : h.isinst W r T = true ↔ Inst W h r T := by
  unfold Store.isinst Inst
  cases h[r]? <;> simp

/-- Objects stay and keep their class. -/
def Grows (h h' : Store) : Prop := ∀ (r : Ref) (o : Obj), h[r]? = some o → ∃ o', h'[r]? = some o' ∧ o'.cls = o.cls

theorem Grows.refl (h : Store) : Grows h h := fun _ o ho => ⟨o, ho, rfl⟩

theorem Grows.trans {a b c : Store} (h : Grows a b) (h' : Grows b c) : Grows a c := by
  intro r o ho
  obtain ⟨o1, h1, e1⟩ := h r o ho
  obtain ⟨o2, h2, e2⟩ := h' r o1 h1
  exact ⟨o2, h2, e2.trans e1⟩

theorem grows_append (h : Store) (o : Obj) : Grows h (h ++ [o]) := by
  intro r o' ho
  refine ⟨o', ?_, rfl⟩
  obtain ⟨hr, -⟩ := List.getElem?_eq_some_iff.1 ho
  rw [List.getElem?_append_left hr]; exact ho

theorem grows_set {h : Store} {r o o'} (ho : h[r]? = some o) (hc : o'.cls = o.cls) : Grows h (h.set r o') := by
  intro s os hs
  by_cases e : r = s
  · subst e
    rw [ho] at hs
    cases hs
    obtain ⟨hr, -⟩ := List.getElem?_eq_some_iff.1 ho
    exact ⟨o', by simp [hr], hc⟩
  · exact ⟨os, by rw [List.getElem?_set_ne e]; exact hs, rfl⟩

theorem Inst.mono {h h' : Store} (hg : Grows h h') {r T} (hi : Inst W h r T) : Inst W h' r T := by
  obtain ⟨o, ho, hs⟩ := hi
  obtain ⟨o', ho', hc⟩ := hg r o ho
  exact ⟨o', ho', by rw [hc]; exact hs⟩

theorem typed_mono {h h' : Store} (hg : Grows h h') {o : Obj} (ht : o.Typed W h) : o.Typed W h' := by
  cases o with
  | leaf T p => exact ht
  | enum e i => trivial
  | tup T a vs =>
      obtain ⟨k, fs, h1, h2, h3, h4, h5⟩ := ht
      exact ⟨k, fs, h1, h2, h3, h4, fun i v t hv htt => (h5 i v t hv htt).mono hg⟩
  | sum T v =>
      obtain ⟨k, fs, h1, h2, t, h3, h4⟩ := ht
      exact ⟨k, fs, h1, h2, t, h3, h4.mono hg⟩
  | tag T i v =>
      obtain ⟨k, fs, t, h1, h2, h3, h4⟩ := ht
      exact ⟨k, fs, t, h1, h2, h3, h4.mono hg⟩

theorem typedIf_mono {h h' : Store} (hg : Grows h h') {o : Obj} (ht : o.TypedIf W q h) : o.TypedIf W q h' := by
  cases o with
  | tup T a vs => exact fun hq => typed_mono hg (ht hq)
  | leaf T p => exact typed_mono (W := W) (o := .leaf T p) hg ht
  | enum e i => trivial
  | sum T v => exact typed_mono (W := W) (o := .sum T v) hg ht
  | tag T i v => exact typed_mono (W := W) (o := .tag T i v) hg ht

theorem typed_append {h : Store} (hT : h.TypedIf W q) {o : Obj} (ho : o.Typed W h) : Store.TypedIf W q (h ++ [o]) := by
  intro r o' hr
  apply typedIf_mono (grows_append h o)
  by_cases e : r < h.length
  · rw [List.getElem?_append_left e] at hr; exact hT r o' hr
  · rw [List.getElem?_append_right (Nat.le_of_not_lt e)] at hr
    have : o' = o := by
      cases hn : r - h.length with
      | zero => rw [hn] at hr; simpa using hr.symm
      | succ n => rw [hn] at hr; simp at hr
    rw [this]; exact ho.if

theorem typed_set {h : Store} (hT : h.TypedIf W q) {r o o'} (hr : h[r]? = some o) (hc : o'.cls = o.cls)
    (ho : o'.TypedIf W q h) : Store.TypedIf W q (h.set r o') := by
  have hg := grows_set (o' := o') hr hc
  intro s os hs
  apply typedIf_mono hg
  by_cases e : r = s
  · subst e
    obtain ⟨hlt, -⟩ := List.getElem?_eq_some_iff.1 hr
    rw [List.getElem?_set_self hlt] at hs
    cases hs; exact ho
  · rw [List.getElem?_set_ne e] at hs; exact hT s os hs

theorem pyIndex_lt {n i j} (h : pyIndex n i = some j) : j < n := by
  unfold pyIndex at h
  split at h <;> split at h <;> simp only [Option.some.injEq, reduceCtorEq] at h <;> omega

/-- The position an int index denotes. -/
theorem pyIndex_iff {n : Nat} {i : Int} {j : Nat} :
    pyIndex n i = some j ↔ j < n ∧ ((j : Int) = i ∨ (j : Int) = i + n) := by
  unfold pyIndex
  split <;> split <;> simp only [Option.some.injEq, reduceCtorEq, false_iff, not_and, not_or] <;> omega

theorem checkFields_iff {α : Type} {inst : α → Ty → Bool} {vs : List α} {ts : List Ty} (hl : vs.length = ts.length) :
    checkFields inst vs ts = true ↔ ∀ (i : Nat) v t, vs[i]? = some v → ts[i]? = some t → inst v t = true := by
  induction vs generalizing ts with
  | nil => simp [checkFields]
  | cons v vs ih =>
      cases ts with
      | nil => simp at hl
      | cons t ts =>
          simp only [List.length_cons, Nat.add_right_cancel_iff] at hl
          rw [checkFields, Bool.and_eq_true, ih hl]
          constructor
          · rintro ⟨h1, h2⟩ i
            cases i with
            | zero => intro v' t' hv ht; simp at hv ht; subst hv ht; exact h1
            | succ i => simpa using h2 i
          · intro h
            exact ⟨h 0 v t rfl rfl, fun i => by simpa using h (i + 1)⟩

theorem initTuple_ok {α : Type} {inst : α → Ty → Bool} {fs : List Ty} {vs vs' : List α} :
    initTuple inst fs vs = .ok vs' ↔ vs' = vs ∧ vs.length = fs.length ∧
      ∀ (i : Nat) v t, vs[i]? = some v → fs[i]? = some t → inst v t = true := by
  unfold initTuple
  split
  · rename_i h; constructor
    · intro h'; cases h'
    · rintro ⟨-, h', -⟩; exact absurd h' h
  · rename_i h
    push Not at h
    rw [← checkFields_iff h]
    split
    · rename_i hc
      simp only [Except.ok.injEq, hc, h, and_true]
      exact eq_comm
    · rename_i hc
      simp [hc]

theorem construct_typed {h : Store} {T pos kw o} (hc : construct W h T pos kw = .ok o) :
    o.Typed W h ∧ o.cls = T := by
  unfold construct at hc
  split at hc
  · cases hc
  rename_i k fs hv
  split at hc
  · rename_i hs
    unfold callSum at hc
    split at hc
    · split at hc
      · rename_i v _ T' hT'
        split at hc
        · rename_i hm
          cases hc
          simp only [Option.map_eq_some_iff] at hT'
          obtain ⟨ov, hov, rfl⟩ := hT'
          exact ⟨⟨k, fs, hv, hs, _, hm, ov, hov, W.sub_refl _⟩, rfl⟩
        · cases hc
      · cases hc
    · cases hc
  · rename_i hs
    unfold callTagged at hc
    split at hc
    · cases hc
    split at hc
    · split at hc
      · split at hc
        · split at hc
          · rename_i t ht hi
            cases hc
            exact ⟨⟨k, fs, t, hv, hs, ht, isinst_iff.1 hi⟩, rfl⟩
          · cases hc
        · cases hc
      · cases hc
    · cases hc
  · rename_i hs1 hs2
    cases hb : callTuple (h.isinst W) k fs pos kw with
    | error e => rw [hb] at hc; cases hc
    | ok vs =>
        rw [hb] at hc
        cases hc
        have : ∃ vs0, initTuple (h.isinst W) fs vs0 = .ok vs := by
          unfold callTuple at hb
          split at hb
          · split at hb
            · exact ⟨_, hb⟩
            · cases hb
          · cases hbb : bindArgs k.names pos kw with
            | error e => rw [hbb] at hb; cases hb
            | ok l => rw [hbb, pyBindOk] at hb; exact ⟨_, hb⟩
        obtain ⟨vs0, h0⟩ := this
        obtain ⟨rfl, hl, hf⟩ := initTuple_ok.1 h0
        refine ⟨⟨k, fs, hv, hs1, hs2, hl, ?_⟩, rfl⟩
        intro i v t h1 h2
        exact isinst_iff.1 (hf i v t h1 h2)

theorem setItemValue_int {h : Store} {k fs vs i value vs'}
    (hs : setItemValue W h k fs vs (.int i) value = .ok vs') (hl : vs.length = fs.length) :
    ∃ j t, pyIndex fs.length i = some j ∧ fs[j]? = some t ∧ Inst W h value t ∧ vs' = vs.set j value := by
  unfold setItemValue at hs
  simp only at hs
  split at hs
  · cases hs
  rename_i j hj
  split at hs
  · cases hs
  rename_i t ht
  split at hs
  · rename_i hi
    rw [hl, hj] at hs
    cases hs
    exact ⟨j, t, hj, ht, isinst_iff.1 hi, rfl⟩
  · cases hs

theorem setItem_typed {h : Store} (hT : h.TypedIf W q) {r idx v} (hn : q → ∀ s, idx ≠ .slice s) :
    Store.TypedIf W q (h.setItem W r idx v).st := by
  unfold Store.setItem
  split
  · rename_i T a vs hr
    split
    · rename_i k fs hv
      split
      · rename_i vs' hs
        refine typed_set hT hr rfl ?_
        intro hq
        obtain ⟨k', fs', h1, h2, h3, h4, h5⟩ := hT r _ hr hq
        rw [hv] at h1
        cases h1
        cases idx with
        | slice s => exact absurd rfl (hn hq s)
        | str n =>
            unfold setItemValue at hs
            simp only at hs
            split at hs <;> cases hs
        | int i =>
            obtain ⟨j, t, hj, ht, hi, rfl⟩ := setItemValue_int hs h4
            refine ⟨k, fs, hv, h2, h3, by simpa using h4, ?_⟩
            intro i' v' t' hv' ht'
            rw [List.getElem?_set] at hv'
            split at hv'
            · rename_i e
              subst e
              split at hv'
              · cases hv'
                rw [ht] at ht'
                cases ht'
                exact hi
              · cases hv'
            · exact h5 i' v' t' hv' ht'
      · exact hT
    · exact hT
  · exact hT

theorem step_typed {h : Store} (hT : h.TypedIf W q) {op : Op} (hn : q → op.NoSlice) :
    Store.TypedIf W q (h.step W op).st := by
  cases op with
  | other T p =>
      simp only [Store.step]
      split
      · rename_i hp
        exact typed_append hT (by simpa [Ty.isPlain, Obj.Typed] using hp)
      · exact hT
  | member e i =>
      simp only [Store.step]
      split
      · exact typed_append hT trivial
      · exact hT
  | new T pos kw =>
      simp only [Store.step, Store.alloc]
      split
      · rename_i o ho
        exact typed_append hT (construct_typed ho).1
      · exact hT
  | newUnbound b pos =>
      simp only [Store.step, Store.alloc]
      split
      · rename_i o ho
        unfold constructUnbound at ho
        split at ho
        · exact typed_append hT (construct_typed ho).1
        · cases ho
      · exact hT
  | setItem r idx v =>
      refine setItem_typed hT fun hq s e => ?_
      subst e
      exact hn hq
  | setAttr r n v =>
      simp only [Store.step, Store.setAttr]
      split
      · split
        · split
          · split
            · split
              · exact setItem_typed hT (by simp)
              · exact hT
            · exact hT
          · exact hT
        · exact hT
      · rename_i T i v' hr
        split
        · rename_i k fs hv
          split
          · split
            · split
              · rename_i t ht hi
                obtain ⟨k', fs', t', h1, h2, h3, h4⟩ := hT r _ hr
                rw [hv] at h1
                cases h1
                simp only [List.set_set]
                exact typed_set hT hr rfl ⟨k, fs, t, hv, h2, ht, isinst_iff.1 hi⟩
              · exact hT
            · exact hT
          · exact hT
        · exact hT
      · exact hT
  | setSum r T v =>
      simp only [Store.step, Store.setSum]
      split
      · rename_i T' v' hr
        split
        · rename_i k fs hv
          split
          · exact hT
          · rename_i hm
            split
            · rename_i hi
              obtain ⟨k', fs', h1, h2, -⟩ := hT r _ hr
              rw [hv] at h1
              cases h1
              exact typed_set hT hr rfl ⟨k, fs, hv, h2, T, not_not.1 hm, isinst_iff.1 hi⟩
            · exact hT
        · exact hT
      · exact hT
  | touch r p =>
      simp only [Store.step]
      split
      · rename_i T p' hr
        exact typed_set hT hr rfl (hT r _ hr : Obj.TypedIf W q h (.leaf T p'))
      · exact hT

theorem run_typed {h : Store} (hT : h.TypedIf W q) {ops : List Op} (hn : q → ∀ op ∈ ops, op.NoSlice) :
    Store.TypedIf W q (h.run W ops) := by
  induction ops generalizing h with
  | nil => exact hT
  | cons op ops ih =>
      exact ih (step_typed hT fun hq => hn hq op (by simp)) fun hq o ho => hn hq o (by simp [ho])

/-! ### Frame -/

theorem setItem_frame {h : Store} {r idx v s} (hs : s ≠ r) : (h.setItem W r idx v).st[s]? = h[s]? := by
  unfold Store.setItem
  split
  · split
    · split
      · rw [List.getElem?_set_ne (Ne.symm hs)]
      · rfl
    · rfl
  · rfl

theorem setItem_length {h : Store} {r idx v} : (h.setItem W r idx v).st.length = h.length := by
  unfold Store.setItem
  split
  · split
    · split
      · simp
      · rfl
    · rfl
  · rfl

theorem step_frame {h : Store} {op : Op} {s : Ref} (hl : s < h.length) (hs : op.target ≠ some s) :
    (h.step W op).st[s]? = h[s]? := by
  cases op with
  | other T p => simp only [Store.step]; split <;> simp [List.getElem?_append_left hl]
  | member e i => simp only [Store.step]; split <;> simp [List.getElem?_append_left hl]
  | new T pos kw => simp only [Store.step, Store.alloc]; split <;> simp [List.getElem?_append_left hl]
  | newUnbound b pos => simp only [Store.step, Store.alloc]; split <;> simp [List.getElem?_append_left hl]
  | setItem r idx v =>
      simp only [Op.target, ne_eq, Option.some.injEq] at hs
      exact setItem_frame (Ne.symm hs)
  | setAttr r n v =>
      simp only [Op.target, ne_eq, Option.some.injEq] at hs
      simp only [Store.step, Store.setAttr]
      split
      · split
        · split
          · split
            · split
              · exact setItem_frame (Ne.symm hs)
              · rfl
            · rfl
          · rfl
        · rfl
      · split
        · split
          · split
            · split
              · simp only [List.set_set]; rw [List.getElem?_set_ne hs]
              · rfl
            · rfl
          · rfl
        · rfl
      · rfl
  | setSum r T v =>
      simp only [Op.target, ne_eq, Option.some.injEq] at hs
      simp only [Store.step, Store.setSum]
      split
      · split
        · split
          · rfl
          · split
            · rw [List.getElem?_set_ne hs]
            · rfl
        · rfl
      · rfl
  | touch r p =>
      simp only [Op.target, ne_eq, Option.some.injEq] at hs
      simp only [Store.step]
      split
      · rw [List.getElem?_set_ne hs]
      · rfl

theorem step_length {h : Store} {op : Op} : h.length ≤ (h.step W op).st.length := by
  cases op with
  | other T p => simp only [Store.step]; split <;> simp
  | member e i => simp only [Store.step]; split <;> simp
  | new T pos kw => simp only [Store.step, Store.alloc]; split <;> simp
  | newUnbound b pos => simp only [Store.step, Store.alloc]; split <;> simp
  | setItem r idx v => exact (setItem_length (W := W)).ge
  | setAttr r n v =>
      simp only [Store.step, Store.setAttr]
      repeat' split
      all_goals first | exact (setItem_length (W := W)).ge | simp
  | setSum r T v =>
      simp only [Store.step, Store.setSum]
      repeat' split
      all_goals simp
  | touch r p =>
      simp only [Store.step]
      split <;> simp

theorem run_frame {h : Store} {ops : List Op} {s : Ref} (hl : s < h.length) (hs : ∀ op ∈ ops, op.target ≠ some s) :
    (h.run W ops)[s]? = h[s]? := by
  induction ops generalizing h with
  | nil => rfl
  | cons op ops ih =>
      rw [Store.run, ih (lt_of_lt_of_le hl step_length) fun o ho => hs o (by simp [ho]),
        step_frame hl (hs op (by simp))]

theorem run_length {h : Store} {ops : List Op} : h.length ≤ (h.run W ops).length := by
  induction ops generalizing h with
  | nil => exact le_refl _
  | cons op ops ih => exact le_trans step_length ih

/-! ### Exceptions -/

theorem setItem_error {h : Store} {r idx v e} (he : (h.setItem W r idx v).res = .error e) :
    (h.setItem W r idx v).st = h := by
  unfold Store.setItem at he ⊢
  repeat' split at he
  all_goals simp_all

theorem step_error {h : Store} {op : Op} {e} (he : (h.step W op).res = .error e) : (h.step W op).st = h := by
  cases op with
  | other T p => simp only [Store.step] at he ⊢; split at he <;> simp_all
  | member e' i =>
      simp only [Store.step] at he ⊢
      split at he
      · cases he
      · rename_i hi; rw [if_neg hi]
  | new T pos kw => simp only [Store.step, Store.alloc] at he ⊢; split at he <;> simp_all
  | newUnbound b pos => simp only [Store.step, Store.alloc] at he ⊢; split at he <;> simp_all
  | setItem r idx v => exact setItem_error he
  | setAttr r n v =>
      simp only [Store.step, Store.setAttr] at he ⊢
      repeat' split at he
      all_goals simp_all
      exact setItem_error he
  | setSum r T v =>
      simp only [Store.step, Store.setSum] at he ⊢
      repeat' split at he
      all_goals simp_all
  | touch r p =>
      simp only [Store.step] at he ⊢
      split at he <;> simp_all

/-! ### Classes -/

def Store.Known (W : World) (h : Store) : Prop := ∀ (r : Ref) (o : Obj), h[r]? = some o → Built W o.cls

theorem known_append {h : Store} (hK : h.Known W) {o : Obj} (ho : Built W o.cls) : Store.Known W (h ++ [o]) := by
  intro r o' hr
  by_cases e : r < h.length
  · rw [List.getElem?_append_left e] at hr; exact hK r o' hr
  · rw [List.getElem?_append_right (Nat.le_of_not_lt e)] at hr
    have : o' = o := by
      cases hn : r - h.length with
      | zero => rw [hn] at hr; simpa using hr.symm
      | succ n => rw [hn] at hr; simp at hr
    rw [this]; exact ho

theorem step_grows {h : Store} {op : Op} : Grows h (h.step W op).st := by
  have key : ∀ r idx v, Grows h (h.setItem W r idx v).st := by
    intro r idx v
    unfold Store.setItem
    split
    · rename_i hr
      split
      · split
        · exact grows_set hr rfl
        · exact .refl _
      · exact .refl _
    · exact .refl _
  cases op with
  | other T p => simp only [Store.step]; split <;> first | exact grows_append _ _ | exact .refl _
  | member e i => simp only [Store.step]; split <;> first | exact grows_append _ _ | exact .refl _
  | new T pos kw => simp only [Store.step, Store.alloc]; split <;> first | exact grows_append _ _ | exact .refl _
  | newUnbound b pos => simp only [Store.step, Store.alloc]; split <;> first | exact grows_append _ _ | exact .refl _
  | setItem r idx v => exact key r idx v
  | setAttr r n v =>
      simp only [Store.step, Store.setAttr]
      split
      · split
        · split
          · split
            · split
              · exact key _ _ _
              · exact .refl _
            · exact .refl _
          · exact .refl _
        · exact .refl _
      · rename_i hr
        split
        · split
          · split
            · split
              · simp only [List.set_set]; exact grows_set hr rfl
              · exact .refl _
            · exact .refl _
          · exact .refl _
        · exact .refl _
      · exact .refl _
  | setSum r T v =>
      simp only [Store.step, Store.setSum]
      split
      · rename_i hr
        split
        · split
          · exact .refl _
          · split
            · exact grows_set hr rfl
            · exact .refl _
        · exact .refl _
      · exact .refl _
  | touch r p =>
      simp only [Store.step]
      split
      · rename_i hr; exact grows_set hr rfl
      · exact .refl _

theorem run_grows {h : Store} {ops : List Op} : Grows h (h.run W ops) := by
  induction ops generalizing h with
  | nil => exact .refl _
  | cons op ops ih => exact .trans step_grows ih

theorem mapM_cls {h : Store} : ∀ {l : List Ref} {ts : List Ty}, l.mapM (fun r => h[r]?.map Obj.cls) = some ts →
    ∀ t ∈ ts, ∃ (r : Ref) (o : Obj), h[r]? = some o ∧ o.cls = t
  | [], ts, hm => by
      simp only [List.mapM_nil, Option.pure_def, Option.some.injEq] at hm
      subst hm
      exact fun t ht => absurd ht (by simp)
  | r :: l, ts, hm => by
      simp only [List.mapM_cons, Option.bind_eq_bind, Option.pure_def, Option.bind_eq_some_iff, Option.some.injEq,
        Option.map_eq_some_iff] at hm
      obtain ⟨t, ⟨o, ho, rfl⟩, ts', hm', rfl⟩ := hm
      intro t ht
      rcases List.mem_cons.1 ht with rfl | ht
      · exact ⟨r, o, ho, rfl⟩
      · exact mapM_cls hm' t ht

theorem known_step {h : Store} (hK : h.Known W) {op : Op} (ho : op.Known W) : Store.Known W (h.step W op).st := by
  have grow : ∀ {h' : Store}, h'.length = h.length → Grows h h' → Store.Known W h' := by
    intro h' hl hg r o' hr
    have hlt : r < h.length := hl ▸ (List.getElem?_eq_some_iff.1 hr).1
    obtain ⟨o2, h2, e2⟩ := hg r _ (List.getElem?_eq_getElem hlt)
    rw [hr] at h2
    cases h2
    rw [e2]
    exact hK r _ (List.getElem?_eq_getElem hlt)
  cases op with
  | other T p =>
      simp only [Store.step]
      split
      · exact known_append hK ho
      · exact hK
  | member e i =>
      simp only [Store.step]
      split
      · exact known_append hK (.enum e)
      · exact hK
  | new T pos kw =>
      simp only [Store.step, Store.alloc]
      split
      · rename_i o hc
        exact known_append hK (by rw [(construct_typed hc).2]; exact ho)
      · exact hK
  | newUnbound b pos =>
      simp only [Store.step, Store.alloc]
      split
      · rename_i o hc
        unfold constructUnbound at hc
        split at hc
        · rename_i ts hm
          refine known_append hK ?_
          rw [(construct_typed hc).2]
          refine .tuple _ _ fun t ht => ?_
          obtain ⟨r, o', hr, rfl⟩ := mapM_cls hm t ht
          exact hK r o' hr
        · cases hc
      · exact hK
  | setItem r idx v => exact grow setItem_length (step_grows (op := .setItem r idx v))
  | setAttr r n v =>
      refine grow ?_ (step_grows (op := .setAttr r n v))
      simp only [Store.step, Store.setAttr]
      repeat' split
      all_goals first | exact setItem_length | simp
  | setSum r T v =>
      refine grow ?_ (step_grows (op := .setSum r T v))
      simp only [Store.step, Store.setSum]
      repeat' split
      all_goals simp
  | touch r p =>
      refine grow ?_ (step_grows (op := .touch r p))
      simp only [Store.step]
      split <;> simp

theorem known_run {h : Store} (hK : h.Known W) {ops : List Op} (ho : ∀ op ∈ ops, op.Known W) :
    Store.Known W (h.run W ops) := by
  induction ops generalizing h with
  | nil => exact hK
  | cons op ops ih => exact ih (known_step hK (ho op (by simp))) fun o h => ho o (by simp [h])

theorem view_fits {T k fs} (hT : Built W T) (hv : T.view = some (k, fs)) : Fits k fs := by
  induction T using Ty.induct generalizing k with
  | leaf l => cases hv
  | enum e => cases hv
  | node k' fs' _ =>
      cases hv
      exact hT.canon.fits
  | mod m t ih =>
      simp only [Ty.view, Option.map_eq_some_iff] at hv
      obtain ⟨⟨k', fs'⟩, h1, h2⟩ := hv
      cases h2
      have := ih hT.unmod h1
      unfold Fits at this ⊢
      exact this

theorem view_sum_nodup {T k fs} (hT : Built W T) (hv : T.view = some (k, fs)) (hs : k.shape = .sum) : fs.Nodup := by
  induction T using Ty.induct generalizing k with
  | leaf l => cases hv
  | enum e => cases hv
  | node k' fs' _ =>
      cases hv
      have := hT.canon
      unfold Canon at this
      rw [hs] at this
      rw [← this.2.2.2]
      exact W.nodup_canon _
  | mod m t ih =>
      simp only [Ty.view, Option.map_eq_some_iff] at hv
      obtain ⟨⟨k', fs'⟩, h1, h2⟩ := hv
      cases h2
      have := ih hT.unmod h1 hs
      exact this

theorem view_tuple_names {T k fs} (hT : Built W T) (hv : T.view = some (k, fs)) (hs : k.shape = .tuple) :
    k.names = [] := by
  induction T using Ty.induct generalizing k with
  | leaf l => cases hv
  | enum e => cases hv
  | node k' fs' _ =>
      cases hv
      have := hT.canon
      unfold Canon at this
      rw [hs] at this
      exact this.2.2
  | mod m t ih =>
      simp only [Ty.view, Option.map_eq_some_iff] at hv
      obtain ⟨⟨k', fs'⟩, h1, h2⟩ := hv
      cases h2
      have := ih hT.unmod h1 hs
      exact this

end HW.Adt
