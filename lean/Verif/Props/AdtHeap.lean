import Verif.Lemmas.Adt.HeapOps
import Verif.Lemmas.Adt.SetSlice

/-!
# ADT values as objects: construction, assignment, reading (C50, C51, C54, C55)
-/

namespace HW

open Adt

variable {W : World}

/-! ### C50: construction and the typing invariant -/

/-- The field values are instances of the field types. -/
def Adt.Fit (W : World) (h : Store) (vs : List Ref) (fs : List Ty) : Prop :=
  ∀ (i : Nat) v t, vs[i]? = some v → fs[i]? = some t → Inst W h v t

theorem C50_tuple {h : Store} {T : Ty} {k : Con} {fs : List Ty} {pos : List Ref} (hv : T.view = some (k, fs))
    (hs : k.shape = .tuple) :
    (pos.length = fs.length → Fit W h pos fs → construct W h T pos [] = .ok (.tup T false pos)) ∧
    (pos.length ≠ fs.length → construct W h T pos [] = .error .valueError) ∧
    (pos.length = fs.length → ¬ Fit W h pos fs → construct W h T pos [] = .error .typeError) := by
  unfold construct
  simp only [hv, hs, callTuple, if_true]
  refine ⟨fun h1 h2 => ?_, fun h1 => ?_, fun h1 h2 => ?_⟩
  · rw [(initTuple_ok (inst := h.isinst W) (fs := fs) (vs := pos)).2
      ⟨rfl, h1, fun i v t a b => isinst_iff.2 (h2 i v t a b)⟩]
    rfl
  · rw [initTuple_error.1 h1]; rfl
  · rw [initTuple_error.2 h1 fun h' => h2 fun i v t a b => isinst_iff.1 (h' i v t a b)]; rfl

/-- Keyword and positional arguments of a product, the keywords in any order. -/
theorem C50_product {h : Store} {T : Ty} {k : Con} {fs : List Ty} {pos : List Ref} {kw : List (Name × Ref)} {o : Adt.Obj}
    (hT : Built W T) (hv : T.view = some (k, fs)) (hs : k.shape = .anon ∨ k.shape = .product)
    (hk : (kw.map Prod.fst).Nodup) :
    construct W h T pos kw = .ok o ↔ ∃ vs, o = .tup T false vs ∧ vs.length = fs.length ∧ pos = vs.take pos.length ∧
      kw.Perm ((k.names.drop pos.length).zip (vs.drop pos.length)) ∧ Fit W h vs fs := by
  have hf := view_fits hT hv
  have hf : k.names.length = fs.length ∧ k.names.Nodup := by
    unfold Fits at hf
    rcases hs with hs | hs <;> rw [hs] at hf <;> exact hf
  have key : construct W h T pos kw = (do
      let vs ← bindArgs k.names pos kw
      let vs ← initTuple (h.isinst W) fs vs
      return .tup T false vs) := by
    unfold construct callTuple
    rcases hs with hs | hs <;> simp only [hv, hs, reduceCtorEq, if_false] <;>
      cases bindArgs k.names pos kw <;> rfl
  rw [key]
  constructor
  · intro hc
    obtain ⟨vs, h1, hc'⟩ := bindOk (x := bindArgs k.names pos kw) hc
    obtain ⟨vs', h2, hc''⟩ := bindOk (x := initTuple (h.isinst W) fs vs) hc'
    obtain ⟨rfl, h3, h4⟩ := initTuple_ok.1 h2
    obtain ⟨h5, h6, h7⟩ := (bindArgs_iff hf.2 hk).1 h1
    simp only [pure, Except.pure, Except.ok.injEq] at hc''
    exact ⟨_, hc''.symm, h3, h6, h7, fun i v t a b => isinst_iff.1 (h4 i v t a b)⟩
  · rintro ⟨vs, rfl, h3, h6, h7, h8⟩
    rw [(bindArgs_iff hf.2 hk).2 ⟨h3.trans hf.1.symm, h6, h7⟩]
    simp only [bind, Except.bind]
    rw [initTuple_ok.2 ⟨rfl, h3, fun i v t a b => isinst_iff.2 (h8 i v t a b)⟩]
    rfl

/-- A call of a product that is not accepted raises `TypeError`. -/
theorem C50_product_rejects {h : Store} {T : Ty} {k : Con} {fs : List Ty} {pos : List Ref} {kw : List (Name × Ref)}
    {e : PyErr} (hT : Built W T) (hv : T.view = some (k, fs)) (hs : k.shape = .anon ∨ k.shape = .product)
    (hk : (kw.map Prod.fst).Nodup) (hc : construct W h T pos kw = .error e) : e = .typeError := by
  have hf := view_fits hT hv
  have hf : k.names.length = fs.length ∧ k.names.Nodup := by
    unfold Fits at hf
    rcases hs with hs | hs <;> rw [hs] at hf <;> exact hf
  have key : construct W h T pos kw = (do
      let vs ← bindArgs k.names pos kw
      let vs ← initTuple (h.isinst W) fs vs
      return .tup T false vs) := by
    unfold construct callTuple
    rcases hs with hs | hs <;> simp only [hv, hs, reduceCtorEq, if_false] <;>
      cases bindArgs k.names pos kw <;> rfl
  rw [key] at hc
  cases hb : bindArgs k.names pos kw with
  | error e' =>
      rw [hb] at hc
      simp only [bind, Except.bind, Except.error.injEq] at hc
      exact hc ▸ bindArgs_error hb
  | ok vs =>
      rw [hb] at hc
      obtain ⟨h5, -, -⟩ := (bindArgs_iff hf.2 hk).1 hb
      simp only [bind, Except.bind] at hc
      cases hi : initTuple (h.isinst W) fs vs with
      | ok vs' => rw [hi] at hc; cases hc
      | error e' =>
          rw [hi] at hc
          cases hc
          by_cases h' : ∀ (i : Nat) v t, vs[i]? = some v → fs[i]? = some t → h.isinst W v t = true
          · rw [initTuple_ok.2 ⟨rfl, h5.trans hf.1, h'⟩] at hi; cases hi
          · rw [initTuple_error.2 (h5.trans hf.1) h'] at hi
            cases hi; rfl

/-- `Tuple(*pos)` of the unbound class always succeeds: the value of `Tuple[type(v), ...]` with exactly the
given objects, in order. -/
theorem C50_unbound {h : Store} (b : Base) {pos : List Ref} (hp : ∀ r ∈ pos, r < h.length) :
    ∃ ts : List Ty, ts.length = pos.length ∧
      (∀ (i : Nat) r o, pos[i]? = some r → h[r]? = some o → ts[i]? = some o.cls) ∧
      constructUnbound W h b pos = .ok (.tup (mkTuple b ts) false pos) := by
  have key : ∀ l : List Ref, (∀ r ∈ l, r < h.length) → ∃ ts : List Ty,
      l.mapM (fun r => h[r]?.map Obj.cls) = some ts ∧ ts.length = l.length ∧
      (∀ (i : Nat) r o, l[i]? = some r → h[r]? = some o → ts[i]? = some o.cls) ∧
      checkFields (h.isinst W) l ts = true := by
    intro l
    induction l with
    | nil => intro _; exact ⟨[], rfl, rfl, by simp, rfl⟩
    | cons r l ih =>
      intro hl
      obtain ⟨ts, h1, h2, h3, h4⟩ := ih fun r hr => hl r (List.mem_cons_of_mem _ hr)
      obtain ⟨o, ho⟩ : ∃ o, h[r]? = some o := ⟨_, List.getElem?_eq_getElem (hl r (by simp))⟩
      refine ⟨o.cls :: ts, by simp [h1, ho], by simp [h2], ?_, ?_⟩
      · intro i r' o' hi ho'
        cases i with
        | zero =>
          simp only [List.getElem?_cons_zero, Option.some.injEq] at hi ⊢
          subst hi
          rw [ho] at ho'
          cases ho'
          rfl
        | succ i =>
          simp only [List.getElem?_cons_succ] at hi ⊢
          exact h3 i r' o' hi ho'
      · simp [checkFields, h4, Store.isinst, ho, W.sub_refl]
  obtain ⟨ts, h1, h2, h3, h4⟩ := key pos hp
  refine ⟨ts, h2, h3, ?_⟩
  unfold constructUnbound
  rw [h1]
  simp [construct, mkTuple, Ty.view, callTuple, initTuple, h2, h4, bind, Except.bind, pure, Except.pure]

example : ∃ (h : Store) (pos : List Ref), 2 ≤ pos.length ∧ ∀ r ∈ pos, r < h.length :=
  ⟨[.leaf (.leaf (.cls 0)) 3, .leaf (.leaf (.cls 1)) 4], [1, 0], by simp, by simp⟩

/-- Item assignment: accepted exactly for an index in range and an instance of the field's type. -/
theorem C50_assign {h : Store} {r T a vs k fs} (hr : h[r]? = some (.tup T a vs)) (hv : T.view = some (k, fs))
    (hl : vs.length = fs.length) (i : Int) (v : Ref) :
    (h.setItem W r (.int i) v).res = .ok () ↔
      -(fs.length : Int) ≤ i ∧ i < fs.length ∧ ∃ t, fs[(i % fs.length).toNat]? = some t ∧ Inst W h v t := by
  rcases setItem_int_ok (W := W) hr hv hl (i := i) (v := v) with
    ⟨t, e1, e2, e3, e4, e5⟩ | ⟨e, ⟨h1, rfl⟩ | ⟨h1, h2, h3, rfl⟩, e5⟩
  · rw [e5]; exact ⟨fun _ => ⟨e1, e2, t, e3, e4⟩, fun _ => rfl⟩
  · rw [e5]; exact ⟨nofun, fun h' => absurd ⟨h'.1, h'.2.1⟩ h1⟩
  · rw [e5]; exact ⟨nofun, fun ⟨_, _, t, c, d⟩ => absurd d (h3 t c)⟩

/-- Every history without slice assignments keeps every tuple and product well-typed.  Slice assignments:
`C50_slice_negation`. -/
theorem C50_invariant_partial (ops : List Op) (hn : ∀ op ∈ ops, op.NoSlice) {r : Ref} {T a vs}
    (hr : (Store.run W [] ops)[r]? = some (Obj.tup T a vs)) :
    ∃ k fs, T.view = some (k, fs) ∧ vs.length = fs.length ∧ Fit W (Store.run W [] ops) vs fs := by
  have h0 : Store.TypedIf W True (Store.run W [] ops) :=
    run_typed (fun r o h => by simp at h) fun _ => hn
  obtain ⟨k, fs, h1, -, -, h2, h3⟩ := h0 r _ hr trivial
  exact ⟨k, fs, h1, h2, h3⟩

/-- An operation that raises changes no object and creates none. -/
theorem C50_rejected {h : Store} {op : Op} {e : PyErr} (he : (h.step W op).res = .error e) :
    (h.step W op).st = h := step_error he

/-- `t[0:1] = p` for a tuple `t : Tuple[P]` and `p : P = Tuple[A, A]` is accepted and puts the two fields of `p`
into `t`. -/
theorem C50_slice_negation : ∃ (ops : List Op) (r : Ref) (T : Ty) (k : Con) (fs : List Ty) (vs : List Ref),
    (Store.run W [] ops)[r]? = some (Obj.tup T true vs) ∧ T.view = some (k, fs) ∧ vs.length ≠ fs.length := by
  let A : Ty := .leaf (.cls 0)
  let P := mkTuple (.user 0) [A, A]
  refine ⟨[.other A 0, .new P [0, 0] [], .new (mkTuple (.user 0) [P]) [1] [],
    .setItem 2 (.slice ⟨some 0, some 1, none⟩) 1], 2, mkTuple (.user 0) [P], ⟨.tuple, .user 0, 0, 0, []⟩, [P], [0, 0],
    ?_, rfl, by decide⟩
  have hA : W.sub (.leaf (.cls 0)) (.leaf (.cls 0)) = true := W.sub_refl _
  have hP : W.sub (mkTuple (.user 0) [.leaf (.cls 0), .leaf (.cls 0)])
    (mkTuple (.user 0) [.leaf (.cls 0), .leaf (.cls 0)]) = true := W.sub_refl _
  have e1 : pySliceList [P] ⟨some 0, some 1, none⟩ = .ok [P] := rfl
  have e2 : pySetSlice [1] ⟨some 0, some 1, none⟩ [0, 0] = .ok [0, 0] := rfl
  simp only [A, P] at e1 ⊢
  simp [Store.run, Store.step, Ty.isPlain, Ty.view, Store.alloc, construct, mkTuple, callTuple, initTuple, checkFields,
    Store.isinst, Obj.cls, bind, Except.bind, pure, Except.pure, hA, Store.setItem, setItemValue]
  simp [mkTuple] at hP e1
  simp [hP, e1, e2, iterObj, Ty.view]

example : ∃ ops : List Op, (∀ op ∈ ops, op.NoSlice) ∧ 2 ≤ ops.length ∧
    (Store.run W [] ops)[1]? = some (.tup (mkTuple (.user 0) [.leaf (.cls 0)]) true [0]) := by
  refine ⟨[.other (.leaf (.cls 0)) 5, .new (mkTuple (.user 0) [.leaf (.cls 0)]) [0] [], .setItem 1 (.int (-1)) 0],
    by simp [Op.NoSlice], by simp, ?_⟩
  simp [Store.run, Store.step, Ty.isPlain, Ty.view, Store.alloc, construct, mkTuple, callTuple, initTuple, checkFields,
    Store.isinst, Obj.cls, bind, Except.bind, pure, Except.pure, W.sub_refl, Store.setItem, setItemValue, pyIndex]

/-! ### C51: read after write -/

/-- After `r[i] = v`, `r[j]` is `v` if `j` denotes the same field (counted from either end), and otherwise what
it was. -/
theorem C51_index {h : Store} {r T a vs k fs} (hr : h[r]? = some (.tup T a vs)) (hv : T.view = some (k, fs))
    (hl : vs.length = fs.length) {i : Int} {v : Ref} (hok : (h.setItem W r (.int i) v).res = .ok ()) (j : Int) :
    (h.setItem W r (.int i) v).st.getItem r j =
      if -(fs.length : Int) ≤ j ∧ j < fs.length ∧ i % fs.length = j % fs.length then .ok v else h.getItem r j := by
  rcases setItem_int_ok (W := W) hr hv hl (i := i) (v := v) with ⟨t, e1, e2, e3, e4, e5⟩ | ⟨e, -, e5⟩
  · rw [e5]
    dsimp only
    obtain ⟨hlt, -⟩ := List.getElem?_eq_some_iff.1 hr
    have hr' : (h.set r (.tup T true (vs.set (i % fs.length).toNat v)))[r]? =
      some (.tup T true (vs.set (i % fs.length).toNat v)) := by simp [hlt]
    have hi0 := Int.emod_nonneg i (by omega : (fs.length : Int) ≠ 0)
    have hi1 := Int.emod_lt_of_pos i (by omega : (0 : Int) < fs.length)
    have hj0 := Int.emod_nonneg j (by omega : (fs.length : Int) ≠ 0)
    split
    · rename_i hj
      refine Holds.get (n := fs.length) (T := T) (p := (i % fs.length).toNat) ⟨_, _, hr', by simpa using hl, ?_⟩
        hj.1 hj.2.1 (by rw [← hj.2.2]; omega)
      rw [List.getElem?_set_self (by omega)]
    · rename_i hj
      rcases getItem_eq hr j with ⟨f1, f2, w, f3, f4⟩ | ⟨f1, f2⟩
      · rw [f4]
        rw [hl] at f1 f2 f3
        refine Holds.get (n := fs.length) (T := T) (p := (j % fs.length).toNat) ⟨_, _, hr', by simpa using hl, ?_⟩
          f1 f2 (by omega)
        rw [List.getElem?_set_ne (fun e => hj ⟨f1, f2, by omega⟩)]
        exact f3
      · rcases getItem_eq hr' j with ⟨g1, g2, _⟩ | ⟨g1, g2⟩
        · simp only [List.length_set] at g1 g2
          exact absurd ⟨g1, g2⟩ f1
        · rw [f2]; exact g2
  · rw [e5] at hok; cases hok

/-- The attribute and the item at its position are read and written alike. -/
theorem C51_name {h : Store} {r T a vs k fs n} {p : Nat} (hT : Built W T) (hr : h[r]? = some (.tup T a vs))
    (hv : T.view = some (k, fs)) (hl : vs.length = fs.length) (hs : k.shape = .anon ∨ k.shape = .product)
    (hp : k.names[p]? = some n) (v : Ref) :
    h.setAttr W r n v = h.setItem W r (.int p) v ∧ ∃ x, h.getItem r p = .ok x ∧ h.getAttr r n = .ok (.field x) := by
  have hf := view_fits hT hv
  have hf : k.names.length = fs.length ∧ k.names.Nodup := by
    unfold Fits at hf
    rcases hs with hs | hs <;> rw [hs] at hf <;> exact hf
  obtain ⟨hlt, he⟩ := List.getElem?_eq_some_iff.1 hp
  have hm : n ∈ k.names := he ▸ List.getElem_mem hlt
  have hi : k.names.idxOf n = p := by rw [← he]; exact hf.2.idxOf_getElem p hlt
  refine ⟨by rw [setAttr_tup hr hv hl hf.1 hm, hi], ?_⟩
  rcases getItem_eq hr (p : Int) with ⟨f1, f2, w, f3, f4⟩ | ⟨f1, -⟩
  · refine ⟨w, f4, ?_⟩
    unfold Store.getAttr
    simp only [hr, hv, if_pos hm, hi, f4]
    rfl
  · exfalso; apply f1; omega

/-- In every history, an assigned field keeps its value until the same field is assigned again. -/
theorem C51_history {h : Store} {r T a vs k fs} (hT : Built W T) (hr : h[r]? = some (.tup T a vs))
    (hv : T.view = some (k, fs)) (hl : vs.length = fs.length) (hs : k.shape ≠ .sum ∧ k.shape ≠ .tagged)
    {i : Int} {v : Ref} (hok : (h.step W (.setItem r (.int i) v)).res = .ok ()) (ops : List Op)
    (hw : ∀ op ∈ ops, ¬ op.Writes r k.names fs.length (i % fs.length).toNat) :
    ((h.step W (.setItem r (.int i) v)).st.run W ops).getItem r i = .ok v := by
  have hf := view_fits hT hv
  have hf : k.names ≠ [] → k.names.length = fs.length := by
    intro hne
    unfold Fits at hf
    cases he : k.shape with
    | tuple => exact absurd (view_tuple_names hT hv he) hne
    | anon => rw [he] at hf; exact hf.1
    | product => rw [he] at hf; exact hf.1
    | sum => exact absurd he hs.1
    | tagged => exact absurd he hs.2
  simp only [Store.step] at hok ⊢
  rcases setItem_int_ok (W := W) hr hv hl (i := i) (v := v) with ⟨t, e1, e2, e3, e4, e5⟩ | ⟨e, -, e5⟩
  · rw [e5]
    obtain ⟨hlt, -⟩ := List.getElem?_eq_some_iff.1 hr
    have hi0 := Int.emod_nonneg i (by omega : (fs.length : Int) ≠ 0)
    have hi1 := Int.emod_lt_of_pos i (by omega : (0 : Int) < fs.length)
    refine Holds.get (holds_run (x := v) hv hf ⟨true, vs.set (i % fs.length).toNat v, ?_, by simpa using hl, ?_⟩ hw) e1 e2
      (by omega)
    · simp [hlt]
    · rw [List.getElem?_set_self (by omega)]
  · rw [e5] at hok; cases hok

/-- After `r[s] = v` for a slice `s` and a tuple `v` with as many fields as the slice has positions, `r[s]` reads the fields
of `v` and the other positions are unchanged. -/
theorem C51_slice {h : Store} {r T a vs k fs} (hr : h[r]? = some (.tup T a vs)) (hv : T.view = some (k, fs)) {s : PySlice}
    {v : Ref} {T' : Ty} {a' : Bool} {ws old : List Ref} {pos : List Nat} (hw : h[v]? = some (.tup T' a' ws))
    (ho : pySliceList vs s = .ok old) (hl : old.length = ws.length) (hp : pySliceList (List.range vs.length) s = .ok pos)
    (hok : (h.setItem W r (.slice s) v).res = .ok ()) :
    ∃ vs', (h.setItem W r (.slice s) v).st = h.set r (.tup T true vs') ∧ vs'.length = vs.length ∧
      pySliceList vs' s = .ok ws ∧ ∀ i, i ∉ pos → vs'[i]? = vs[i]? := by
  simp only [Store.setItem, hr, hv, setItemValue, hw, iterObj] at hok ⊢
  cases ht : pySliceList fs s with
  | error e => simp [ht, bind, Except.bind] at hok
  | ok ts =>
    simp only [ht, bind, Except.bind] at hok ⊢
    split at hok
    · rename_i vs' hs
      split at hs
      · rename_i hany
        obtain ⟨h1, h2, h3⟩ := setSlice_spec hs ho hl hp
        exact ⟨vs', rfl, h1, h2, h3⟩
      · cases hs
    · cases hok

/-- `r[s] = v` is accepted if `v` is an instance of one of the field types in the slice and, if the slice has a step other than
1, has as many fields. -/
theorem C51_slice_accepts {h : Store} {r T a vs k fs} (hr : h[r]? = some (.tup T a vs)) (hv : T.view = some (k, fs))
    {s : PySlice} {v : Ref} {T' : Ty} {a' : Bool} {ws old : List Ref} {ts : List Ty} (hw : h[v]? = some (.tup T' a' ws))
    (ho : pySliceList vs s = .ok old) (ht : pySliceList fs s = .ok ts) :
    (h.setItem W r (.slice s) v).res = .ok () ↔
      (∃ t ∈ ts, Inst W h v t) ∧ (s.step.getD 1 = 1 ∨ old.length = ws.length) := by
  have hany : ts.any (fun t => h.isinst W v t) = true ↔ ∃ t ∈ ts, Inst W h v t := by
    simp only [List.any_eq_true, isinst_iff]
  rw [← setSlice_ok (items := ws) ho, ← hany]
  simp only [Store.setItem, hr, hv, setItemValue, hw, iterObj, ht, bind, Except.bind]
  by_cases hc : ts.any (fun t => h.isinst W v t) = true
  · simp only [hc, if_true, true_and]
    cases hs : pySetSlice vs s ws with
    | ok vs' => simp
    | error e => simp
  · simp [hc]

/-- `t[::-1] = p` for `t : Tuple[P, P]` and `p : P = Tuple[A, A]`. -/
example : ∃ vs', (Store.setItem W [.leaf (.leaf (.cls 0)) 5, .tup (mkTuple (.user 0) [.leaf (.cls 0), .leaf (.cls 0)]) false [0, 0],
      .tup (mkTuple (.user 0) [mkTuple (.user 0) [.leaf (.cls 0), .leaf (.cls 0)], mkTuple (.user 0) [.leaf (.cls 0), .leaf (.cls 0)]])
        false [1, 1]] 2 (.slice ⟨none, none, some (-1)⟩) 1).st[2]? = some (.tup (mkTuple (.user 0)
      [mkTuple (.user 0) [.leaf (.cls 0), .leaf (.cls 0)], mkTuple (.user 0) [.leaf (.cls 0), .leaf (.cls 0)]]) true vs') ∧
    pySliceList vs' ⟨none, none, some (-1)⟩ = .ok [0, 0] := by
  have hok := (C51_slice_accepts (W := W) (h := [.leaf (.leaf (.cls 0)) 5,
      .tup (mkTuple (.user 0) [.leaf (.cls 0), .leaf (.cls 0)]) false [0, 0],
      .tup (mkTuple (.user 0) [mkTuple (.user 0) [.leaf (.cls 0), .leaf (.cls 0)], mkTuple (.user 0) [.leaf (.cls 0), .leaf (.cls 0)]])
        false [1, 1]]) (r := 2) (v := 1) (s := ⟨none, none, some (-1)⟩) (k := ⟨.tuple, .user 0, 0, 0, []⟩) rfl rfl
      (old := [1, 1]) (ws := [0, 0]) rfl rfl
      (ts := [mkTuple (.user 0) [.leaf (.cls 0), .leaf (.cls 0)], mkTuple (.user 0) [.leaf (.cls 0), .leaf (.cls 0)]]) rfl).2
    ⟨⟨_, List.mem_cons_self, _, rfl, W.sub_refl _⟩, .inr rfl⟩
  obtain ⟨vs', h1, -, h2, -⟩ := C51_slice (pos := [1, 0]) (k := ⟨.tuple, .user 0, 0, 0, []⟩) (by rfl) (by rfl) (old := [1, 1]) (ws := [0, 0])
    (by rfl) (by rfl) rfl (by rfl) hok
  exact ⟨vs', by rw [h1]; rfl, h2⟩

/-- A constructed tuple or product reads as its arguments until it is assigned to. -/
theorem C51_fresh {h : Store} {T pos kw vs} (hc : construct W h T pos kw = .ok (.tup T false vs)) (ops : List Op)
    (hw : ∀ op ∈ ops, op.target ≠ some h.length) {p : Nat} {v : Ref} (hp : vs[p]? = some v) :
    ((h.step W (.new T pos kw)).st.run W ops).getItem h.length p = .ok v := by
  have hr : ((h.step W (.new T pos kw)).st.run W ops)[h.length]? = some (.tup T false vs) := by
    rw [run_frame _ hw]
    · simp [Store.step, Store.alloc, hc]
    · simp [Store.step, Store.alloc, hc]
  obtain ⟨hlt, -⟩ := List.getElem?_eq_some_iff.1 hp
  refine Holds.get ⟨_, _, hr, rfl, hp⟩ (by omega) (by omega) ?_
  exact Int.emod_eq_of_lt (by omega) (by omega)

/-- No operation on one object changes another. -/
theorem C51_frame {h : Store} {ops : List Op} {s : Ref} (hl : s < h.length) (hs : ∀ op ∈ ops, op.target ≠ some s) :
    (h.run W ops)[s]? = h[s]? := run_frame hl hs

example : ∃ (h : Store) (r : Ref) (k : Con) (fs : List Ty) (vs : List Ref), Built W (.node k fs) ∧
    h[r]? = some (.tup (.node k fs) false vs) ∧ vs.length = fs.length ∧ (k.shape ≠ .sum ∧ k.shape ≠ .tagged) ∧
    (h.step W (.setItem r (.int (-1)) 1)).res = .ok () ∧
    ¬ (Op.setAttr r 8 0).Writes r k.names fs.length ((-1 : Int) % fs.length).toNat := by
  refine ⟨[.leaf (.leaf (.cls 0)) 3, .leaf (.leaf (.cls 0)) 4,
    .tup (mkProduct (.user 0) 1 0 [8, 9] [.leaf (.cls 0), .leaf (.cls 0)]) false [0, 0]], 2, _, _, [0, 0],
    .product _ _ _ _ _ rfl (by simp) (by simpa using Built.leaf _), rfl, rfl, by simp, ?_, ?_⟩
  · simp [Store.step, Store.setItem, mkProduct, Ty.view, setItemValue, pyIndex, Store.isinst, Obj.cls, W.sub_refl]
  · simp [Op.Writes]

/-! ### C54: sums -/

/-- The constructor takes exactly the values whose class is one of the alternatives. -/
theorem C54_construct {h : Store} {T : Ty} {k : Con} {fs : List Ty} {v : Ref} {o : Adt.Obj} (hv : T.view = some (k, fs))
    (hs : k.shape = .sum) :
    (construct W h T [v] [] = .ok o ↔ o = .sum T v ∧ ∃ ov, h[v]? = some ov ∧ ov.cls ∈ fs) ∧
    (∀ e, construct W h T [v] [] = .error e → e = .typeError) := by
  unfold construct
  simp only [hv, hs, callSum]
  cases hv' : h[v]? with
  | none => simp [bind, Except.bind]
  | some ov =>
      simp only [Option.map_some, bind, Except.bind, pure, Except.pure]
      by_cases hm : ov.cls ∈ fs
      · simp only [if_pos hm]
        constructor
        · constructor
          · intro h; cases h; exact ⟨rfl, ov, rfl, hm⟩
          · rintro ⟨rfl, -⟩; rfl
        · intro e h; cases h
      · simp only [if_neg hm]
        constructor
        · constructor
          · intro h; cases h
          · rintro ⟨-, ov', h1, h2⟩; cases h1; exact absurd h2 hm
        · intro e h; cases h; rfl

/-- Assignment takes exactly the instances of a declared type. -/
theorem C54_assign {h : Store} {r T v k fs} (hr : h[r]? = some (.sum T v)) (hv : T.view = some (k, fs)) (t : Ty)
    (w : Ref) :
    (t ∈ fs ∧ Inst W h w t → h.setSum W r t w = ⟨h.set r (.sum T w), .ok ()⟩) ∧
    (¬ (t ∈ fs ∧ Inst W h w t) → h.setSum W r t w = ⟨h, .error .typeError⟩) := by
  unfold Store.setSum
  simp only [hr, hv]
  by_cases ht : t ∈ fs
  · simp only [ht, not_true, if_false, true_and]
    exact ⟨fun hI => by rw [if_pos (isinst_iff.2 hI)], fun hI => by rw [if_neg (fun h => hI (isinst_iff.1 h))]⟩
  · simp only [ht, not_false_eq_true, if_true, false_and, false_implies, implies_true, and_true]

/-- `s[t]` for a declared type matches iff the stored value is an instance, and then gives that value. -/
theorem C54_read {h : Store} {r T v k fs} (hr : h[r]? = some (.sum T v)) (hv : T.view = some (k, fs)) {t : Ty}
    (ht : t ∈ fs) : ∃ m, h.getSum W r t = .ok m ∧ (m.hit = true ↔ Inst W h v t) ∧
      (Inst W h v t → m.value = .ok v) ∧ (¬ Inst W h v t → m.value = .error .typeError) := by
  refine ⟨⟨h.isinst W v t, v⟩, ?_, isinst_iff, ?_, ?_⟩
  · unfold Store.getSum
    simp only [hr, hv, if_pos ht]
  · intro hI; simp [Match.value, isinst_iff.2 hI]
  · intro hI
    have : h.isinst W v t = false := by
      cases hh : h.isinst W v t with
      | false => rfl
      | true => exact absurd (isinst_iff.1 hh) hI
    simp [Match.value, this]

theorem C54_undeclared {h : Store} {r T v k fs} (hr : h[r]? = some (.sum T v)) (hv : T.view = some (k, fs)) {t : Ty}
    (ht : t ∉ fs) : h.getSum W r t = .error .typeError := by
  unfold Store.getSum
  simp only [hr, hv, if_neg ht]

/-- In every history a sum holds an instance of one of its alternatives, which then matches. -/
theorem C54_invariant (ops : List Op) {r : Ref} {T v} (hr : (Store.run W [] ops)[r]? = some (Obj.sum T v)) :
    ∃ k fs t, T.view = some (k, fs) ∧ t ∈ fs ∧ Inst W (Store.run W [] ops) v t ∧
      (Store.run W [] ops).getSum W r t = .ok ⟨true, v⟩ := by
  have h0 : Store.TypedIf W False (Store.run W [] ops) :=
    run_typed (fun r o h => by simp at h) (fun h => h.elim)
  obtain ⟨k, fs, h1, h2, t, h3, h4⟩ := h0 r _ hr
  refine ⟨k, fs, t, h1, h3, h4, ?_⟩
  unfold Store.getSum
  simp only [hr, h1, if_pos h3, isinst_iff.2 h4]

example : ∃ ops : List Op, (Store.run W [] ops)[2]? =
    some (.sum (mkSum W (.user 0) [.leaf (.cls 0), .leaf (.cls 1)]) 1) := by
  refine ⟨[.other (.leaf (.cls 0)) 5, .other (.leaf (.cls 1)) 6,
    .new (mkSum W (.user 0) [.leaf (.cls 0), .leaf (.cls 1)]) [0] [], .setSum 2 (.leaf (.cls 1)) 1], ?_⟩
  simp [Store.run, Store.step, Ty.isPlain, Ty.view, Store.alloc, construct, mkSum, callSum, Obj.cls, bind, Except.bind,
    pure, Except.pure, Store.setSum, W.mem_canon, Store.isinst, W.sub_refl]

/-! ### C55: tagged unions -/

/-- The constructor takes exactly one keyword, a field name, with an instance of its type. -/
theorem C55_construct {h : Store} {T : Ty} {k : Con} {fs : List Ty} (hT : Built W T) (hv : T.view = some (k, fs))
    (hs : k.shape = .tagged) (kw : List (Name × Ref)) :
    (∀ n v p t, kw = [(n, v)] → k.names[p]? = some n → fs[p]? = some t →
      (Inst W h v t → construct W h T [] kw = .ok (.tag T p v)) ∧
      (¬ Inst W h v t → construct W h T [] kw = .error .typeError)) ∧
    ((¬ ∃ n v, kw = [(n, v)] ∧ n ∈ k.names) → construct W h T [] kw = .error .valueError) := by
  have hf := view_fits hT hv
  have hf : k.names.length = fs.length ∧ k.names.Nodup := by
    unfold Fits at hf
    rw [hs] at hf; exact hf
  unfold construct
  simp only [hv, hs]
  constructor
  · rintro n v p t rfl hp ht
    obtain ⟨hlt, he⟩ := List.getElem?_eq_some_iff.1 hp
    have hm : n ∈ k.names := he ▸ List.getElem_mem hlt
    have hi : k.names.idxOf n = p := by rw [← he]; exact hf.2.idxOf_getElem p hlt
    constructor
    · intro hI
      simp [callTagged, hm, hi, ht, isinst_iff.2 hI, bind, Except.bind, pure, Except.pure]
    · intro hI
      have : h.isinst W v t = false := by
        cases hh : h.isinst W v t with
        | false => rfl
        | true => exact absurd (isinst_iff.1 hh) hI
      simp [callTagged, hm, hi, ht, this, bind, Except.bind]
  · intro hn
    have : callTagged (h.isinst W) k fs [] kw = .error .valueError := by
      unfold callTagged
      simp only [ne_eq, not_true_eq_false, if_false]
      split
      · rename_i n v
        rw [if_neg fun hm => hn ⟨n, v, rfl, hm⟩]
      · rfl
    rw [this]; rfl

/-- Assigning a field makes it the active one, with that value. -/
theorem C55_assign {h : Store} {r T i v k fs n t} {p : Nat} (hT : Built W T) (hr : h[r]? = some (.tag T i v))
    (hv : T.view = some (k, fs)) (hs : k.shape = .tagged) (hp : k.names[p]? = some n) (ht : fs[p]? = some t) (w : Ref) :
    (Inst W h w t → h.setAttr W r n w = ⟨h.set r (.tag T p w), .ok ()⟩) ∧
    (¬ Inst W h w t → h.setAttr W r n w = ⟨h, .error .typeError⟩) := by
  have hf := view_fits hT hv
  have hf : k.names.length = fs.length ∧ k.names.Nodup := by
    unfold Fits at hf
    rw [hs] at hf; exact hf
  obtain ⟨hlt, he⟩ := List.getElem?_eq_some_iff.1 hp
  have hm : n ∈ k.names := he ▸ List.getElem_mem hlt
  have hi : k.names.idxOf n = p := by rw [← he]; exact hf.2.idxOf_getElem p hlt
  unfold Store.setAttr
  simp only [hr, hv, if_pos hm, hi, ht]
  refine ⟨fun hI => ?_, fun hI => ?_⟩
  · rw [if_pos (isinst_iff.2 hI)]
    simp
  · rw [if_neg fun h => hI (isinst_iff.1 h)]

/-- The tag and value stay until a field is assigned again. -/
theorem C55_history {h : Store} {r T i v k fs} (hv : T.view = some (k, fs)) (hr : h[r]? = some (.tag T i v))
    (ops : List Op) (ht : ∀ op ∈ ops, ¬ op.Tags r k.names) : (h.run W ops)[r]? = some (.tag T i v) :=
  tag_run hv hr ht

/-- In every history, exactly one field of a tagged union matches, the one of its tag; its value is the stored
one and has the field's type; reading any other field's value raises `TypeError`.  Unions with a field
called `Match`: `C55_match_negation`. -/
theorem C55_one_active_partial (ops : List Op) (ho : ∀ op ∈ ops, op.Known W) {r : Ref} {T i v}
    (hr : (Store.run W [] ops)[r]? = some (Obj.tag T i v)) {k fs} (hv : T.view = some (k, fs))
    (hM : matchName ∉ k.names) :
    ∃ n t, k.names[i]? = some n ∧ fs[i]? = some t ∧ Inst W (Store.run W [] ops) v t ∧
      (Store.run W [] ops).getAttr r n = .ok (.match_ ⟨true, v⟩) ∧ (⟨true, v⟩ : Match).value = .ok v ∧
      ∀ m ∈ k.names, m ≠ n → ∃ q, (Store.run W [] ops).getAttr r m = .ok (.match_ q) ∧ q.hit = false ∧
        q.value = .error .typeError := by
  have h0 : Store.TypedIf W False (Store.run W [] ops) :=
    run_typed (fun r o h => by simp at h) (fun h => h.elim)
  have hK : Store.Known W (Store.run W [] ops) := known_run (fun r o h => by simp at h) ho
  obtain ⟨k', fs', t, h1, h2, h3, h4⟩ := h0 r _ hr
  rw [hv] at h1
  cases h1
  have hf := view_fits (hK r _ hr) hv
  have hf : k.names.length = fs.length ∧ k.names.Nodup := by
    unfold Fits at hf
    rw [h2] at hf; exact hf
  obtain ⟨hlt, -⟩ := List.getElem?_eq_some_iff.1 h3
  have hlt' : i < k.names.length := by omega
  have hi : k.names.idxOf k.names[i] = i := hf.2.idxOf_getElem i hlt'
  refine ⟨k.names[i], t, List.getElem?_eq_getElem hlt', h3, h4, ?_, rfl, fun m hm hne => ⟨⟨false, v⟩, ?_, rfl, rfl⟩⟩
  · unfold Store.getAttr
    simp only [hr, hv, if_pos (List.getElem_mem hlt'), if_neg hM, hi, decide_true]
  · have : ¬ i = k.names.idxOf m := by
      rintro rfl
      exact hne (List.getElem_idxOf hlt').symm
    unfold Store.getAttr
    simp only [hr, hv, if_pos hm, if_neg hM, decide_eq_false this]

/-- Item assignment is refused. -/
theorem C55_setitem {h : Store} {r T i v} (hr : h[r]? = some (.tag T i v)) (t : Ty) (idx : Idx) (w : Ref) :
    h.setSum W r t w = ⟨h, .error .typeError⟩ ∧ h.setItem W r idx w = ⟨h, .error .typeError⟩ := by
  simp [Store.setSum, Store.setItem, hr]

/-- Reading by type: a `TaggedUnion` matches every field type its value is an instance of, whatever the tag. -/
theorem C55_by_type {h : Store} {r T i v k fs} (hr : h[r]? = some (.tag T i v)) (hv : T.view = some (k, fs)) (t : Ty) :
    (t ∈ fs → ∃ m, h.getSum W r t = .ok m ∧ (m.hit = true ↔ Inst W h v t) ∧
      (Inst W h v t → m.value = .ok v) ∧ (¬ Inst W h v t → m.value = .error .typeError)) ∧
    (t ∉ fs → h.getSum W r t = .error .typeError) := by
  constructor
  · intro ht
    refine ⟨⟨h.isinst W v t, v⟩, ?_, isinst_iff, ?_, ?_⟩
    · unfold Store.getSum
      simp only [hr, hv, if_pos ht]
    · intro hI; simp [Match.value, isinst_iff.2 hI]
    · intro hI
      have : h.isinst W v t = false := by
        cases hh : h.isinst W v t with
        | false => rfl
        | true => exact absurd (isinst_iff.1 hh) hI
      simp [Match.value, this]
  · intro ht
    unfold Store.getSum
    simp only [hr, hv, if_neg ht]

/-- With a field called `Match` no field ever reads as a match: the getter calls the type of that field. -/
theorem C55_match_negation {h : Store} {r T i v k fs} (hr : h[r]? = some (.tag T i v)) (hv : T.view = some (k, fs))
    (hM : matchName ∈ k.names) (n : Name) (m : Match) : h.getAttr r n ≠ .ok (.match_ m) := by
  unfold Store.getAttr
  simp only [hr, hv, if_pos hM]
  split
  · split <;> simp
  · simp

example : ∃ ops : List Op, (∀ op ∈ ops, op.Known W) ∧ ∃ i, (Store.run W [] ops)[2]? =
    some (.tag (mkTagged W (.user 0) 1 0 [8, 9] [.leaf (.cls 0), .leaf (.cls 1)]) i 1) := by
  have hb : Built W (mkTagged W (.user 0) 1 0 [8, 9] [.leaf (.cls 0), .leaf (.cls 1)]) :=
    .tagged _ _ _ _ _ rfl (by simp) (by
      intro t ht
      simp only [List.mem_cons, List.not_mem_nil, or_false] at ht
      rcases ht with rfl | rfl <;> exact .leaf _)
  obtain ⟨k, fs, he, hn, ht⟩ : ∃ k fs, mkTagged W (.user 0) 1 0 [8, 9] [.leaf (.cls 0), .leaf (.cls 1)] = .node k fs ∧
      ∃ p : Nat, k.names[p]? = some 9 ∧ fs[p]? = some (.leaf (.cls 1)) ∧ k.shape = .tagged := by
    refine ⟨_, _, rfl, ?_⟩
    have hp := W.perm_canonF ⟨.tagged, .user 0, 1, 0, [8, 9]⟩ ([8, 9].zip [.leaf (.cls 0), .leaf (.cls 1)])
    have hm : ((9 : Name), Ty.leaf (.cls 1)) ∈ W.canonF ⟨.tagged, .user 0, 1, 0, [8, 9]⟩
      ([8, 9].zip [.leaf (.cls 0), .leaf (.cls 1)]) := hp.mem_iff.2 (by simp)
    obtain ⟨p, hp⟩ := List.mem_iff_getElem?.1 hm
    refine ⟨p, ?_, ?_, rfl⟩ <;> rw [List.getElem?_map, hp] <;> rfl
  obtain ⟨ht1, ht2, ht3⟩ := ht
  refine ⟨[.other (.leaf (.cls 0)) 5, .other (.leaf (.cls 1)) 6, .new (.node k fs) [] [(9, 1)]], ?_, ?_⟩
  · simp only [List.mem_cons, List.not_mem_nil, or_false]
    rintro op (rfl | rfl | rfl)
    · exact .leaf _
    · exact .leaf _
    · exact he ▸ hb
  · have := ((C55_construct (W := W) (h := [.leaf (.leaf (.cls 0)) 5, .leaf (.leaf (.cls 1)) 6]) hb
      (by rw [he]; rfl) ht3 [(9, 1)]).1 9 1 hn _ rfl ht1 ht2).1 ⟨_, rfl, W.sub_refl _⟩
    rw [he] at this ⊢
    simp [Store.run, Store.step, Ty.isPlain, Ty.view, Store.alloc, this]

end HW
