import Verif.Lemmas.Adt.ShareEnum

/-!
# Which ADT values an assignment changes (C149)
-/

namespace HW.Adt

variable {W : World} {L : Leaves} {C : LCalls}

theorem eqvs_false {f : Bool} : ∀ {xs ys : List Val} {i : Nat} {x y : Val}, xs[i]? = some x → ys[i]? = some y →
    Val.eqv W L f x y = false → Val.eqvs W L f xs ys = false
  | [], _, _, _, _, h, _, _ => by simp at h
  | _ :: _, [], _, _, _, _, h, _ => by simp at h
  | a :: xs, b :: ys, 0, x, y, h1, h2, h => by
    simp only [List.getElem?_cons_zero, Option.some.injEq] at h1 h2
    subst h1 h2
    simp [Val.eqvs, h]
  | a :: xs, b :: ys, i + 1, x, y, h1, h2, h => by
    simp only [List.getElem?_cons_succ] at h1 h2
    simp [Val.eqvs, eqvs_false h1 h2 h]

/-- After an in-place change of a leaf, the objects that hold it have other values. -/
theorem touch_read {h : Store} {s : Ref} {T : Ty} {p p' : Nat} (hs : h[s]? = some (.leaf T p))
    (hp : L.eq (T, p) (T, p') = false) {n : Nat} : ∀ {r : Ref} {v : Val}, h.read n r = some v →
    ∃ v', Store.read (h.set s (.leaf T p')) n r = some v' ∧ (Reach h r s → ∀ f, Val.eqv W L f v v' = false) := by
  induction n with
  | zero => intro r v e; cases e
  | succ n ih =>
    intro r v e
    rw [read_succ, Option.bind_eq_some_iff] at e
    obtain ⟨o, ho, e⟩ := e
    rw [read_succ]
    by_cases hrs : s = r
    · subst hrs
      rw [hs] at ho
      cases ho
      cases e
      obtain ⟨hl, -⟩ := List.getElem?_eq_some_iff.1 hs
      refine ⟨.leaf T p', by rw [List.getElem?_set_self hl]; rfl, fun _ f => ?_⟩
      have hq : L.eq (T, p') (T, p) = false := by rw [L.symm]; exact hp
      cases f <;> simp [Val.eqv, hp, hq]
    · rw [List.getElem?_set_ne hrs, ho]
      have hR : Reach h r s → ∃ t ∈ o.parts, Reach h t s := by
        intro hr
        cases hr with
        | self => exact absurd rfl hrs
        | part ho' ht hr => rw [ho] at ho'; cases ho'; exact ⟨_, ht, hr⟩
      simp only [Option.bind_some]
      cases o with
      | leaf T q =>
        cases e
        exact ⟨_, rfl, fun hr => by obtain ⟨t, ht, -⟩ := hR hr; simp [Obj.parts] at ht⟩
      | enum x i =>
        cases e
        exact ⟨_, rfl, fun hr => by obtain ⟨t, ht, -⟩ := hR hr; simp [Obj.parts] at ht⟩
      | sum U w =>
        simp only [Obj.tree, Option.map_eq_some_iff] at e ⊢
        obtain ⟨x, e, rfl⟩ := e
        obtain ⟨x', e', hx⟩ := ih e
        refine ⟨_, ⟨x', e', rfl⟩, fun hr f => ?_⟩
        obtain ⟨t, ht, hr⟩ := hR hr
        simp only [Obj.parts, List.mem_singleton] at ht
        subst ht
        simp only [Val.eqv]
        split
        · exact hx hr _
        · rfl
      | tag U i w =>
        simp only [Obj.tree, Option.map_eq_some_iff] at e ⊢
        obtain ⟨x, e, rfl⟩ := e
        obtain ⟨x', e', hx⟩ := ih e
        refine ⟨_, ⟨x', e', rfl⟩, fun hr f => ?_⟩
        obtain ⟨t, ht, hr⟩ := hR hr
        simp only [Obj.parts, List.mem_singleton] at ht
        subst ht
        simp only [Val.eqv]
        split
        · simp [hx hr _]
        · rfl
      | tup U a vs =>
        simp only [Obj.tree, Option.map_eq_some_iff] at e ⊢
        obtain ⟨xs, e, rfl⟩ := e
        replace e := mapM_forall₂.1 e
        have : ∃ xs', List.Forall₂ (fun a b => Store.read (h.set s (.leaf T p')) n a = some b) vs xs' ∧
            ∀ (i : Nat) (t : Ref), vs[i]? = some t → Reach h t s → ∃ x x', xs[i]? = some x ∧ xs'[i]? = some x' ∧
              ∀ f, Val.eqv W L f x x' = false := by
          clear ho hR
          induction e with
          | nil => exact ⟨[], .nil, by simp⟩
          | cons hx _ ih2 =>
            obtain ⟨x', e', hx'⟩ := ih hx
            obtain ⟨xs', h1, h2⟩ := ih2
            refine ⟨x' :: xs', .cons e' h1, fun i t hi hr => ?_⟩
            cases i with
            | zero =>
              simp only [List.getElem?_cons_zero, Option.some.injEq] at hi
              subst hi
              exact ⟨_, _, rfl, rfl, hx' hr⟩
            | succ i => exact h2 i t hi hr
        obtain ⟨xs', h1, h2⟩ := this
        refine ⟨_, ⟨xs', mapM_forall₂.2 h1, rfl⟩, fun hr f => ?_⟩
        obtain ⟨t, ht, hr⟩ := hR hr
        obtain ⟨i, hi⟩ := List.mem_iff_getElem?.1 ht
        obtain ⟨x, x', hx, hx', hf⟩ := h2 i t hi hr
        simp only [Val.eqv]
        split
        · rw [eqvs_false hx hx' (hf _)]; simp
        · rfl

theorem reach_set {h : Store} {r s : Ref} {o' : Obj} (hR : Reach h r s) : Reach (h.set s o') r s := by
  induction hR with
  | self r => exact .self r
  | @part r o t s ho ht _ ih =>
    by_cases hi : s = r
    · subst hi; exact .self _
    · exact .part (by rw [List.getElem?_set_ne hi]; exact ho) ht ih

theorem construct_pos {h : Store} {T : Ty} {k : Con} {fs : List Ty} (hv : T.view = some (k, fs))
    (hk : k.shape ≠ .sum ∧ k.shape ≠ .tagged) {args : List Ref} {o : Obj} (hc : construct W h T args [] = .ok o) :
    o = .tup T false args := by
  unfold construct at hc
  simp only [hv] at hc
  split at hc
  · rename_i he; exact absurd he hk.1
  · rename_i he; exact absurd he hk.2
  · cases hb : callTuple (h.isinst W) k fs args [] with
    | error e => rw [hb] at hc; cases hc
    | ok vs =>
      rw [hb] at hc
      cases hc
      unfold callTuple at hb
      split at hb
      · simp only [if_true] at hb
        obtain ⟨rfl, -⟩ := initTuple_ok.1 hb
        rfl
      · cases hbb : bindArgs k.names args [] with
        | error e => rw [hbb] at hb; cases hb
        | ok l =>
          rw [hbb, pyBindOk] at hb
          obtain ⟨rfl, -⟩ := initTuple_ok.1 hb
          unfold bindArgs at hbb
          split at hbb
          · cases hbb
          · simp only [List.all_nil, if_true, List.lookup_nil] at hbb
            cases hd : k.names.drop args.length with
            | nil => rw [hd, List.mapM_nil] at hbb; cases hbb; simp
            | cons n l => rw [hd, mapM_cons] at hbb; cases hbb

theorem objsAs_view {cls : Ty} : ∀ {T : Ty} {k : Con} {fs : List Ty}, T.view = some (k, fs) →
    ∃ k0 : Con, k0.shape = k.shape ∧ ∀ h, Ty.objsAs W C cls T h = (do
      let q ← Ty.objsFields W C k0.zero fs h
      newAll W cls q.1 (enumArgs k0 q.2))
  | .leaf _, _, _, hv => by cases hv
  | .enum _, _, _, hv => by cases hv
  | .node k fs, _, _, hv => by
    cases hv
    exact ⟨k, rfl, fun h => by rw [Ty.objsAs]⟩
  | .mod m t, k, fs, hv => by
    simp only [Ty.view, Option.map_eq_some_iff] at hv
    obtain ⟨⟨k1, fs1⟩, hv, e⟩ := hv
    simp only [Prod.mk.injEq] at e
    obtain ⟨rfl, rfl⟩ := e
    obtain ⟨k0, h1, h2⟩ := objsAs_view hv
    exact ⟨k0, h1, fun h => by rw [Ty.objsAs]; exact h2 h⟩

end HW.Adt

namespace HW
open Adt

variable {W : World} {L : Leaves} {C : LCalls}

/-- **C149** (unchanged).  Whatever is done to objects that are not among the parts of `r`, its value stays. -/
theorem C149_unreached {h : Store} {r : Ref} {v : Val} (hr : h.Reads r v) {ops : List Op}
    (ho : ∀ op ∈ ops, ∀ s, op.target = some s → ¬ Reach h r s) : (h.run W ops).Reads r v :=
  hr.congr fun s hs => by
    obtain ⟨w, hw, -⟩ := hs.reads hr
    exact run_frame hw.lt fun op hop he => ho op hop s he hs

/-- **C149** (changed).  An in-place change of a vector, bit or other object without fields, which makes it unequal to
what it was, makes every value with it among its parts unequal to what it was; the others stay. -/
theorem C149_touched {h : Store} {s : Ref} {T : Ty} {p p' : Nat} (hs : h[s]? = some (.leaf T p))
    (hp : L.eq (T, p) (T, p') = false) {r : Ref} {v : Val} (hr : h.Reads r v) :
    ∃ v', (h.step W (.touch s p')).st.Reads r v' ∧
      (Reach h r s → Val.eq W L v v' = false ∧ Val.eq W L v' v = false ∧ Val.ne W L v v' = true) ∧
      (¬ Reach h r s → v' = v) := by
  have he : (h.step W (.touch s p')).st = h.set s (.leaf T p') := by simp [Store.step, hs]
  obtain ⟨n, hr'⟩ := hr
  obtain ⟨v', h1, h2⟩ := touch_read (W := W) (L := L) hs hp hr'
  have hp' : L.eq (T, p') (T, p) = false := by rw [L.symm]; exact hp
  rw [he]
  refine ⟨v', ⟨n, h1⟩, fun hR => ?_, fun hR => ?_⟩
  · have hl := (List.getElem?_eq_some_iff.1 hs).1
    have hs' : (h.set s (.leaf T p'))[s]? = some (.leaf T p') := List.getElem?_set_self hl
    obtain ⟨v'', h3, h4⟩ := touch_read (W := W) (L := L) (p' := p) hs' hp' h1
    have hb : (h.set s (Obj.leaf T p')).set s (Obj.leaf T p) = h := by
      rw [List.set_set]
      refine List.ext_getElem? fun i => ?_
      by_cases hi : s = i
      · subst hi; rw [List.getElem?_set_self hl, hs]
      · rw [List.getElem?_set_ne hi]
    rw [hb, hr'] at h3
    cases h3
    have hR' : Reach (h.set s (Obj.leaf T p')) r s := reach_set hR
    refine ⟨h2 hR false, h4 hR' false, ?_⟩
    unfold Val.ne Val.eq
    split
    · rw [h4 hR' false]; rfl
    · rw [h2 hR false]; rfl
  · refine Store.Reads.unique (h := h.set s (.leaf T p')) ⟨n, h1⟩ (Store.Reads.congr (h := h) ⟨n, hr'⟩ fun t ht => ?_)
    refine List.getElem?_set_ne fun e => hR ?_
    subst e
    exact ht

/-- **C149** (construction).  `T(*pos, **kw)` makes of objects with values what it makes of the values; the new object
has the arguments themselves as parts, not copies. -/
theorem C149_construct {h : Store} (T : Ty) {pos : List Ref} {vpos : List Val} (hp : List.Forall₂ h.Reads pos vpos)
    {kw : List (Name × Ref)} {vkw : List (Name × Val)}
    (hk : List.Forall₂ (fun a b => a.1 = b.1 ∧ h.Reads a.2 b.2) kw vkw) :
    (∃ v, (h.step W (.new T pos kw)).res = .ok () ∧ constructV W T vpos vkw = .ok v ∧
      (h.step W (.new T pos kw)).st.Reads h.length v ∧
      (∀ s, Reach (h.step W (.new T pos kw)).st h.length s → s = h.length ∨ ∃ r, (r ∈ pos ∨ ∃ n, (n, r) ∈ kw) ∧ Reach h r s) ∧
      ∀ r w, h.Reads r w → (h.step W (.new T pos kw)).st.Reads r w ∧ ¬ Reach (h.step W (.new T pos kw)).st r h.length) ∨
    ∃ e, (h.step W (.new T pos kw)).res = .error e ∧ constructV W T vpos vkw = .error e ∧
      (h.step W (.new T pos kw)).st = h := by
  have hc := construct_rel (W := W) T hp hk
  simp only [Store.step]
  cases h1 : construct W h T pos kw with
  | error e =>
    rw [h1] at hc
    cases h2 : constructV W T vpos vkw with
    | ok v => rw [h2] at hc; exact hc.elim
    | error e' => rw [h2] at hc; exact .inr ⟨e, rfl, by rw [show e = e' from hc], rfl⟩
  | ok o =>
    rw [h1] at hc
    cases h2 : constructV W T vpos vkw with
    | error e => rw [h2] at hc; exact hc.elim
    | ok v =>
      rw [h2] at hc
      obtain ⟨n, hn⟩ := hc
      have hx : Extends h (h ++ [o]) := .append _ _
      refine .inl ⟨v, rfl, rfl, reads_new hn, fun s hs => ?_, fun r w hr => ⟨hr.ext hx, fun hR => ?_⟩⟩
      · simp only [Store.alloc] at hs
        cases hs with
        | self => exact .inl rfl
        | part ho ht hs =>
          right
          simp only [List.getElem?_concat_length, Option.some.injEq] at ho
          subst ho
          obtain ⟨w, hw, -⟩ := tree_part hn ht
          exact ⟨_, construct_parts h1 _ ht, (reach_ext ⟨n, hw⟩ hx).1 hs⟩
      · obtain ⟨u, hu, -⟩ := ((reach_ext hr hx).1 hR).reads hr
        exact absurd hu.lt (lt_irrefl _)

/-- **C149** (copies).  `type(x)(*x)` of a tuple: assignments to fields of the copy leave the original alone, and the
other way round. -/
theorem C149_copy {h : Store} {r : Ref} {T : Ty} {a : Bool} {vs : List Ref} {v : Val} (hr : h.Reads r v)
    (ho : h[r]? = some (.tup T a vs)) {k : Con} {fs : List Ty} (hv : T.view = some (k, fs))
    (hk : k.shape ≠ .sum ∧ k.shape ≠ .tagged) (hok : (h.step W (.new T vs [])).res = .ok ()) :
    ∃ ws, v = .tup T a ws ∧ (h.step W (.new T vs [])).st.Reads h.length (.tup T false ws) ∧
    ∀ ops : List Op,
      ((∀ op ∈ ops, op.target = some h.length ∨ op.target = none) →
        ((h.step W (.new T vs [])).st.run W ops).Reads r v) ∧
      ((∀ op ∈ ops, op.target = some r ∨ op.target = none) →
        ((h.step W (.new T vs [])).st.run W ops).Reads h.length (.tup T false ws)) := by
  obtain ⟨o, n, ho', e⟩ := hr.obj
  rw [ho] at ho'
  cases ho'
  simp only [Obj.tree, Option.map_eq_some_iff] at e
  obtain ⟨ws, e, rfl⟩ := e
  have hp : List.Forall₂ h.Reads vs ws := (mapM_forall₂.1 e).imp fun _ _ e => ⟨n, e⟩
  refine ⟨ws, rfl, ?_⟩
  rcases C149_construct (W := W) T hp .nil with ⟨x, h1, h2, h3, h4, h5⟩ | ⟨e, h1, -⟩
  · have hx : x = .tup T false ws := by
      have hc : ∃ o, construct W h T vs [] = .ok o := by
        simp only [Store.step, Store.alloc] at h1
        split at h1
        · rename_i o hc; exact ⟨o, hc⟩
        · cases h1
      obtain ⟨o, hc⟩ := hc
      have hrel := construct_rel (W := W) T hp (.nil (R := fun (a : Name × Ref) (b : Name × Val) => a.1 = b.1 ∧ h.Reads a.2 b.2))
      rw [hc, h2] at hrel
      obtain ⟨m, hm⟩ := hrel
      rw [construct_pos hv hk hc] at hm
      simp only [Obj.tree, Option.map_eq_some_iff] at hm
      obtain ⟨ws', hm, rfl⟩ := hm
      replace hm : List.Forall₂ h.Reads vs ws' := (mapM_forall₂.1 hm).imp fun _ _ e => ⟨m, e⟩
      have : ws' = ws := by
        clear h2 h3 h4 h5 h1 hr hok e ho hc
        induction hp generalizing ws' with
        | nil => cases hm; rfl
        | cons h1 _ ih => cases hm with
          | cons h2 hm => rw [h1.unique h2, ih _ hm]
      rw [this]
    subst hx
    refine ⟨h3, fun ops => ⟨fun ht => ?_, fun ht => ?_⟩⟩
    · refine C149_unreached (h5 r _ hr).1 fun op hop s hs => ?_
      rcases ht op hop with he | he
      · rw [he] at hs; cases hs; exact (h5 r _ hr).2
      · rw [he] at hs; cases hs
    · refine C149_unreached h3 fun op hop s hs hR => ?_
      rcases ht op hop with he | he
      · rw [he] at hs
        cases hs
        rcases h4 _ hR with rfl | ⟨t, ht, hR⟩
        · exact absurd hr.lt (lt_irrefl _)
        · rcases ht with ht | ⟨m, ht⟩
          · exact hr.acyclic ho (by simpa [Obj.parts] using ht) hR
          · simp at ht
      · rw [he] at hs; cases hs
  · rw [h1] at hok; cases hok

/-- **C149** (enumeration).  The objects that `enumerate` yields have the values of C57; they are new and different
objects, and existing values stay. -/
theorem C149_enumerate (T : Ty) (h : Store) :
    (∃ h' rs vs, T.objs W C h = .ok (h', rs) ∧ T.enumerate W C.vals = .ok vs ∧ List.Forall₂ h'.Reads rs vs ∧
      rs.Nodup ∧ (∀ r ∈ rs, h.length ≤ r) ∧ ∀ r v, h.Reads r v → h'.Reads r v) ∨
    ∃ e, T.objs W C h = .error e ∧ T.enumerate W C.vals = .error e := by
  have hR := objsAs_rel (W := W) (C := C) T T h
  unfold Ty.objs Ty.enumerate
  cases h1 : Ty.objsAs W C T T h with
  | error e =>
    rw [h1] at hR
    cases h2 : Ty.enumAs W C.vals T T with
    | error e' => rw [h2] at hR; exact .inr ⟨e, rfl, by rw [show e = e' from hR]⟩
    | ok vs => rw [h2] at hR; exact hR.elim
  | ok q =>
    rw [h1] at hR
    cases h2 : Ty.enumAs W C.vals T T with
    | error e' => rw [h2] at hR; exact hR.elim
    | ok vs =>
      rw [h2] at hR
      obtain ⟨e1, e2, -⟩ := objsAs_reach h1
      exact .inl ⟨q.1, q.2, vs, rfl, rfl, hR.2, e1, e2, fun r v hr => hr.ext hR.1⟩

/-- **C149** (enumerated values, assigned).  Assignments to fields of one of the yielded values leave the others
alone. -/
theorem C149_enumerate_assigned_partial {T : Ty} {h h' : Store} {rs : List Ref} (ho : T.objs W C h = .ok (h', rs))
    {i j : Nat} (hij : i ≠ j) {r s : Ref} (hi : rs[i]? = some r) (hj : rs[j]? = some s) {v : Val} (hv : h'.Reads s v)
    {ops : List Op} (hops : ∀ op ∈ ops, op.target = some r ∨ op.target = none) : (h'.run W ops).Reads s v := by
  obtain ⟨e1, -, e3⟩ := objsAs_reach ho
  refine C149_unreached hv fun op hop t ht hR => ?_
  rcases hops op hop with he | he
  · rw [he] at ht
    cases ht
    rcases e3 s (List.mem_of_getElem? hj) r hR with e | e
    · subst e
      exact hij ((List.nodup_iff_getElem?_ne_getElem?.1 e1) |> fun hn => by
        by_contra hc
        rcases Nat.lt_or_gt_of_ne hc with hlt | hlt
        · exact hn i j hlt (List.getElem?_eq_some_iff.1 hj).1 (hi.trans hj.symm)
        · exact hn j i hlt (List.getElem?_eq_some_iff.1 hi).1 (hj.trans hi.symm))
    · exact e (List.mem_of_getElem? hi)
  · rw [he] at ht; cases ht

/-- **C149** (enumerated values share).  All the values yielded for a tuple or product class have one object in common
as their field `p`, if the class of that field has no fields. -/
theorem C149_enumerate_shared {T : Ty} {k : Con} {fs : List Ty} (hv : T.view = some (k, fs))
    (hk : k.shape ≠ .sum ∧ k.shape ≠ .tagged) {p : Nat} {t : Ty} (hp : fs[p]? = some t) (ht : t.isBound = false)
    {h h' : Store} {rs : List Ref} (ho : T.objs W C h = .ok (h', rs)) :
    ∃ s x, h'[s]? = some (.leaf t x) ∧ ∀ r ∈ rs, ∃ vs, h'[r]? = some (.tup T false vs) ∧ vs[p]? = some s := by
  obtain ⟨k0, hk0, e⟩ := objsAs_view (W := W) (C := C) (cls := T) hv
  unfold Ty.objs at ho
  rw [e] at ho
  cases hq : Ty.objsFields W C k0.zero fs h with
  | error e => rw [hq] at ho; cases ho
  | ok q =>
    rw [hq, pyBindOk] at ho
    obtain ⟨s, x, h1, h2⟩ := objsFields_plain k0.zero hq hp ht
    obtain ⟨objs, e1, e2, e3⟩ := newAll_shape ho
    dsimp only at e1 e2
    refine ⟨s, x, ?_, fun r hr => ?_⟩
    · rw [e1, List.getElem?_append_left (List.getElem?_eq_some_iff.1 h2).1]; exact h2
    · rw [e2, List.mem_range'_1] at hr
      have hj : r - q.1.length < objs.length := (Nat.sub_lt_iff_lt_add' hr.1).2 hr.2
      have hj' : r - q.1.length < (enumArgs k0 q.2).length := by rw [e3.length_eq]; exact hj
      obtain ⟨h0, hc⟩ := (List.forall₂_iff_get.1 e3).2 _ hj' hj
      simp only [List.get_eq_getElem] at hc
      have hmem : (enumArgs k0 q.2)[r - q.1.length] ∈ enumArgs k0 q.2 := List.getElem_mem _
      have : ∃ args ∈ product q.2, (enumArgs k0 q.2)[r - q.1.length] = (args, []) := by
        have he : enumArgs k0 q.2 = (product q.2).map fun args => (args, []) := by
          unfold enumArgs
          rw [hk0]
          obtain ⟨n1, n2⟩ := hk
          revert n1 n2
          cases k.shape <;> simp
        have hm := hmem
        generalize (enumArgs k0 q.2)[r - q.1.length] = y at hm ⊢
        rw [he] at hm
        rw [List.mem_map] at hm
        obtain ⟨args, ha, hb⟩ := hm
        exact ⟨args, ha, hb.symm⟩
      obtain ⟨args, ha, hb⟩ := this
      rw [hb] at hc
      have hob := construct_pos hv hk hc
      refine ⟨args, ?_, ?_⟩
      · rw [e1, List.getElem?_append_right hr.1, List.getElem?_eq_getElem hj, hob]
      · have hm := of_mem_product ha
        obtain ⟨hpl, hpe⟩ := List.getElem?_eq_some_iff.1 h1
        have hpa : p < args.length := by rw [hm.length_eq]; exact hpl
        have := (List.forall₂_iff_get.1 hm).2 p hpa hpl
        simp only [List.get_eq_getElem, hpe, List.mem_singleton] at this
        rw [List.getElem?_eq_getElem hpa, this]

/-- **C149** (enumerated values are not independent).  An in-place change of such a field of one of the yielded values
(`x.a[0] = 1`, say) changes all of them. -/
theorem C149_enumerate_refuted {T : Ty} {k : Con} {fs : List Ty} (hv : T.view = some (k, fs))
    (hk : k.shape ≠ .sum ∧ k.shape ≠ .tagged) {p : Nat} {t : Ty} (hp : fs[p]? = some t) (ht : t.isBound = false)
    {h h' : Store} {rs : List Ref} (ho : T.objs W C h = .ok (h', rs)) {r : Ref} (hr : r ∈ rs) :
    ∃ s x, h'.getItem r p = .ok s ∧ h'[s]? = some (.leaf t x) ∧
      ∀ y, L.eq (t, x) (t, y) = false → ∀ r' ∈ rs, ∃ v v', h'.Reads r' v ∧
        (h'.step W (.touch s y)).st.Reads r' v' ∧ Val.eq W L v v' = false := by
  obtain ⟨s, x, h1, h2⟩ := C149_enumerate_shared hv hk hp ht ho
  refine ⟨s, x, ?_, h1, fun y hy r' hr' => ?_⟩
  · obtain ⟨vs, e1, e2⟩ := h2 r hr
    obtain ⟨hl, -⟩ := List.getElem?_eq_some_iff.1 e2
    have : pyIndex vs.length (p : Int) = some p := by
      unfold pyIndex
      rw [if_pos (by omega), if_pos (by omega)]
      rfl
    simp [Store.getItem, e1, this, e2]
  · rcases C149_enumerate (W := W) (C := C) T h with ⟨h'', rs', vs, e1, -, e3, -⟩ | ⟨e, e1, -⟩
    · rw [ho] at e1
      cases e1
      obtain ⟨i, hi⟩ := List.mem_iff_getElem?.1 hr'
      obtain ⟨hl, hi⟩ := List.getElem?_eq_some_iff.1 hi
      have hv' := (List.forall₂_iff_get.1 e3).2 i hl (by rw [← e3.length_eq]; exact hl)
      simp only [List.get_eq_getElem, hi] at hv'
      obtain ⟨v', a, b, -⟩ := C149_touched (W := W) (L := L) h1 hy hv'
      obtain ⟨ps, e4, e5⟩ := h2 r' hr'
      exact ⟨_, v', hv', a, (b (.part e4 (List.mem_of_getElem? e5) (.self s))).1⟩
    · rw [ho] at e1; cases e1

/-! ### Examples -/

/-- `Tuple[E, X]` for an enum of two members and a class without fields. -/
private def exT : Ty := mkTuple (.user 0) [.enum ⟨0, [(1, .int 0), (2, .int 1)]⟩, .leaf (.cls 0)]

/-- `list(Tuple[E, X].enumerate())`: the objects 3 and 4 share the object 2. -/
private theorem ex_objs : exT.objs World.std ⟨fun _ => .ok 0, fun _ => .ok 0⟩ [] =
    .ok ([.enum ⟨0, [(1, .int 0), (2, .int 1)]⟩ 0, .enum ⟨0, [(1, .int 0), (2, .int 1)]⟩ 1, .leaf (.leaf (.cls 0)) 0,
      .tup exT false [0, 2], .tup exT false [1, 2]], [3, 4]) := by
  simp [exT, mkTuple, Ty.objs, Ty.objsAs, Ty.objsFields, Ty.isBound, Con.zero, enumArgs, product, newAll, construct, Ty.view,
    callTuple, initTuple, checkFields, Store.isinst, Obj.cls, World.sub_refl, List.range_succ_eq_map, bind, Except.bind, pure, Except.pure, Except.map,
    List.range'_succ]

example : (∀ k fs, exT.view = some (k, fs) → (k.shape ≠ .sum ∧ k.shape ≠ .tagged) ∧ fs[1]? = some (.leaf (.cls 0))) ∧
    (Ty.leaf (.cls 0)).isBound = false := by
  refine ⟨fun k fs h => ?_, rfl⟩
  simp only [exT, mkTuple, Ty.view, Option.some.injEq, Prod.mk.injEq] at h
  obtain ⟨rfl, rfl⟩ := h
  simp

/-- Object 3 of that store holds 0 and 2, object 4 does not hold 0 and keeps its value when 3 is assigned to. -/
example : ∃ (h : Store) (v : Val), h.Reads 4 v ∧ Reach h 3 2 ∧ Reach h 4 2 ∧ ¬ Reach h 4 3 ∧
    (h.run World.std [.setItem 3 (.int 0) 1]).Reads 4 v := by
  have hr : (Store.Reads [.enum ⟨0, [(1, .int 0), (2, .int 1)]⟩ 0, .enum ⟨0, [(1, .int 0), (2, .int 1)]⟩ 1,
      .leaf (.leaf (.cls 0)) 0, .tup exT false [0, 2], .tup exT false [1, 2]] 4
      (.tup exT false [.enum ⟨0, [(1, .int 0), (2, .int 1)]⟩ 1, .leaf (.leaf (.cls 0)) 0])) := ⟨2, by rfl⟩
  refine ⟨_, _, hr, .part rfl (by simp [Obj.parts]) (.self 2), .part rfl (by simp [Obj.parts]) (.self 2), ?_,
    C149_enumerate_assigned_partial ex_objs (i := 0) (j := 1) (by simp) rfl rfl hr (by simp [Op.target])⟩
  rcases objsAs_reach ex_objs with ⟨-, -, h3⟩
  intro hR
  rcases h3 4 (by simp) 3 hR with h | h <;> simp at h

/-- A copy of object 3. -/
example : (Store.step World.std [.enum ⟨0, [(1, .int 0), (2, .int 1)]⟩ 0, .enum ⟨0, [(1, .int 0), (2, .int 1)]⟩ 1,
    .leaf (.leaf (.cls 0)) 0, .tup exT true [0, 2]] (.new exT [0, 2] [])).res = .ok () := by
  simp [exT, mkTuple, Store.step, Store.alloc, construct, Ty.view, callTuple, initTuple, checkFields, Store.isinst,
    Obj.cls, World.sub_refl, bind, Except.bind, pure, Except.pure]

/-- Contents that compare unequal. -/
example : ∃ L : Leaves, L.eq (.leaf (.cls 0), 0) (.leaf (.cls 0), 1) = false :=
  ⟨⟨fun a b => decide (a = b), by simp, fun a b => by simp [eq_comm], by simp_all, fun _ => 0, by simp, fun _ => 0, fun _ => 0⟩,
    by decide⟩

end HW
