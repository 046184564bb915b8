import Verif.Lemmas.Adt.Share

/-! # Lemmas on the objects made by `enumerate` -/

namespace HW.Adt

variable {W : World} {C : LCalls}

section
variable {α β : Type} {R : α → β → Prop}

theorem ResRel.bind {γ δ : Type} {S : γ → δ → Prop} {x : PyM α} {y : PyM β} (hxy : ResRel R x y) {f : α → PyM γ}
    {g : β → PyM δ} (hfg : ∀ a b, R a b → ResRel S (f a) (g b)) : ResRel S (x >>= f) (y >>= g) := by
  cases x <;> cases y
  · exact hxy
  · exact hxy.elim
  · exact hxy.elim
  · exact hfg _ _ hxy

/-- Related arguments of a call. -/
def ArgRel (R : α → β → Prop) (a : List α × List (Name × α)) (b : List β × List (Name × β)) : Prop :=
  List.Forall₂ R a.1 b.1 ∧ List.Forall₂ (fun a b => a.1 = b.1 ∧ R a.2 b.2) a.2 b.2

theorem product_rel {ls : List (List α)} {ls' : List (List β)} (hl : List.Forall₂ (List.Forall₂ R) ls ls') :
    List.Forall₂ (List.Forall₂ R) (product ls) (product ls') := by
  induction hl with
  | nil => exact .cons .nil .nil
  | cons hab _ ih =>
    exact List.rel_flatMap hab fun a b hr => List.rel_map (fun _ _ e => .cons hr e) ih

theorem enumArgs_rel (k : Con) {ls : List (List α)} {ls' : List (List β)}
    (hl : List.Forall₂ (List.Forall₂ R) ls ls') :
    List.Forall₂ (ArgRel R) (enumArgs k ls) (enumArgs k ls') := by
  have tup : List.Forall₂ (ArgRel R) ((product ls).map fun args => (args, []))
      ((product ls').map fun args => (args, [])) :=
    List.rel_map (fun _ _ e => ⟨e, .nil⟩) (product_rel hl)
  unfold enumArgs
  cases k.shape with
  | tuple => exact tup
  | anon => exact tup
  | product => exact tup
  | sum =>
    refine List.rel_map (fun _ _ e => ⟨.cons e .nil, .nil⟩) (List.rel_flatten hl)
  | tagged =>
    refine List.rel_map (R := fun (a : Name × α) (b : Name × β) => a.1 = b.1 ∧ R a.2 b.2)
      (fun _ _ e => ⟨.nil, .cons e .nil⟩) ?_
    refine List.rel_flatMap (R := fun (a : Name × List α) (b : Name × List β) => a.1 = b.1 ∧ List.Forall₂ R a.2 b.2)
      ?_ fun a b e => List.rel_map (fun _ _ h => ⟨e.1, h⟩) e.2
    clear tup
    generalize k.names = ns
    induction hl generalizing ns with
    | nil => cases ns <;> exact .nil
    | cons hab _ ih => cases ns with
      | nil => exact .nil
      | cons n ns => exact .cons ⟨rfl, hab⟩ (ih ns)

end

theorem enumerateWith_eq (T : Ty) (k : Con) (ls : List (List Val)) :
    enumerateWith W T k ls = (enumArgs k ls).mapM fun a => constructV W T a.1 a.2 := by
  unfold enumerateWith enumArgs
  cases k.shape <;> simp only [List.mapM_map] <;> rfl

theorem newAll_shape {T : Ty} : ∀ {l : List (List Ref × List (Name × Ref))} {h : Store} {q : Store × List Ref},
    newAll W T h l = .ok q → ∃ objs, q.1 = h ++ objs ∧ q.2 = List.range' h.length objs.length ∧
      List.Forall₂ (fun a o => ∃ h', construct W h' T a.1 a.2 = .ok o) l objs
  | [], h, q, e => by cases e; exact ⟨[], by simp, rfl, .nil⟩
  | a :: l, h, q, e => by
    rw [newAll] at e
    cases hc : construct W h T a.1 a.2 with
    | error e' => rw [hc] at e; cases e
    | ok o =>
      rw [hc, pyBindOk] at e
      cases hn : newAll W T (h ++ [o]) l with
      | error e' => rw [hn] at e; cases e
      | ok q' =>
        rw [hn, pyBindOk] at e
        cases e
        obtain ⟨objs, h1, h2, h3⟩ := newAll_shape hn
        refine ⟨o :: objs, by simp [h1], ?_, .cons ⟨h, hc⟩ h3⟩
        simp only [h2, List.length_append, List.length_cons, List.length_nil]
        rfl

theorem newAll_rel {T : Ty} : ∀ {l : List (List Ref × List (Name × Ref))} {l' : List (List Val × List (Name × Val))}
    {h : Store}, List.Forall₂ (ArgRel h.Reads) l l' →
    ResRel (fun q vs => Extends h q.1 ∧ List.Forall₂ q.1.Reads q.2 vs) (newAll W T h l)
      (l'.mapM fun a => constructV W T a.1 a.2)
  | _, _, h, .nil => ⟨.refl h, .nil⟩
  | _, _, h, .cons (a := a) (b := b) (l₁ := l) (l₂ := l') hab hl => by
    rw [newAll, List.mapM_cons]
    refine (construct_rel (W := W) T hab.1 hab.2).bind fun o v ho => ?_
    obtain ⟨n, ho⟩ := ho
    have he : Extends h (h ++ [o]) := .append h [o]
    have ih := newAll_rel (T := T) (h := h ++ [o]) (hl.imp fun a b e =>
      (⟨e.1.imp fun _ _ hr => hr.ext he, e.2.imp fun _ _ hr => ⟨hr.1, hr.2.ext he⟩⟩ : ArgRel (h ++ [o]).Reads a b))
    refine ih.bind fun q vs hq => ?_
    exact ⟨he.trans hq.1, .cons ((reads_new ho).ext hq.1) hq.2⟩

theorem range_rel (e : EnumT) (h : Store) :
    List.Forall₂ (h ++ (List.range e.members.length).map (.enum e) : Store).Reads
      (List.range' h.length e.members.length) ((List.range e.members.length).map (.enum e)) := by
  rw [List.forall₂_iff_get]
  refine ⟨by simp, fun i h1 h2 => ⟨1, ?_⟩⟩
  have hi : i < e.members.length := by simpa using h1
  simp only [List.get_eq_getElem, List.getElem_range', List.getElem_map, List.getElem_range, read_succ]
  rw [List.getElem?_append_right (by omega)]
  simp [Obj.tree, hi]

mutual
theorem objsAs_rel (cls : Ty) : ∀ (T : Ty) (h : Store),
    ResRel (fun q vs => Extends h q.1 ∧ List.Forall₂ q.1.Reads q.2 vs) (Ty.objsAs W C cls T h) (Ty.enumAs W C.vals cls T)
  | .leaf _, h => by rw [Ty.objsAs, Ty.enumAs]; rfl
  | .enum e, h => by
    rw [Ty.objsAs, Ty.enumAs]
    exact ⟨.append _ _, range_rel e h⟩
  | .node k fs, h => by
    rw [Ty.objsAs, Ty.enumAs]
    refine (objsFields_rel k.zero fs h).bind fun q vs hq => ?_
    rw [enumerateWith_eq]
    have := newAll_rel (W := W) (T := cls) (enumArgs_rel k hq.2)
    revert this
    cases newAll W cls q.1 (enumArgs k q.2) <;>
      cases (enumArgs k vs).mapM fun a => constructV W cls a.1 a.2 <;> intro this
    · exact this
    · exact this
    · exact this
    · exact ⟨hq.1.trans this.1, this.2⟩
  | .mod _ t, h => by
    rw [Ty.objsAs, Ty.enumAs]
    exact objsAs_rel cls t h
theorem objsFields_rel (zero : Bool) : ∀ (fs : List Ty) (h : Store),
    ResRel (fun q vs => Extends h q.1 ∧ List.Forall₂ (List.Forall₂ q.1.Reads) q.2 vs) (Ty.objsFields W C zero fs h)
      (Ty.enumFields W C.vals zero fs)
  | [], h => by
    rw [Ty.objsFields, Ty.enumFields]
    exact ⟨.refl h, .nil⟩
  | t :: ts, h => by
    rw [Ty.objsFields, Ty.enumFields]
    have key : ∀ {x : PyM (Store × List Ref)} {y : PyM (List Val)},
        ResRel (fun q vs => Extends h q.1 ∧ List.Forall₂ q.1.Reads q.2 vs) x y →
        ResRel (fun q vs => Extends h q.1 ∧ List.Forall₂ (List.Forall₂ q.1.Reads) q.2 vs)
          (x >>= fun q => do
            let q' ← Ty.objsFields W C zero ts q.1
            return (q'.1, q.2 :: q'.2))
          (y >>= fun l => do return l :: (← Ty.enumFields W C.vals zero ts)) := fun h1 => by
      refine h1.bind fun q vs hq => ?_
      refine (objsFields_rel zero ts q.1).bind fun q' vss hq' => ?_
      exact ⟨hq.1.trans hq'.1, .cons (hq.2.imp fun _ _ hr => hr.ext hq'.1) hq'.2⟩
    have leaf : ∀ x : PyM Nat, ResRel (fun (q : Store × List Ref) vs => Extends h q.1 ∧ List.Forall₂ q.1.Reads q.2 vs)
        (x.map fun p => (h ++ [.leaf t p], [h.length])) ((x.map (Val.leaf t)).map fun v => [v]) := by
      intro x
      cases x with
      | error e => rfl
      | ok p => exact ⟨.append _ _, .cons (reads_new (n := 0) rfl) .nil⟩
    cases t.isBound with
    | true => exact key (objsAs_rel t t h)
    | false =>
      cases zero
      · exact key (leaf (C.none t))
      · exact key (leaf (C.zero t))
end

/-! ### What the yielded objects hold -/

/-- What the objects made from a list of calls reach: themselves and older objects. -/
theorem newAll_reach {T : Ty} {l : List (List Ref × List (Name × Ref))} {l' : List (List Val × List (Name × Val))}
    {h : Store} (hl : List.Forall₂ (ArgRel h.Reads) l l') {q : Store × List Ref} (hq : newAll W T h l = .ok q)
    {r s : Ref} (hr : r ∈ q.2) (hs : Reach q.1 r s) : s = r ∨ s < h.length := by
  obtain ⟨objs, e1, e2, e3⟩ := newAll_shape hq
  have hx : Extends h q.1 := by rw [e1]; exact .append _ _
  rw [e2, List.mem_range'_1] at hr
  cases hs with
  | self => exact .inl rfl
  | part ho ht hs =>
    rename_i o t
    right
    rw [e1, List.getElem?_append_right hr.1] at ho
    obtain ⟨hj, ho⟩ := List.getElem?_eq_some_iff.1 ho
    have hj' : r - h.length < l.length := by rw [e3.length_eq]; exact hj
    obtain ⟨h', hc⟩ := (List.forall₂_iff_get.1 e3).2 _ hj' hj
    simp only [List.get_eq_getElem] at hc
    rw [ho] at hc
    have ha := (List.forall₂_iff_get.1 hl).2 _ hj' (by rw [← hl.length_eq]; exact hj')
    simp only [List.get_eq_getElem] at ha
    have hv : ∃ v, h.Reads t v := by
      rcases construct_parts hc t ht with hp | ⟨n, hp⟩
      · obtain ⟨i, hi⟩ := List.mem_iff_getElem?.1 hp
        obtain ⟨hi, hp⟩ := List.getElem?_eq_some_iff.1 hi
        have := (List.forall₂_iff_get.1 ha.1).2 i hi (by rw [← ha.1.length_eq]; exact hi)
        simp only [List.get_eq_getElem, hp] at this
        exact ⟨_, this⟩
      · obtain ⟨i, hi⟩ := List.mem_iff_getElem?.1 hp
        obtain ⟨hi, hp⟩ := List.getElem?_eq_some_iff.1 hi
        have := (List.forall₂_iff_get.1 ha.2).2 i hi (by rw [← ha.2.length_eq]; exact hi)
        simp only [List.get_eq_getElem, hp] at this
        exact ⟨_, this.2⟩
    obtain ⟨v, hv⟩ := hv
    obtain ⟨w, hw, -⟩ := ((reach_ext hv hx).1 hs).reads hv
    exact hw.lt

theorem objsAs_reach {cls : Ty} : ∀ {T : Ty} {h : Store} {q : Store × List Ref}, Ty.objsAs W C cls T h = .ok q →
    q.2.Nodup ∧ (∀ r ∈ q.2, h.length ≤ r) ∧ ∀ r ∈ q.2, ∀ s, Reach q.1 r s → s = r ∨ s ∉ q.2
  | .leaf _, h, q, e => by rw [Ty.objsAs] at e; cases e
  | .enum x, h, q, e => by
    rw [Ty.objsAs] at e
    cases e
    refine ⟨List.nodup_range', fun r hr => (List.mem_range'_1.1 hr).1, fun r hr s hs => ?_⟩
    cases hs with
    | self => exact .inl rfl
    | part ho ht hs =>
      rw [List.mem_range'_1] at hr
      rw [List.getElem?_append_right hr.1] at ho
      have := List.mem_of_getElem? ho
      rw [List.mem_map] at this
      obtain ⟨i, -, rfl⟩ := this
      simp [Obj.parts] at ht
  | .node k fs, h, q, e => by
    rw [Ty.objsAs] at e
    have hf := objsFields_rel (W := W) (C := C) k.zero fs h
    cases hq : Ty.objsFields W C k.zero fs h with
    | error e' => rw [hq] at e; cases e
    | ok q1 =>
      rw [hq, pyBindOk] at e
      rw [hq] at hf
      cases hv : Ty.enumFields W C.vals k.zero fs with
      | error e' => rw [hv] at hf; exact hf.elim
      | ok vs =>
        rw [hv] at hf
        obtain ⟨objs, -, e2, -⟩ := newAll_shape e
        have hle := hf.1.le
        refine ⟨by rw [e2]; exact List.nodup_range', fun r hr => ?_, fun r hr s hs => ?_⟩
        · rw [e2, List.mem_range'_1] at hr
          exact hle.trans hr.1
        · rcases newAll_reach (enumArgs_rel k hf.2) e hr hs with h1 | h1
          · exact .inl h1
          · right
            rw [e2, List.mem_range'_1]
            exact fun hc => absurd hc.1 (not_le.2 h1)
  | .mod _ t, h, q, e => by
    rw [Ty.objsAs] at e
    exact objsAs_reach e

theorem of_mem_product {α : Type} : ∀ {ls : List (List α)} {args : List α}, args ∈ product ls →
    List.Forall₂ (fun a l => a ∈ l) args ls
  | [], args, h => by
    simp only [product, List.mem_singleton] at h
    subst h
    exact .nil
  | l :: ls, args, h => by
    simp only [product, List.mem_flatMap, List.mem_map] at h
    obtain ⟨a, ha, args', h', rfl⟩ := h
    exact .cons ha (of_mem_product h')

theorem objsFields_plain (zero : Bool) : ∀ {fs : List Ty} {h : Store} {q : Store × List (List Ref)},
    Ty.objsFields W C zero fs h = .ok q → ∀ {p : Nat} {t : Ty}, fs[p]? = some t → t.isBound = false →
    ∃ s x, q.2[p]? = some [s] ∧ q.1[s]? = some (.leaf t x)
  | [], h, q, e, p, t, hp, _ => by simp at hp
  | u :: fs, h, q, e, p, t, hp, ht => by
    rw [Ty.objsFields] at e
    have e : ((if u.isBound then Ty.objsAs W C u u h
        else (if zero then C.zero u else C.none u).map fun p => (h ++ [.leaf u p], [h.length])) >>= fun q => do
            let q' ← Ty.objsFields W C zero fs q.1
            return (q'.1, q.2 :: q'.2)) = .ok q := by
      rw [← e]
      split <;> rfl
    cases h1 : (if u.isBound then Ty.objsAs W C u u h
        else (if zero then C.zero u else C.none u).map fun p => (h ++ [.leaf u p], [h.length])) with
    | error e' => rw [h1] at e; cases e
    | ok q1 =>
      rw [h1, pyBindOk] at e
      cases h2 : Ty.objsFields W C zero fs q1.1 with
      | error e' => rw [h2] at e; cases e
      | ok q2 =>
        rw [h2, pyBindOk] at e
        cases e
        cases p with
        | succ p => exact objsFields_plain zero h2 (by simpa using hp) ht
        | zero =>
          simp only [List.getElem?_cons_zero, Option.some.injEq] at hp
          subst hp
          rw [ht] at h1
          have hx : Extends q1.1 q2.1 := by
            have := objsFields_rel (W := W) (C := C) zero fs q1.1
            rw [h2] at this
            cases hv : Ty.enumFields W C.vals zero fs with
            | error e => rw [hv] at this; exact this.elim
            | ok vs => rw [hv] at this; exact this.1
          have : ∃ x, q1 = (h ++ [.leaf u x], [h.length]) := by
            simp only [Bool.false_eq_true, if_false] at h1
            cases hz : (if zero then C.zero u else C.none u) with
            | error e => rw [hz] at h1; cases h1
            | ok x => rw [hz] at h1; cases h1; exact ⟨x, rfl⟩
          obtain ⟨x, rfl⟩ := this
          refine ⟨h.length, x, rfl, ?_⟩
          dsimp only at hx ⊢
          rw [hx _ (by simp)]
          simp

end HW.Adt
