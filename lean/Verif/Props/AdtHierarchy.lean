import Verif.Props.AdtClass

/-! # Property C90: the place of bound ADT classes in the class hierarchy -/

namespace HW

open Adt Adt.Cache Adt.Cache.Heap Adt.Cache.Spec

namespace Adt.Cache
namespace Heap

variable {E : Env} {h h' h1 h2 h3 : Heap}

theorem forall₂_left {α β : Type} {R : α → β → Prop} : ∀ {l : List α} {l' : List β}, List.Forall₂ R l l' →
    ∀ {a}, a ∈ l → ∃ b ∈ l', R a b
  | _, _, .nil, _, h => by simp at h
  | _, _, .cons h hs, a, ha => by
    simp only [List.mem_cons] at ha
    rcases ha with rfl | ha
    · exact ⟨_, by simp, h⟩
    · obtain ⟨b, hb, hr⟩ := forall₂_left hs ha
      exact ⟨b, by simp [hb], hr⟩

theorem Sub.trans {a b c : Nat} (h1 : Sub h a b) (h2 : Sub h b c) : Sub h a c := by
  induction h1 with
  | refl => exact h2
  | step hb _ ih => exact .step hb (ih h2)

theorem Inv.sub_le (hi : h.Inv) {c d : Nat} (hs : Sub h c d) : (mtOf h.classes c).le (mtOf h.classes d) = true := by
  induction hs with
  | refl => exact Meta.le_refl _
  | @step c b d hb _ ih =>
    obtain ⟨k, hk, hb'⟩ := get_basesOf hb
    have : mtOf h.classes c = k.mt := by simp only [mtOf, hk]
    rw [this]
    exact Meta.le_trans ((hi.good c k hk).le b hb') ih

/-- `c[idx]` derives from `B[idx]` for every superclass `B` of the same kind. -/
theorem Inv.item_sub (hi : h.Inv) {c B : Nat} {idx : Idx} (hs : Sub h c B) (hm : mtOf h.classes B = idx.mt) :
    ∀ {d : Nat}, ItemOf h.classes d c idx → ∃ e, ItemOf h.classes e B idx ∧ Sub h d e := by
  induction hs with
  | refl => intro d hd; exact ⟨d, hd, .refl _⟩
  | @step c b B hb hsub ih =>
    intro d hd
    obtain ⟨k, hk, _, sh⟩ := hi.shape hd
    obtain ⟨ds, ts, h1, h2, _⟩ := sh.bases
    have hbm : (mtOf h.classes b).le idx.mt = true := by rw [← hm]; exact hi.sub_le hsub
    obtain ⟨d', hd', hit⟩ := forall₂_left h2 (List.mem_filter.2 ⟨hb, hbm⟩)
    obtain ⟨e, he, hse⟩ := ih hm hit
    refine ⟨e, he, .step (b := d') ?_ hse⟩
    rw [bases_eq]
    simp only [basesOf, hk, h1]
    simp [hd']

theorem Inv.alive_sub (hi : h.Inv) {c d : Nat} (hc : h.Alive c) (hs : Sub h c d) : h.Alive d := by
  induction hs with
  | refl => exact hc
  | step hb _ ih => exact ih (hi.base_alive hc hb).1

theorem _root_.HW.Adt.Cache.Anc.sub {c d : Nat} (ha : Anc h.classes c d) : Sub h c d := by
  induction ha with
  | refl => exact .refl _
  | step hb _ ih => exact .step hb ih

/-- A live getitem class is what getitem returns. -/
theorem Inv.getitem_live (hi : h.Inv) {c d : Nat} {idx : Idx} {a : Arg} (hd : h.Alive d) (hit : ItemOf h.classes d c idx)
    (ha : a.idx idx.mt = .ok idx) : h.getitem E c a = .ok (h, d) := by
  obtain ⟨k, hk, _, sh⟩ := hi.shape hit
  have hf := hi.complete d _ hd.2 hit
  have hm : h.mt c = idx.mt := sh.mtu
  have hfree : h.fields c = none := sh.free
  unfold Heap.getitem getIdx
  rw [hm, ha]
  simp only [bind, Except.bind, getitemF, hfree, hf]
  simp

end Heap
end Adt.Cache

/-- **C90** (getitem is monotone).  For unbound classes `T` below `B` of the same kind (two tuple classes, two
sums, two anonymous products), `T[...]` is a subclass of `B[...]` - the class that `B[...]` returns. -/
theorem C90_monotone {E : Env} {h h1 h2 : Heap} (hist : Steps E init h) {T B d : Nat} {a : Arg} (hT : h.Alive T)
    (hs : Sub h T B) (hm : h.mt B = h.mt T) (he : h.getitem E T a = .ok (h1, d)) (later : Steps E (h1.hold d) h2)
    (held : d ∈ h2.roots) : ∃ e, h2.getitem E B a = .ok (h2, e) ∧ Sub h2 d e := by
  obtain ⟨hi, _⟩ := inv_init.steps hist
  obtain ⟨idx, e1, i1, x1, l1, r1⟩ := getitem_item hi hT he
  have i1' := i1.hold l1
  obtain ⟨i2, M, hM⟩ := i1'.steps later
  have pre : ∃ N, h2.classes = h.classes ++ N := by
    obtain ⟨N, hN⟩ := x1.classes
    exact ⟨N ++ M, by rw [hM]; show h1.classes ++ M = _; rw [hN, List.append_assoc]⟩
  obtain ⟨N, hN⟩ := pre
  have hB := hi.alive_sub hT hs
  have hs2 : Sub h2 T B := by
    clear he later held r1 e1 hm hB x1
    induction hs with
    | refl => exact .refl _
    | @step c b d hb _ ih =>
      refine .step (b := b) ?_ (ih (hi.base_alive hT hb).1)
      rw [bases_eq, hN, basesOf_app hT.1]; exact hb
  have hm2 : mtOf h2.classes B = idx.mt := by
    rw [hN, mtOf_app hB.1, ← arg_idx e1]; exact hm
  obtain ⟨e, hit, hse⟩ := i2.item_sub hs2 hm2 (i1'.origin_later later r1)
  refine ⟨e, i2.getitem_live (i2.alive_sub (i2.roots d held) hse) hit ?_, hse⟩
  rw [← arg_idx e1]; exact e1

namespace Adt.Cache
namespace Heap

variable {E : Env} {h h' h1 h2 h3 : Heap}

/-- The class each kind starts from. -/
def kindRoot : Meta → Nat
  | .plain => objectC
  | .tuple => tupleC
  | .anon => anonC
  | .product => productC
  | .sum => sumC
  | .tagged => taggedC
  | .enum => enumC

theorem Inv.kind_sub (hi : h.Inv) : ∀ (c : Nat), mtOf h.classes c ≠ .plain → Sub h c (kindRoot (mtOf h.classes c)) := by
  intro c
  induction c using Nat.strongRecOn with
  | ind c ih =>
    intro hne
    have hlt := mtOf_lt hne
    obtain ⟨k, hk⟩ : ∃ k, h.classes[c]? = some k := ⟨_, List.getElem?_eq_getElem hlt⟩
    have hm : mtOf h.classes c = k.mt := by simp only [mtOf, hk]
    have hg := hi.good c k hk
    rcases hg.win (by rw [← hm]; exact hne) with h7 | ⟨b, hb, e⟩
    · obtain ⟨M, hM⟩ := hi.pre
      have : mtOf h.classes c = mtOf initClasses c := by rw [hM, mtOf_app (by exact h7)]
      rw [this] at hne ⊢
      clear this hm hg hk k hlt ih hM
      rcases c with _ | _ | _ | _ | _ | _ | _ | c
      · exact absurd rfl hne
      all_goals first | exact .refl _ | omega
    · have hbm : mtOf h.classes b = mtOf h.classes c := by rw [e, hm]
      have := ih b (hg.lt b hb) (by rw [hbm]; exact hne)
      rw [hbm] at this
      exact .step (b := b) (by rw [bases_eq]; simp only [basesOf, hk]; exact hb) this

/-- The class a statement with fields derives from. -/
theorem stmt_item {s : Stmt} {d : Nat} {m bm : Meta} {idx : Idx} (hi : h.Inv) (hal : ∀ b ∈ s.bases, h.Alive b)
    (hm : h.winner .plain s.bases = .ok m) (hf : s.hasFields m = true) (hb : s.base m = some (bm, idx))
    (he : h.classStmt E s = .ok (h1, d)) :
    h1.Inv ∧ h1.Alive d ∧ ∃ e, ItemOf h1.classes e (kindRoot idx.mt) idx ∧ Sub h1 d e := by
  have made := stmt_made hi hal hm hf he
  obtain ⟨k, s', hk, sh, hkey, _, _⟩ := made.shape
  have hbase : s'.base m = s.base m := by
    obtain ⟨hkf, _⟩ := Key.attr.inj hkey
    cases m <;> simp only [Stmt.base, reduceCtorEq] at hb ⊢ <;> cases hs : s.fields <;> cases hs' : s'.fields <;>
      simp only [hs, hs', fieldsIdx, reduceCtorEq, FIdx.tup.injEq, FIdx.set.injEq] at hkf hb ⊢
    · rw [hkf]
    · have := hkf
      simp only [Option.some.injEq, Prod.mk.injEq, Idx.set.injEq, true_and]
      ext x
      simp only [Finset.ext_iff, List.mem_toFinset] at this
      simp only [List.mem_toFinset, List.mem_map, this]
  rw [hb] at hbase
  refine ⟨made.inv, made.alive, ?_⟩
  rcases sh.bases with ⟨bm', idx', b, e, h1', h2', h3', h4', h5', _⟩ | ⟨h1', _⟩
  · rw [hbase] at h1'; cases h1'
    have hbne : mtOf h1.classes b ≠ .plain := by
      rw [h4', h2']; cases idx <;> nofun
    have hs := made.inv.kind_sub b hbne
    rw [h4', h2'] at hs
    have hr : mtOf h1.classes (kindRoot idx.mt) = idx.mt := by
      obtain ⟨M, hM⟩ := made.inv.pre
      rw [hM]; cases idx <;> rfl
    obtain ⟨e', hit, hse⟩ := made.inv.item_sub hs hr h5'
    exact ⟨e', hit, .step (b := e) (by rw [bases_eq]; simp only [basesOf, hk, h3']; simp) hse⟩
  · rw [hbase] at h1'; cases h1'

/-- `AnonymousProduct[{...}]` and the tuple class of its types. -/
theorem Inv.dict_tuple (hi : h.Inv) {d T : Nat} {l : List (Name × Nat)} (hit : ItemOf h.classes d T (.dict l)) :
    ∃ t, ItemOf h.classes t tupleC (.tup (l.map (·.2))) ∧ Sub h d t := by
  obtain ⟨k, hk, _, sh⟩ := hi.shape hit
  obtain ⟨ds, ts, b1, _, tb, t, rfl, t1, t2, t3⟩ := sh.bases
  have hs := hi.kind_sub tb (by rw [t1]; nofun)
  rw [t1] at hs
  obtain ⟨t', hit', hs'⟩ := hi.item_sub (idx := .tup (l.map (·.2))) hs (by
    obtain ⟨M, hM⟩ := hi.pre
    rw [hM]; rfl) t3
  exact ⟨t', hit', .step (b := t) (by rw [bases_eq]; simp only [basesOf, hk, b1]; simp) hs'⟩

theorem Sub.held {c d t : Nat} (hs : Sub h c d) : Sub (h.hold t) c d := by
  induction hs with
  | refl => exact .refl _
  | step hb _ ih => exact .step hb ih

theorem Sub.later (hi : h.Inv) (later : Steps E h h2) {c d : Nat} (hs : Sub h c d) : Sub h2 c d := by
  obtain ⟨_, M, hM⟩ := hi.steps later
  induction hs with
  | refl => exact .refl _
  | @step c b d hb _ ih =>
    refine .step (b := b) ?_ ih
    obtain ⟨k, hk, _⟩ := get_basesOf hb
    rw [bases_eq, hM, basesOf_app (lt_of_get hk)]; exact hb

end Heap
end Adt.Cache

/-- **C90** (an anonymous product is a tuple).  `T[{a: A, b: B}]` is a subclass of `AnonymousProduct[{a: A, b: B}]`
and of `Tuple[A, B]`, at any later time. -/
theorem C90_anonymous {E : Env} {h h1 h2 : Heap} (hist : Steps E init h) {T d : Nat} {l : List (Name × Nat)}
    (hT : h.Alive T) (he : h.getitem E T (.mapping l) = .ok (h1, d)) (later : Steps E (h1.hold d) h2)
    (held : d ∈ h2.roots) : ∃ a t, h2.getitem E anonC (.mapping l) = .ok (h2, a) ∧
      h2.getitem E tupleC (.items (l.map (·.2))) = .ok (h2, t) ∧ Sub h2 d a ∧ Sub h2 d t := by
  obtain ⟨hi, _⟩ := inv_init.steps hist
  obtain ⟨idx, e1, i1, x1, l1, r1⟩ := getitem_item hi hT he
  have hidx : h.mt T = .anon ∧ idx = .dict l := by
    revert e1; cases h.mt T <;> intro e1 <;> cases e1; exact ⟨rfl, rfl⟩
  obtain ⟨hmT, rfl⟩ := hidx
  have i1' := i1.hold l1
  obtain ⟨i2, M, hM⟩ := i1'.steps later
  have hr2 : mtOf h2.classes anonC = .anon := by
    obtain ⟨M, hM⟩ := i2.pre
    rw [hM]; rfl
  have hit := i1'.origin_later later r1
  obtain ⟨k, hk, _, sh⟩ := i2.shape hit
  have hs2 := i2.kind_sub T (by rw [sh.mtu]; nofun)
  rw [sh.mtu] at hs2
  obtain ⟨a, ha, hsa⟩ := i2.item_sub (idx := .dict l) hs2 hr2 hit
  obtain ⟨t, ht, hst⟩ := i2.dict_tuple hit
  exact ⟨a, t, i2.getitem_live (i2.alive_sub (i2.roots d held) hsa) ha rfl,
    i2.getitem_live (i2.alive_sub (i2.roots d held) hst) ht rfl, hsa, hst⟩

/-- **C90** (a product is an anonymous product and a tuple).  The class of `class P(Product, ...): a = A; b = B` is
a subclass of `AnonymousProduct[{a: A, b: B}]` and of `Tuple[A, B]`. -/
theorem C90_product {E : Env} {h h1 h2 : Heap} (hist : Steps E init h) {s : Stmt} {d : Nat} {l : List (Name × Nat)}
    (hal : ∀ b ∈ s.bases, h.Alive b) (hm : h.winner .plain s.bases = .ok .product) (hl : s.fields = .types l)
    (hne : l ≠ []) (he : h.classStmt E s = .ok (h1, d)) (later : Steps E (h1.hold d) h2) (held : d ∈ h2.roots) :
    ∃ a t, h2.getitem E anonC (.mapping l) = .ok (h2, a) ∧
      h2.getitem E tupleC (.items (l.map (·.2))) = .ok (h2, t) ∧ Sub h2 d a ∧ Sub h2 a t := by
  obtain ⟨hi, _⟩ := inv_init.steps hist
  obtain ⟨i1, l1, a, ha, hsa⟩ := stmt_item hi hal hm (by simp [Stmt.hasFields, hl, hne])
    (bm := .anon) (idx := .dict l) (by simp [Stmt.base, hl]) he
  have i1' := i1.hold l1
  obtain ⟨i2, M, hM⟩ := i1'.steps later
  have ha2 := i1'.origin_later later ha
  have hsa2 : Sub h2 d a := Sub.later (h := h1.hold d) i1' later hsa.held
  obtain ⟨t, ht, hst⟩ := i2.dict_tuple ha2
  have hal2 := i2.alive_sub (i2.roots d held) hsa2
  exact ⟨a, t, i2.getitem_live hal2 ha2 rfl, i2.getitem_live (i2.alive_sub hal2 hst) ht rfl, hsa2, hst⟩

/-- **C90** (a tagged union is a sum).  The class of `class U(TaggedUnion, ...): a = A; b = B` is a subclass of
`Sum[A, B]`. -/
theorem C90_tagged {E : Env} {h h1 h2 : Heap} (hist : Steps E init h) {s : Stmt} {d : Nat} {l : List (Name × Nat)}
    (hal : ∀ b ∈ s.bases, h.Alive b) (hm : h.winner .plain s.bases = .ok .tagged) (hl : s.fields = .types l)
    (hne : l ≠ []) (he : h.classStmt E s = .ok (h1, d)) (later : Steps E (h1.hold d) h2) (held : d ∈ h2.roots) :
    ∃ a, h2.getitem E sumC (.items (l.map (·.2))) = .ok (h2, a) ∧ Sub h2 d a := by
  obtain ⟨hi, _⟩ := inv_init.steps hist
  obtain ⟨i1, l1, a, ha, hsa⟩ := stmt_item hi hal hm (by simp [Stmt.hasFields, hl, hne])
    (bm := .sum) (idx := .set (l.map (·.2)).toFinset) (by simp [Stmt.base, hl]) he
  have i1' := i1.hold l1
  obtain ⟨i2, M, hM⟩ := i1'.steps later
  have hsa2 : Sub h2 d a := Sub.later (h := h1.hold d) i1' later hsa.held
  exact ⟨a, i2.getitem_live (i2.alive_sub (i2.roots d held) hsa2) (i1'.origin_later later ha) rfl, hsa2⟩

/-- **C90** (subclasses keep the fields).  A class below a bound class, of the same kind or not, is bound to the
same fields - unless it is an enum. -/
theorem C90_fields {E : Env} {h : Heap} (hist : Steps E init h) {c d : Nat} {f : Fields} (hs : Sub h c d)
    (hf : h.fields d = some f) (he : h.mt d ≠ .enum) : h.fields c = some f := by
  obtain ⟨hi, _⟩ := inv_init.steps hist
  induction hs with
  | refl => exact hf
  | @step c b d hb hsub ih =>
    have ihb := ih hf he
    obtain ⟨k, hk, hb'⟩ := get_basesOf hb
    have hg := hi.good c k hk
    have hfc : h.fields c = k.fields := by simp only [Heap.fields, hk]
    have hmb : k.mt ≠ .enum ∧ k.mt ≠ .plain := by
      have h1 := hi.sub_le hsub
      have h2 := hg.le b hb'
      have hbp : mtOf h.classes d ≠ .plain := by
        intro e
        obtain ⟨k', hk', _⟩ : ∃ k', h.classes[d]? = some k' ∧ k'.fields = some f := by
          unfold Heap.fields at hf
          split at hf
          · rename_i k' hk'; exact ⟨k', hk', hf⟩
          · cases hf
        have : k'.mt = .plain := by rw [← e]; simp only [mtOf, hk']
        have := ((hi.good d k' hk').plain this).1
        simp_all
      rw [mt_eq] at he
      revert h1 h2 he hbp
      generalize mtOf h.classes d = x
      generalize mtOf h.classes b = y
      generalize k.mt = z
      cases x <;> cases y <;> cases z <;> simp [Meta.le]
    rw [hfc]
    cases hkf : k.fields with
    | none =>
      have := (hg.unb hmb.2 hkf).2 b hb'
      rw [fields_eq, this] at ihb; cases ihb
    | some g => rw [hg.agree (fun h => absurd h hmb.1) g hkf b hb' f ihb]

namespace Adt.Cache
namespace Heap

theorem boundLoop_agree {h : Heap} : ∀ {bs : List Nat} {s : Option Fields},
    (∀ b ∈ bs, h.bound b = true → ∀ f, s = some f → h.fields b = some f) →
    (∀ b ∈ bs, ∀ b' ∈ bs, h.bound b = true → h.bound b' = true → h.fields b = h.fields b') →
    ∃ r, h.boundLoop s bs = .ok r ∧ (s = none → ∀ f, r = some f → ∃ b ∈ bs, h.fields b = some f)
  | [], s, _, _ => ⟨s, rfl, fun h f hf => by rw [h] at hf; cases hf⟩
  | b :: bs, s, h1, h2 => by
    simp only [List.mem_cons, forall_eq_or_imp] at h1 h2
    simp only [boundLoop]
    by_cases hb : h.bound b = true
    · rw [if_pos hb]
      cases s with
      | none =>
        obtain ⟨r, hr, _⟩ := boundLoop_agree (h := h) (bs := bs) (s := h.fields b)
          (fun b' hb' hbb f hf => by rw [← h2.1.2 b' hb' hb hbb, hf])
          (fun b' hb' b'' hb'' => (h2.2 b' hb').2 b'' hb'')
        obtain ⟨x1, x2, x3⟩ := boundLoop_ok hr
        refine ⟨r, hr, fun _ f hf => ⟨b, by simp, ?_⟩⟩
        have : (h.fields b).isSome := by
          simp only [bound, Bool.and_eq_true] at hb; exact hb.2
        obtain ⟨g, hg⟩ := Option.isSome_iff_exists.1 this
        rw [hg, ← x1 g hg, hf]
      | some g =>
        have hg := h1.1 hb g rfl
        obtain ⟨r, hr, _⟩ := boundLoop_agree (h := h) (bs := bs) (s := some g) h1.2
          (fun b' hb' b'' hb'' => (h2.2 b' hb').2 b'' hb'')
        refine ⟨r, ?_, by simp⟩
        simp only [hg]
        simpa using hr
    · rw [if_neg hb]
      obtain ⟨r, hr, x⟩ := boundLoop_agree (h := h) (bs := bs) (s := s) h1.2
        (fun b' hb' b'' hb'' => (h2.2 b' hb').2 b'' hb'')
      refine ⟨r, hr, fun hs f hf => ?_⟩
      obtain ⟨b', hb', e⟩ := x hs f hf
      exact ⟨b', by simp [hb'], e⟩

/-- A failing loop met two bases with different fields. -/
theorem boundLoop_error {h : Heap} {e : PyErr} : ∀ {bs : List Nat} {s : Option Fields}, h.boundLoop s bs = .error e →
    e = .typeError
  | [], s, he => by cases he
  | b :: bs, s, he => by
    simp only [boundLoop] at he
    split at he
    · split at he
      · exact boundLoop_error he
      · split at he
        · cases he; rfl
        · exact boundLoop_error he
    · exact boundLoop_error he

/-- The bases of a statement that are bound have the same fields. -/
def Agree (h : Heap) (bs : List Nat) : Prop :=
  ∀ b ∈ bs, ∀ b' ∈ bs, ∀ f f', h.fields b = some f → h.fields b' = some f' → f = f'

theorem unboundOf_ok {h : Heap} {id : Nat} {bs : List Nat} {r : Option Fields}
    (hr : ∀ f, r = some f → ∃ b ∈ bs, h.bound b = true) : ∃ u, h.unboundOf id bs r = .ok u := by
  cases r with
  | none => exact ⟨_, rfl⟩
  | some f =>
    simp only [unboundOf]
    split
    · exact ⟨_, rfl⟩
    · obtain ⟨b, hb, hbb⟩ := hr f rfl
      rw [if_pos (List.any_eq_true.2 ⟨b, hb, hbb⟩)]
      exact ⟨_, rfl⟩

end Heap
end Adt.Cache

/-- **C90** (when a class can be derived).  A class statement without fields of its own, over ADT classes, makes a
class exactly if no base is repeated, Python accepts the bases (metaclass, layout, linearisation) and the bound
bases have the same fields; otherwise it raises `TypeError`. -/
theorem C90_derived_returns {E : Env} {h : Heap} (hist : Steps E init h) {s : Stmt} {m : Meta}
    (hm : h.winner .plain s.bases = .ok m) (hp : m ≠ .plain) (hf : s.hasFields m = false) :
    ((∃ h1 d, h.classStmt E s = .ok (h1, d)) ↔
      s.bases.Nodup ∧ E.accepts h.classes m s.bases = true ∧ h.Agree s.bases) ∧
    ∀ e, h.classStmt E s = .error e → e = .typeError := by
  obtain ⟨hi, _⟩ := inv_init.steps hist
  have hst : h.classStmt E s = newClass E h { mt := m, bases := s.bases, name := some s.name, body := s.body } := by
    simp only [Heap.classStmt, hm, bind, Except.bind, hf]; rfl
  have hnf : h.newFields { mt := m, bases := s.bases, name := some s.name, body := s.body } = h.boundLoop none s.bases := by
    simp only [newFields, if_neg hp]
  have hun : ∀ fs, h.newUnbound { mt := m, bases := s.bases, name := some s.name, body := s.body } fs =
      h.unboundOf h.classes.length s.bases fs := by
    intro fs; simp only [newUnbound, if_neg hp]
  have hsome : ∀ {b f}, h.fields b = some f → h.bound b = true := fun {b f} e => by rw [hi.bound_iff, e]; rfl
  have hfs : ∀ r, h.boundLoop none s.bases = .ok r → ∃ u, h.unboundOf h.classes.length s.bases r = .ok u := by
    intro r hr
    refine unboundOf_ok fun f hf => ?_
    obtain ⟨x1, x2, x3⟩ := boundLoop_ok hr
    by_contra hc
    have hc' : ∀ b ∈ s.bases, h.bound b = true → ∀ f, (none : Option Fields) = some f → h.fields b = some f := by simp
    obtain ⟨r', hr', y⟩ := boundLoop_agree (h := h) hc' (fun b hb b' hb' hbb _ => absurd ⟨b, hb, hbb⟩ hc)
    rw [hr] at hr'; cases hr'
    obtain ⟨b, hb, e⟩ := y rfl f hf
    exact hc ⟨b, hb, hsome e⟩
  rw [hst]
  unfold newClass
  rw [hnf]
  refine ⟨⟨?_, ?_⟩, ?_⟩
  · rintro ⟨h1, d, e⟩
    obtain ⟨fs, hl, e⟩ := bind_ok e
    split at e
    · cases e
    · rename_i hc
      simp only [not_or, not_not, Bool.not_eq_false] at hc
      refine ⟨hc.1, hc.2, fun b hb b' hb' f f' e1 e2 => ?_⟩
      obtain ⟨x1, x2, x3⟩ := boundLoop_ok hl
      have y1 := x3 b hb (hsome e1)
      have y2 := x3 b' hb' (hsome e2)
      rw [e1] at y1; rw [e2, ← y1] at y2; cases y2; rfl
  · rintro ⟨hn, ha, hag⟩
    obtain ⟨r, hr, _⟩ := boundLoop_agree (h := h) (bs := s.bases) (s := none) (by simp)
      (fun b hb b' hb' h1 h2 => by
        rw [hi.bound_iff] at h1 h2
        obtain ⟨f, hf⟩ := Option.isSome_iff_exists.1 h1
        obtain ⟨f', hf'⟩ := Option.isSome_iff_exists.1 h2
        rw [hf, hf', hag b hb b' hb' f f' hf hf'])
    obtain ⟨u, hu⟩ := hfs r hr
    rw [hr]
    simp only [bind, Except.bind, hun, hu]
    rw [if_neg (by simp [hn, ha])]
    exact ⟨_, _, rfl⟩
  · intro e he
    cases hr : h.boundLoop none s.bases with
    | error e' =>
      rw [hr] at he
      cases he
      exact boundLoop_error hr
    | ok r =>
      obtain ⟨u, hu⟩ := hfs r hr
      rw [hr] at he
      simp only [bind, Except.bind, hun, hu] at he
      split at he
      · cases he; rfl
      · cases he

/-- **C90** (when an enum class can be made).  A class statement with members over `Enum` classes, not found in the
cache, makes a class exactly if one base, and only one, is an enum class, no base is repeated, Python accepts the
bases and the bound bases have the same fields; otherwise it raises `TypeError`.  The new class is its own field, and
its `unbound_t` is the enum base, bound or not. -/
theorem C90_enum_returns {E : Env} {h : Heap} (hist : Steps E init h) {s : Stmt}
    (hm : h.winner .plain s.bases = .ok .enum) (hf : s.hasFields .enum = true)
    (hc : s.cache = true → find h.cache (s.key .enum) = none) :
    ((∃ h1 d, h.classStmt E s = .ok (h1, d)) ↔
      (∃ eb, s.bases.filter (fun b => h.mt b = .enum) = [eb]) ∧ s.bases.Nodup ∧
        E.accepts h.classes .enum s.bases = true ∧ h.Agree s.bases) ∧
    (∀ e, h.classStmt E s = .error e → e = .typeError) ∧
    ∀ h1 d, h.classStmt E s = .ok (h1, d) → h1.fields d = some (.enum d) ∧
      ∃ eb ∈ s.bases, h.mt eb = .enum ∧ h1.unboundT d = .ok eb := by
  obtain ⟨hi, _⟩ := inv_init.steps hist
  have hsome : ∀ {b f}, h.fields b = some f → h.bound b = true := fun {b f} e => by rw [hi.bound_iff, e]; rfl
  have hb : s.base .enum = none := rfl
  obtain ⟨k, hkb, hkm, hst⟩ : ∃ k : Class, k.bases = s.bases ∧ k.mt = .enum ∧
      fromFields E h .enum s = newEnum E h k := by
    refine ⟨_, ?_, ?_, by unfold fromFields; rw [hb]⟩ <;> rfl
  have hcs : h.classStmt E s = attrNew E h .enum s := by
    simp only [Heap.classStmt, hm, bind, Except.bind, hf]; rfl
  have hagr : (∃ r, h.boundLoop none s.bases = .ok r) ↔ h.Agree s.bases := by
    constructor
    · rintro ⟨r, hl⟩ b hb b' hb' f f' e1 e2
      obtain ⟨x1, x2, x3⟩ := boundLoop_ok hl
      have y1 := x3 b hb (hsome e1)
      have y2 := x3 b' hb' (hsome e2)
      rw [e1] at y1; rw [e2, ← y1] at y2; cases y2; rfl
    · intro hag
      obtain ⟨r, hr, _⟩ := boundLoop_agree (h := h) (bs := s.bases) (s := none) (by simp)
        (fun b hb b' hb' h1 h2 => by
          rw [hi.bound_iff] at h1 h2
          obtain ⟨f, hf⟩ := Option.isSome_iff_exists.1 h1
          obtain ⟨f', hf'⟩ := Option.isSome_iff_exists.1 h2
          rw [hf, hf', hag b hb b' hb' f f' hf hf'])
      exact ⟨r, hr⟩
  have main : (∀ e, newEnum E h k = .error e → e = .typeError ∧
        ¬ ((∃ eb, s.bases.filter (fun b => h.mt b = .enum) = [eb]) ∧ s.bases.Nodup ∧
        E.accepts h.classes .enum s.bases = true ∧ h.Agree s.bases)) ∧
      ∀ p, newEnum E h k = .ok p → ((∃ eb, s.bases.filter (fun b => h.mt b = .enum) = [eb]) ∧ s.bases.Nodup ∧
        E.accepts h.classes .enum s.bases = true ∧ h.Agree s.bases) ∧ p.1.fields p.2 = some (.enum p.2) ∧
      ∃ eb ∈ s.bases, h.mt eb = .enum ∧ p.1.unboundT p.2 = .ok eb := by
    unfold newEnum
    rw [hkb, hkm]
    split
    · rename_i eb hfil
      have hmem : eb ∈ s.bases ∧ h.mt eb = .enum := by
        have : eb ∈ s.bases.filter (fun b => h.mt b = .enum) := by rw [hfil]; simp
        simpa using this
      cases hl : h.boundLoop none s.bases with
      | error e' =>
        refine ⟨fun e he => ?_, fun p hp => by cases hp⟩
        cases he
        refine ⟨boundLoop_error hl, fun hx => ?_⟩
        obtain ⟨r, hr⟩ := hagr.2 hx.2.2.2
        rw [hl] at hr; cases hr
      | ok r =>
        simp only [bind, Except.bind]
        split
        · rename_i hbad
          refine ⟨fun e he => ?_, fun p hp => by cases hp⟩
          cases he
          refine ⟨rfl, fun hx => ?_⟩
          rcases hbad with hbad | hbad
          · exact hbad hx.2.1
          · rw [hx.2.2.1] at hbad; cases hbad
        · rename_i hgood
          simp only [not_or, not_not, Bool.not_eq_false] at hgood
          refine ⟨fun e he => (by cases he), fun p hp => ?_⟩
          cases hp
          refine ⟨⟨⟨eb, hfil⟩, hgood.1, hgood.2, hagr.1 ⟨r, hl⟩⟩, ?_, eb, hmem.1, hmem.2, ?_⟩
          · simp [Heap.fields]
          · simp [Heap.unboundT]
    · rename_i hno
      refine ⟨fun e he => ?_, fun p hp => by cases hp⟩
      obtain rfl : PyErr.typeError = e := by simpa using he
      exact ⟨rfl, fun hx => by obtain ⟨eb, heb⟩ := hx.1; exact hno eb heb⟩
  rw [hcs]
  have hat : (∀ e, attrNew E h .enum s = .error e ↔ newEnum E h k = .error e) ∧
      (∀ h1 d, attrNew E h .enum s = .ok (h1, d) → ∃ h0, newEnum E h k = .ok (h0, d) ∧
        h1.classes = h0.classes) ∧
      ∀ p, newEnum E h k = .ok p → ∃ h1 d, attrNew E h .enum s = .ok (h1, d) := by
    unfold attrNew
    cases hs : s.cache with
    | false =>
      rw [if_neg (by simp), hst]
      exact ⟨fun e => Iff.rfl, fun h1 d e => ⟨h1, e, rfl⟩, fun p e => ⟨p.1, p.2, e⟩⟩
    | true =>
      rw [if_pos rfl, hc hs]
      simp only []
      rw [hst]
      cases hn : newEnum E h k with
      | error e => exact ⟨fun e' => by simp [bind, Except.bind], fun h1 d e => (by cases e), fun p e => by cases e⟩
      | ok p =>
        obtain ⟨h0, d0⟩ := p
        refine ⟨fun e' => by simp [bind, Except.bind, pure, Except.pure], fun h1 d e => ?_, fun p e => ⟨_, _, rfl⟩⟩
        cases e
        exact ⟨h0, rfl, rfl⟩
  refine ⟨⟨?_, ?_⟩, ?_, ?_⟩
  · rintro ⟨h1, d, e⟩
    obtain ⟨h0, e0, _⟩ := hat.2.1 h1 d e
    exact (main.2 _ e0).1
  · intro hx
    cases hn : newEnum E h k with
    | error e => exact absurd hx (main.1 e hn).2
    | ok p => exact hat.2.2 p hn
  · intro e he
    exact (main.1 e ((hat.1 e).1 he)).1
  · intro h1 d e
    obtain ⟨h0, e0, hcl⟩ := hat.2.1 h1 d e
    have := (main.2 _ e0).2
    simpa only [Heap.fields, Heap.unboundT, hcl] using this

/-- **C90** (what a derived class is).  A class derived, without fields of its own, from ADT classes is bound exactly
to what some base is bound to.  Its `unbound_t` is the class itself if no base is bound; if some base is bound it is
the unbound ADT base if there is exactly one, and else there is none (`AttributeError`). -/
theorem C90_derived {E : Env} {h h1 : Heap} (hist : Steps E init h) {s : Stmt} {m : Meta} {d : Nat}
    (hm : h.winner .plain s.bases = .ok m) (hp : m ≠ .plain) (hf : s.hasFields m = false)
    (he : h.classStmt E s = .ok (h1, d)) :
    (∀ f, h1.fields d = some f ↔ ∃ b ∈ s.bases, h.fields b = some f) ∧
    ((∀ b ∈ s.bases, h.fields b = none) → h1.unboundT d = .ok d) ∧
    (∀ b f, b ∈ s.bases → h.fields b = some f →
      (∀ u ∈ s.bases, h.mt u ≠ .plain → h.fields u = none →
        (∀ v ∈ s.bases, h.mt v ≠ .plain → h.fields v = none → v = u) → h1.unboundT d = .ok u) ∧
      ((∀ u ∈ s.bases, h.mt u ≠ .plain → h.fields u = none →
        ∃ v ∈ s.bases, v ≠ u ∧ h.mt v ≠ .plain ∧ h.fields v = none) → h1.unboundT d = .error .attributeError)) := by
  obtain ⟨hn, ha, hag⟩ := (C90_derived_returns hist hm hp hf).1.1 ⟨h1, d, he⟩
  obtain ⟨hi, _⟩ := inv_init.steps hist
  have hst : h.classStmt E s = newClass E h { mt := m, bases := s.bases, name := some s.name, body := s.body } := by
    simp only [Heap.classStmt, hm, bind, Except.bind, hf]; rfl
  rw [hst] at he
  unfold newClass at he
  obtain ⟨r, hr, he⟩ := bind_ok he
  simp only [newFields, if_neg hp] at hr
  rw [if_neg (by simp [hn, ha])] at he
  obtain ⟨u, hu, he⟩ := bind_ok he
  simp only [newUnbound, if_neg hp] at hu
  simp only [pure, Except.pure, Except.ok.injEq, Prod.mk.injEq] at he
  obtain ⟨rfl, rfl⟩ := he
  have hsome : ∀ {b f}, h.fields b = some f → h.bound b = true := fun {b f} e => by rw [hi.bound_iff, e]; rfl
  obtain ⟨x1, x2, x3⟩ := boundLoop_ok hr
  obtain ⟨r', hr', y⟩ := boundLoop_agree (h := h) (bs := s.bases) (s := none) (by simp)
      (fun b hb b' hb' h1 h2 => by
        rw [hi.bound_iff] at h1 h2
        obtain ⟨f, hf⟩ := Option.isSome_iff_exists.1 h1
        obtain ⟨f', hf'⟩ := Option.isSome_iff_exists.1 h2
        rw [hf, hf', hag b hb b' hb' f f' hf hf'])
  rw [hr] at hr'; cases hr'
  simp only [Heap.fields, Heap.unboundT, List.getElem?_concat_length]
  refine ⟨fun f => ⟨fun e => y rfl f e, ?_⟩, ?_, ?_⟩
  · rintro ⟨b, hb, e⟩
    exact (x3 b hb (hsome e)).symm.trans e
  · intro hnone
    have : r = none := by
      cases r with
      | none => rfl
      | some f =>
        obtain ⟨b, hb, e⟩ := y rfl f rfl
        have : h.fields b = none := hnone b hb
        rw [this] at e; cases e
    subst this
    simp only [unboundOf, Except.ok.injEq] at hu
    subst hu; rfl
  · intro b f hb hbf
    have hr : r = some f := (x3 b hb (hsome hbf)).symm.trans hbf
    subst hr
    have hub : ∀ c, h.unboundBase c = true ↔ h.mt c ≠ .plain ∧ h.fields c = none := by
      intro c; simp [unboundBase, adt]
    refine ⟨fun v hv hvm hvf huniq => ?_, fun hno => ?_⟩
    · have hfil : s.bases.filter h.unboundBase = [v] := by
        have hnd := hn.filter h.unboundBase
        have hmem : v ∈ s.bases.filter h.unboundBase := List.mem_filter.2 ⟨hv, (hub v).2 ⟨hvm, hvf⟩⟩
        have hall : ∀ w ∈ s.bases.filter h.unboundBase, w = v := by
          intro w hw
          obtain ⟨hw1, hw2⟩ := List.mem_filter.1 hw
          exact huniq w hw1 ((hub w).1 hw2).1 ((hub w).1 hw2).2
        revert hnd hmem hall
        generalize s.bases.filter h.unboundBase = l
        intro hnd hmem hall
        match l, hnd, hmem, hall with
        | [a], _, _, hall => rw [hall a (by simp)]
        | a :: a' :: l', hnd, _, hall =>
          have e1 := hall a (by simp)
          have e2 := hall a' (by simp)
          subst e1; subst e2; simp at hnd
      simp only [unboundOf, hfil, Except.ok.injEq] at hu
      subst hu; rfl
    · simp only [unboundOf] at hu
      split at hu
      · rename_i v hfil
        exfalso
        have hv : v ∈ s.bases.filter h.unboundBase := by rw [hfil]; simp
        obtain ⟨hv1, hv2⟩ := List.mem_filter.1 hv
        obtain ⟨w, hw, hne, hw1, hw2⟩ := hno v hv1 ((hub v).1 hv2).1 ((hub v).1 hv2).2
        have : w ∈ s.bases.filter h.unboundBase := List.mem_filter.2 ⟨hw, (hub w).2 ⟨hw1, hw2⟩⟩
        rw [hfil] at this
        exact hne (by simpa using this)
      · rw [if_pos (List.any_eq_true.2 ⟨b, hb, hsome hbf⟩)] at hu
        cases hu; rfl

/-! ### Examples -/

example : Sub (after (demoHeap.classStmt demoEnv demoStmt)) 11 10 ∧ Sub (after (demoHeap.classStmt demoEnv demoStmt)) 10 9 ∧
    (after (demoHeap.classStmt demoEnv demoStmt)).getitem demoEnv tupleC (.items [7, 8]) =
      .ok (after (demoHeap.classStmt demoEnv demoStmt), 9) :=
  ⟨.step (b := 10) (by decide) (.refl _), .step (b := 9) (by decide) (.refl _), rfl⟩

/-- `class T(Tuple): ...` (class 9) is unbound, and `T[A, B]` (class 11) derives from `Tuple[A, B]` (class 10). -/
example : ∃ h1, demoHeap.classStmt demoEnv { fields := .types [], name := 3, bases := [tupleC] } = .ok (h1, 9) ∧
    h1.fields 9 = none ∧ Sub h1 9 tupleC ∧ result (h1.getitem demoEnv 9 (.items [7, 8])) = some 11 ∧
    (after (h1.getitem demoEnv 9 (.items [7, 8]))).bases 11 = [9, 10] ∧
    (after (h1.getitem demoEnv 9 (.items [7, 8]))).fields 10 = some (.tuple [7, 8]) :=
  ⟨_, rfl, by decide, .step (b := 1) (by decide) (.refl _), by decide, by decide, by decide⟩

example : Sub (after (demoHeap.classStmt demoEnv demoTagged)) 10 9 ∧
    (after (demoHeap.classStmt demoEnv demoTagged)).bases 9 = [sumC] :=
  ⟨.step (b := 9) (by decide) (.refl _), by decide⟩

/-- `class T(Tuple): ...` (9), `Tuple[A, B]` (10), `class X(T, Tuple[A, B]): ...` has fields `A, B` and `unbound_t` `T`;
`class Y(Tuple[A, B]): ...` has the fields and no `unbound_t`. -/
example : ∃ h1, demoHeap.classStmt demoEnv { fields := .types [], name := 3, bases := [tupleC] } = .ok (h1, 9) ∧
    ∃ h2, h1.getitem demoEnv tupleC (.items [7, 8]) = .ok (h2, 10) ∧
    h2.winner .plain [9, 10] = .ok .tuple ∧
    (∃ h3, h2.classStmt demoEnv { fields := .types [], name := 4, bases := [9, 10] } = .ok (h3, 11) ∧
      h3.fields 11 = some (.tuple [7, 8]) ∧ h3.unboundT 11 = .ok 9) ∧
    ∃ h3, h2.classStmt demoEnv { fields := .types [], name := 4, bases := [10] } = .ok (h3, 11) ∧
      h3.fields 11 = some (.tuple [7, 8]) ∧ h3.unboundT 11 = .error .attributeError :=
  ⟨_, rfl, _, rfl, rfl, ⟨_, rfl, by decide, by rfl⟩, _, rfl, by decide, by rfl⟩

/-- `class E(Enum): a = 0` (9) has itself as field and `unbound_t` `Enum`; `class F(E): b = 1` has `unbound_t` `E`;
`class G(E, Enum): b = 1` raises `TypeError`. -/
example : ∃ h1, demoHeap.classStmt demoEnv { fields := .vals [(3, .int 0)], name := 3, bases := [enumC] } = .ok (h1, 9) ∧
    h1.fields 9 = some (.enum 9) ∧ h1.unboundT 9 = .ok enumC ∧
    (∃ h2, h1.classStmt demoEnv { fields := .vals [(4, .int 1)], name := 4, bases := [9] } = .ok (h2, 10) ∧
      h2.fields 10 = some (.enum 10) ∧ h2.unboundT 10 = .ok 9) ∧
    h1.classStmt demoEnv { fields := .vals [(4, .int 1)], name := 4, bases := [9, enumC] } = .error .typeError :=
  ⟨_, rfl, by decide, by rfl, ⟨_, rfl, by decide, by rfl⟩, by rfl⟩

end HW
