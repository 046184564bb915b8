import Verif.Lemmas.Adt.ClassCache

/-! # What the operations on classes do to the heap -/

namespace HW.Adt.Cache
namespace Heap

variable {E : Env} {h h' : Heap}

theorem good_new {k : Class} {fs : Option Fields} {u : Option Nat}
    (hp : k.mt = .plain → fs = none ∧ u = none)
    (hq : k.mt ≠ .plain → (fs = none → u = some h.classes.length ∧ ∀ b ∈ k.bases, fieldsOf h.classes b = none) ∧
      ((k.mt = .enum → ∃ m v, k.origin = .modified m v) → ∀ f, fs = some f → ∀ b ∈ k.bases, ∀ g, fieldsOf h.classes b = some g → g = f))
    (hlt : ∀ b ∈ k.bases, b < h.classes.length) (hnd : k.bases.Nodup)
    (hle : ∀ b ∈ k.bases, k.mt.le (mtOf h.classes b) = true)
    (hw : k.mt ≠ .plain → ∃ b ∈ k.bases, mtOf h.classes b = k.mt)
    (hitem : ∀ v idx, k.origin = .cached (.item v idx) →
      ItemShape h.classes { k with fields := fs, unbound := u } v idx)
    (hattr : ∀ f bs n ns, k.origin = .cached (.attr f bs n ns) → ∃ m s, Stmt.key m s = .attr f bs n ns ∧
      s.hasFields m = true ∧ AttrShape h.classes h.classes.length { k with fields := fs, unbound := u } m s)
    (hmod : ∀ m v, k.origin = .modified m v → ∃ ds, k.bases = v :: ds ∧
      List.Forall₂ (fun b d => ModOf h.classes d m b) (basesOf h.classes v) ds)
    (hsrc : ∀ m v, k.origin = .modified m v → k.mt = mtOf h.classes v ∧ fs = fieldsOf h.classes v) :
    Good h.classes h.classes.length { k with fields := fs, unbound := u } :=
  ⟨hlt, hnd, hle, fun h' => Or.inr (hw h'), hp, fun h1 h2 => (hq h1).1 h2, fun h1 f h2 => by
      by_cases h3 : k.mt = .plain
      · have := (hp h3).1; dsimp only at h2; rw [this] at h2; cases h2
      · exact (hq h3).2 h1 f h2, hitem, hattr, hmod, hsrc⟩

/-- What `_from_idx` passes to the metaclass. -/
abbrev itemProto (c : Nat) (idx : Idx) (bs : List Nat) : Class :=
  { mt := idx.mt, bases := bs, fields := some idx.fields, origin := .cached (.item c idx)
    table := Idx.table idx }

/-! ## Searches -/

theorem search_ok {m : Meta} : ∀ {fuel : Nat} {bs : List Nat} {r : Nat}, search m fuel h bs = some r →
    mtOf h.classes r = m ∧ ∃ b ∈ bs, Anc h.classes b r
  | 0, _, _, e => by cases e
  | fuel + 1, bs, r, e => by
    simp only [search] at e
    obtain ⟨b, hb, e⟩ := List.exists_of_findSome?_eq_some (l := bs) e
    split at e
    · rename_i hm
      have e : b = r := by simpa using e
      exact ⟨e ▸ hm, b, hb, e ▸ .refl _⟩
    · obtain ⟨h1, b', hb', h2⟩ := search_ok e
      exact ⟨h1, b, hb, .step hb' h2⟩

theorem mtOf_init (hi : h.Inv) {c : Nat} (hc : c < 7) : mtOf h.classes c = mtOf initClasses c ∧
    basesOf h.classes c = basesOf initClasses c := by
  obtain ⟨M, hM⟩ := hi.pre
  rw [hM]
  exact ⟨mtOf_app hc, basesOf_app hc⟩

theorem tuple_base (hi : h.Inv) {c : Nat} (hc : mtOf h.classes c = .anon ∨ mtOf h.classes c = .product) :
    ∃ b ∈ basesOf h.classes c, mtOf h.classes b = .tuple ∨ mtOf h.classes b = .anon ∨ mtOf h.classes b = .product := by
  have hlt : c < h.classes.length := mtOf_lt (by rcases hc with h | h <;> rw [h] <;> nofun)
  obtain ⟨k, hk⟩ := Inv.get hlt
  have hm : mtOf h.classes c = k.mt := by simp only [mtOf, hk]
  have hbs : basesOf h.classes c = k.bases := by simp only [basesOf, hk]
  have hne : k.mt ≠ .plain := by rw [← hm]; rcases hc with h | h <;> rw [h] <;> nofun
  rcases (hi.good c k hk).win hne with hs | ⟨b, hb, hbm⟩
  · have h7 := mtOf_init hi hs
    rw [h7.1] at hc
    rw [h7.2]
    have hx : ∀ b, b < 7 → mtOf h.classes b = mtOf initClasses b := fun b hb => (mtOf_init hi hb).1
    have : c = 0 ∨ c = 1 ∨ c = 2 ∨ c = 3 ∨ c = 4 ∨ c = 5 ∨ c = 6 := by omega
    rcases this with rfl | rfl | rfl | rfl | rfl | rfl | rfl
    · rcases hc with h | h <;> cases h
    · rcases hc with h | h <;> cases h
    · exact ⟨1, by simp [basesOf, initClasses], Or.inl (by rw [hx 1 (by omega)]; rfl)⟩
    · exact ⟨2, by simp [basesOf, initClasses], Or.inr (Or.inl (by rw [hx 2 (by omega)]; rfl))⟩
    · rcases hc with h | h <;> cases h
    · rcases hc with h | h <;> cases h
    · rcases hc with h | h <;> cases h
  · refine ⟨b, by rw [hbs]; exact hb, Or.inr ?_⟩
    rw [hbm, ← hm]; exact hc

theorem search_some (hi : h.Inv) : ∀ {c fuel : Nat}, c < fuel →
    mtOf h.classes c = .tuple ∨ mtOf h.classes c = .anon ∨ mtOf h.classes c = .product →
    ∃ r, search .tuple fuel h [c] = some r
  | c, 0, hf, _ => by omega
  | c, fuel + 1, hf, hc => by
    simp only [search, List.findSome?_cons, List.findSome?_nil]
    by_cases hm : h.mt c = .tuple
    · simp [hm]
    · rw [if_neg hm]
      obtain ⟨b, hb, hbm⟩ := tuple_base hi (hc.resolve_left hm)
      obtain ⟨k, hk, hb'⟩ := get_basesOf hb
      have hlt := (hi.good c k hk).lt b hb'
      obtain ⟨r, hr⟩ := search_some hi (c := b) (fuel := fuel) (by omega) hbm
      have : ∃ r, search .tuple fuel h (h.bases c) = some r := by
        cases fuel with
        | zero => simp [search] at hr
        | succ fuel =>
          simp only [search, List.findSome?_cons, List.findSome?_nil] at hr ⊢
          cases hfs : List.findSome? (fun b => if h.mt b = .tuple then some b else search .tuple fuel h (h.bases b)) (h.bases c) with
          | some r => exact ⟨r, rfl⟩
          | none =>
            rw [List.findSome?_eq_none_iff] at hfs
            have := hfs b hb
            rw [this] at hr
            cases hr
      obtain ⟨r, hr⟩ := this
      exact ⟨r, by rw [hr]⟩

/-- `_get_tuple_base` finds a tuple class among the ancestors of `c`. -/
theorem search_head (hi : h.Inv) {c : Nat} (hc : mtOf h.classes c = .anon) {ds : List Nat} {r : Nat}
    (e : search .tuple h.classes.length h (c :: ds) = some r) :
    mtOf h.classes r = .tuple ∧ Anc h.classes c r ∧ (h.Alive c → h.Alive r ∧ r < c) := by
  have hlt : c < h.classes.length := mtOf_lt (by rw [hc]; nofun)
  obtain ⟨r', hr'⟩ := search_some hi hlt (Or.inr (Or.inl hc))
  have : r' = r := by
    cases hL : h.classes.length with
    | zero => omega
    | succ n =>
      rw [hL] at e hr'
      simp only [search, List.findSome?_cons, List.findSome?_nil] at e hr'
      cases hx : (if h.mt c = .tuple then some c else search .tuple n h (h.bases c)) with
      | none => rw [hx] at hr'; cases hr'
      | some x => rw [hx] at e hr'; cases e; cases hr'; rfl
  subst this
  obtain ⟨h1, b, hb, h2⟩ := search_ok hr'
  simp only [List.mem_singleton] at hb
  subst hb
  refine ⟨h1, h2, fun ha => ?_⟩
  obtain ⟨h3, h4⟩ := hi.anc_alive ha h2
  refine ⟨h3, ?_⟩
  rcases h4 with rfl | h4
  · rw [hc] at h1; cases h1
  · exact h4

/-! ## Lists of bases -/

theorem mapBases_ok {f : Heap → Nat → PyM (Heap × Nat)} {P : Key → Prop} {Q : ModId × Nat → Prop}
    {pre : List Class → Nat → Prop} {R : List Class → Nat → Nat → Prop}
    (hf : ∀ h b h' d, h.Inv → h.Alive b → pre h.classes b → f h b = .ok (h', d) →
      h'.Inv ∧ Ext P Q h h' ∧ h'.Alive d ∧ R h'.classes b d)
    (hR : ∀ L M b d, R L b d → R (L ++ M) b d)
    (hpre : ∀ L M b, b < L.length → pre L b → pre (L ++ M) b) :
    ∀ {bs : List Nat} {h h' : Heap} {ds : List Nat}, h.Inv → (∀ b ∈ bs, h.Alive b ∧ pre h.classes b) →
      mapBases f h bs = .ok (h', ds) →
      h'.Inv ∧ Ext P Q h h' ∧ (∀ d ∈ ds, h'.Alive d) ∧ List.Forall₂ (R h'.classes) bs ds
  | [], h, h', ds, hi, _, e => by
    simp only [mapBases, Except.ok.injEq, Prod.mk.injEq] at e
    obtain ⟨rfl, rfl⟩ := e
    exact ⟨hi, Ext.refl _, by simp, .nil⟩
  | b :: bs, h, h', ds, hi, hb, e => by
    simp only [mapBases] at e
    obtain ⟨⟨h1, d⟩, e1, e⟩ := bind_ok e
    obtain ⟨⟨h2, ds'⟩, e2, e⟩ := bind_ok e
    simp only [pure, Except.pure, Except.ok.injEq, Prod.mk.injEq] at e
    obtain ⟨rfl, rfl⟩ := e
    obtain ⟨a1, a2⟩ := hb b (by simp)
    obtain ⟨i1, x1, l1, r1⟩ := hf h b h1 d hi a1 a2 e1
    obtain ⟨i2, x2, l2, r2⟩ := mapBases_ok hf hR hpre i1 (fun b' hb' => by
      obtain ⟨c1, c2⟩ := hb b' (by simp [hb'])
      refine ⟨x1.alive c1, ?_⟩
      obtain ⟨M, hM⟩ := x1.classes
      rw [hM]; exact hpre _ _ _ c1.1 c2) e2
    refine ⟨i2, x1.trans x2, ?_, .cons ?_ r2⟩
    · simp only [List.mem_cons, forall_eq_or_imp]
      exact ⟨x2.alive l1, l2⟩
    · obtain ⟨M, hM⟩ := x2.classes
      rw [hM]; exact hR _ _ _ _ r1

theorem Inv.find_item (hi : h.Inv) {key : Key} {d : Nat} (e : find h.cache key = some d) :
    h.Alive d ∧ originOf h.classes d = some (.cached key) := by
  obtain ⟨h1, h2⟩ := hi.sound _ (find_mem e)
  exact ⟨⟨originOf_lt h2, h1⟩, h2⟩

theorem Inv.find_mod (hi : h.Inv) {mc : ModId × Nat} {d : Nat} (e : find h.subCache mc = some d) :
    h.Alive d ∧ ModOf h.classes d mc.1 mc.2 := by
  obtain ⟨h1, h2⟩ := hi.msound _ (find_mem e)
  exact ⟨⟨originOf_lt h2, h1⟩, h2⟩

theorem Inv.shape (hi : h.Inv) {d u : Nat} {idx : Idx} (e : ItemOf h.classes d u idx) :
    ∃ k, h.classes[d]? = some k ∧ k.origin = .cached (.item u idx) ∧ ItemShape h.classes k u idx := by
  unfold ItemOf originOf at e
  cases hk : h.classes[d]? with
  | none => rw [hk] at e; cases e
  | some k =>
    rw [hk] at e
    simp only [Option.some.injEq] at e
    exact ⟨k, rfl, e, (hi.good d k hk).item u idx e⟩

theorem forall₂_right {α β : Type} {R : α → β → Prop} : ∀ {l : List α} {l' : List β}, List.Forall₂ R l l' →
    ∀ {b}, b ∈ l' → ∃ a ∈ l, R a b
  | _, _, .nil, _, h => by simp at h
  | _, _, .cons h hs, b, hb => by
    simp only [List.mem_cons] at hb
    rcases hb with rfl | hb
    · exact ⟨_, by simp, h⟩
    · obtain ⟨a, h1, h2⟩ := forall₂_right hs hb
      exact ⟨a, by simp [h1], h2⟩

/-- Keys of getitem classes on classes older than `c`. -/
def Below (c : Nat) (key : Key) : Prop := ∃ u i, key = .item u i ∧ u < c

theorem idxBases_ok {g : Heap → Nat → Idx → PyM (Heap × Nat)} {c : Nat} {ds bs : List Nat} {idx : Idx}
    (hi : h.Inv) (hc : h.Alive c) (hm : mtOf h.classes c = idx.mt)
    (hg : ∀ h b h' d i, h.Inv → h.Alive b → mtOf h.classes b = i.mt → b < c → g h b i = .ok (h', d) →
      h'.Inv ∧ Ext (Below c) (fun _ => False) h h' ∧ h'.Alive d ∧ ItemOf h'.classes d b i)
    (e : idxBases g h c ds idx = .ok (h', bs)) :
    h'.Inv ∧ Ext (Below c) (fun _ => False) h h' ∧
      ∃ ts, bs = c :: ds ++ ts ∧ (∀ d ∈ ts, h'.Alive d) ∧ TupleBase h'.classes c ts idx := by
  cases idx with
  | tup l =>
    simp only [idxBases, Except.ok.injEq, Prod.mk.injEq] at e
    obtain ⟨rfl, rfl⟩ := e
    exact ⟨hi, Ext.refl _, [], by simp, by simp, rfl⟩
  | set l =>
    simp only [idxBases, Except.ok.injEq, Prod.mk.injEq] at e
    obtain ⟨rfl, rfl⟩ := e
    exact ⟨hi, Ext.refl _, [], by simp, by simp, rfl⟩
  | dict l =>
    simp only [idxBases] at e
    split at e
    · cases e
    · rename_i tb hs
      obtain ⟨⟨h1, t⟩, e1, e⟩ := bind_ok e
      simp only [pure, Except.pure, Except.ok.injEq, Prod.mk.injEq] at e
      obtain ⟨rfl, rfl⟩ := e
      obtain ⟨s1, s2, s3⟩ := search_head hi hm hs
      obtain ⟨s3, s4⟩ := s3 hc
      obtain ⟨i1, x1, l1, r1⟩ := hg h tb h1 t _ hi s3 (by rw [s1]; rfl) s4 e1
      refine ⟨i1, x1, [t], rfl, by simpa using l1, tb, t, rfl, ?_, x1.anc s2, r1⟩
      rw [x1.mt s3.1, s1]

theorem getitem_ok : ∀ {fuel : Nat} {h h' : Heap} {c d : Nat} {idx : Idx}, h.Inv → c < fuel → h.Alive c →
    mtOf h.classes c = idx.mt → getitemF E fuel h c idx = .ok (h', d) →
    h'.Inv ∧ Ext (Below (c + 1)) (fun _ => False) h h' ∧ h'.Alive d ∧ ItemOf h'.classes d c idx
  | 0, _, _, _, _, _, _, hf, _, _, _ => by omega
  | fuel + 1, h, h', c, d, idx, hi, hf, hc, hm, e => by
    simp only [getitemF] at e
    split at e
    · cases e
    · rename_i hfree
      have hfree : fieldsOf h.classes c = none := by simpa [fields_eq] using hfree
      split at e
      · rename_i d' hfd
        cases e
        obtain ⟨a, b⟩ := hi.find_item hfd
        exact ⟨hi, Ext.refl _, a, b⟩
      · rename_i hfd
        obtain ⟨⟨h1, ds⟩, e1, e⟩ := bind_ok e
        obtain ⟨⟨h2, bs⟩, e2, e⟩ := bind_ok e
        obtain ⟨⟨h3, t⟩, e3, e⟩ := bind_ok e
        simp only [pure, Except.pure, Except.ok.injEq, Prod.mk.injEq] at e
        obtain ⟨rfl, rfl⟩ := e
        have hsub : ∀ {a b : Heap} {b' : Nat}, b' < c → Ext (Below (b' + 1)) (fun _ => False) a b →
            Ext (Below c) (fun _ => False) a b := fun hlt x =>
          x.mono (by rintro k ⟨u, i, r1, r2⟩; exact ⟨u, i, r1, by omega⟩) fun _ h => h
        have hfilt : ∀ b ∈ (h.bases c).filter (fun b => (h.mt b).le (h.mt c)),
            h.Alive b ∧ mtOf h.classes b = idx.mt ∧ b < c := by
          intro b hb
          simp only [List.mem_filter] at hb
          obtain ⟨ha, hlt⟩ := hi.base_alive hc hb.1
          obtain ⟨k, hk, hb'⟩ := get_basesOf hb.1
          refine ⟨ha, ?_, hlt⟩
          have hle := (hi.good c k hk).le b hb'
          have hmk : mtOf h.classes c = k.mt := by simp only [mtOf, hk]
          rw [← hm]
          refine Meta.le_antisymm hb.2 ?_
          rw [hmk]; exact hle
        obtain ⟨i1, x1, l1, r1⟩ := mapBases_ok (P := Below c) (Q := fun _ => False)
          (pre := fun L b => mtOf L b = idx.mt ∧ b < c) (R := fun L b d => ItemOf L d b idx)
          (fun h b h' d hi ha hp e => by
            obtain ⟨r1, r2, r3, r4⟩ := getitem_ok hi (by omega) ha hp.1 e
            exact ⟨r1, hsub hp.2 r2, r3, r4⟩)
          (fun L M b d hr => originOf_app hr M)
          (fun L M b hb hp => ⟨by rw [mtOf_app hb]; exact hp.1, hp.2⟩)
          hi hfilt e1
        have hc1 := x1.alive hc
        have hm1 : mtOf h1.classes c = idx.mt := by rw [x1.mt hc.1, hm]
        obtain ⟨i2, x2, ts, rfl, l2, tb2⟩ := idxBases_ok i1 hc1 hm1
          (fun h b h' d i hi ha hp hlt e => by
            obtain ⟨r1, r2, r3, r4⟩ := getitem_ok hi (by omega) ha hp e
            exact ⟨r1, hsub hlt r2, r3, r4⟩) e2
        have hc2 := x2.alive hc1
        have hm2 : mtOf h2.classes c = idx.mt := by rw [x2.mt hc1.1, hm1]
        have hfree2 : fieldsOf h2.classes c = none := by rw [x2.fields hc1.1, x1.fields hc.1, hfree]
        have r2 : List.Forall₂ (fun b d => ItemOf h2.classes d b idx)
            ((h.bases c).filter (fun b => (h.mt b).le (h.mt c))) ds := r1.imp fun b d hd => x2.origin hd
        have l1' : ∀ d ∈ ds, h2.Alive d := fun d hd => x2.alive (l1 d hd)
        -- every base after the first is bound and has metaclass `idx.mt` or is a tuple class
        have hrest : ∀ d ∈ ds ++ ts, (idx.mt.le (mtOf h2.classes d) = true ∧ mtOf h2.classes d ≠ .plain ∧
            (fieldsOf h2.classes d).isSome = true) := by
          intro d hd
          rw [List.mem_append] at hd
          rcases hd with hd | hd
          · obtain ⟨b, _, hb⟩ := forall₂_right r2 hd
            obtain ⟨k, hk, ho, sh⟩ := i2.shape hb
            have hmd : mtOf h2.classes d = idx.mt := by simp only [mtOf, hk]; exact sh.mt
            have hfd : fieldsOf h2.classes d = some idx.fields := by simp only [fieldsOf, hk]; exact sh.fields
            rw [hmd, hfd]; exact ⟨Meta.le_refl _, idx.mt_ne, rfl⟩
          · cases idx with
            | tup l => simp only [TupleBase] at tb2; subst tb2; cases hd
            | set l => simp only [TupleBase] at tb2; subst tb2; cases hd
            | dict l =>
              obtain ⟨tb, t', rfl, t1, t2, t3⟩ := tb2
              simp only [List.mem_singleton] at hd
              subst hd
              obtain ⟨k, hk, ho, sh⟩ := i2.shape t3
              have hmd : mtOf h2.classes d = .tuple := by simp only [mtOf, hk]; exact sh.mt
              have hfd : fieldsOf h2.classes d = some (.tuple (l.map (·.2))) := by
                simp only [fieldsOf, hk]; exact sh.fields
              rw [hmd, hfd]; exact ⟨rfl, nofun, rfl⟩
        have hmc : h.mt c = idx.mt := hm
        rw [hmc] at e3
        obtain ⟨fs, u, rfl, rfl, hnd, hpl, hnp⟩ := newClass_ok i2 e3
        obtain ⟨n1, n2, n3, n4⟩ := hnp idx.mt_ne
        have hfs := n1 _ rfl
        have hu : u = some c := by
          refine n4 _ c hfs ?_
          dsimp only
          have hcu : h2.unboundBase c = true := by
            simp only [unboundBase, adt, Bool.and_eq_true, fields_eq, mt_eq, hfree2, hm2]
            exact ⟨by simpa using idx.mt_ne, rfl⟩
          rw [List.cons_append, List.filter_cons_of_pos hcu, List.filter_eq_nil_iff.2]
          intro d hd
          obtain ⟨_, _, hs⟩ := hrest d hd
          rw [Option.isSome_iff_exists] at hs
          obtain ⟨f, hf⟩ := hs
          simp [unboundBase, fields_eq, hf]
        subst hfs; subst hu
        have hbases : ∀ d ∈ c :: ds ++ ts, h2.Alive d := by
          intro d hd
          simp only [List.cons_append, List.mem_cons, List.mem_append] at hd
          rcases hd with rfl | hd | hd
          · exact hc2
          · exact l1' d hd
          · exact l2 d hd
        have hgood : Good h2.classes h2.classes.length
            { mt := idx.mt, bases := c :: ds ++ ts, fields := some idx.fields, unbound := some c,
              origin := .cached (.item c idx), table := Idx.table idx } := by
          refine good_new (k := itemProto c idx (c :: ds ++ ts)) (fs := some idx.fields) (u := some c)
            (fun hp => absurd hp idx.mt_ne) (fun _ => ⟨nofun, fun _ => n3⟩)
            (fun b hb => (hbases b hb).1) hnd ?_ (fun _ => ⟨c, by simp, hm2⟩) ?_ nofun nofun nofun
          · intro b hb
            simp only [List.cons_append, List.mem_cons] at hb
            rcases hb with rfl | hb
            · rw [hm2]; exact Meta.le_refl _
            · exact (hrest b hb).1
          · rintro v i ⟨⟩
            refine ⟨rfl, hm2, rfl, rfl, hfree2, rfl, ds, ts, rfl, ?_, tb2⟩
            have : (basesOf h2.classes c).filter (fun b => (mtOf h2.classes b).le idx.mt) =
                (h.bases c).filter (fun b => (h.mt b).le (h.mt c)) := by
              rw [x2.bases hc1.1, x1.bases hc.1, hmc]
              apply List.filter_congr
              intro b hb
              have hb1 := (hi.base_alive hc hb).1
              rw [x2.mt (x1.alive hb1).1, x1.mt hb1.1]
              rfl
            rw [this]; exact r2
        have hfresh : find h2.cache (.item c idx) = none := by
          rw [x2.only, x1.only, hfd]
          · rintro ⟨u, i, e1, e2⟩; cases e1; omega
          · rintro ⟨u, i, e1, e2⟩; cases e1; omega
        have hI := i2.add hgood (fun b hb => (hbases b hb).2) hfresh
        have hX := ext_add (h := h2) (k := { itemProto c idx (c :: ds ++ ts) with unbound := some c }) hfresh
        have lift : ∀ {a b : Heap}, Ext (Below c) (fun _ => False) a b → Ext (Below (c + 1)) (fun _ => False) a b :=
          fun x => x.mono (by rintro k ⟨u, i, r1, r2⟩; exact ⟨u, i, r1, by omega⟩) fun _ h => h
        refine ⟨hI, (lift (x1.trans x2)).trans (hX.mono ?_ ?_), ⟨?_, ?_⟩, ?_⟩
        · rintro key hk; cases hk; exact ⟨c, idx, rfl, by omega⟩
        · rintro mc hk; cases hk
        · simp
        · exact fun hd => Nat.lt_irrefl _ (i2.dead_lt _ hd)
        · exact originOf_len _

end Heap
end HW.Adt.Cache
