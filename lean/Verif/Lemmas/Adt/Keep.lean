import Verif.Lemmas.Adt.Strip

/-! # Lemmas on `rebind_keep_modifiers` -/

namespace HW.Adt

variable {W : World}

/-- The image under `rebind_keep_modifiers`, as it should be. -/
def keepT (W : World) (A B : Ty) (t : Ty) : Ty := substT W (keepF W A B) Ty.mod t

theorem view_mod_below {m t s} : Ty.Below s (.mod m t) ↔ Ty.Below s t := by
  have hf : ∀ x, (Ty.mod m t).HasField x ↔ t.HasField x := by
    intro x
    constructor
    · rintro ⟨k, fs, h1, h2⟩
      simp only [Ty.view, Option.map_eq_some_iff] at h1
      obtain ⟨⟨k', fs'⟩, h3, h4⟩ := h1
      simp only [Prod.mk.injEq] at h4
      exact ⟨k', fs', h3, h4.2 ▸ h2⟩
    · rintro ⟨k, fs, h1, h2⟩
      exact ⟨{ k with base := .mod m k.base }, fs, by simp [Ty.view, h1], h2⟩
  constructor
  · intro h
    cases h with
    | field h => exact .field ((hf _).1 h)
    | deep h h' => exact .deep ((hf _).1 h) h'
  · intro h
    cases h with
    | field h => exact .field ((hf _).2 h)
    | deep h h' => exact .deep ((hf _).2 h) h'

theorem below_node {k fs s} : Ty.Below s (.node k fs) ↔ ∃ t ∈ fs, s = t ∨ s.Below t := by
  constructor
  · intro h
    cases h with
    | field h =>
        obtain ⟨k', fs', h1, h2⟩ := h
        simp only [Ty.view, Option.some.injEq, Prod.mk.injEq] at h1
        exact ⟨s, h1.2 ▸ h2, .inl rfl⟩
    | deep h h' =>
        obtain ⟨k', fs', h1, h2⟩ := h
        simp only [Ty.view, Option.some.injEq, Prod.mk.injEq] at h1
        exact ⟨_, h1.2 ▸ h2, .inr h'⟩
  · rintro ⟨t, ht, rfl | h⟩
    · exact below_field ht
    · exact below_trans_field ht h

theorem below_leaf {l s} : ¬ Ty.Below s (.leaf l) := by
  intro h
  cases h with
  | field h => obtain ⟨k, fs, h, -⟩ := h; simp [Ty.view] at h
  | deep h => obtain ⟨k, fs, h, -⟩ := h; simp [Ty.view] at h

theorem below_enum {l s} : ¬ Ty.Below s (.enum l) := by
  intro h
  cases h with
  | field h => obtain ⟨k, fs, h, -⟩ := h; simp [Ty.view] at h
  | deep h => obtain ⟨k, fs, h, -⟩ := h; simp [Ty.view] at h

theorem hasHit_node {A k fs} (hA : ∀ k fs, W.sub (.node k fs) A = false) :
    HasHit W A (.node k fs) ↔ ∃ t ∈ fs, HasHit W A t := by
  constructor
  · rintro ⟨s, rfl | hs, h⟩
    · simp only [Ty.unwrap, hA, Bool.false_eq_true] at h
    · obtain ⟨t, ht, h'⟩ := below_node.1 hs
      exact ⟨t, ht, s, h', h⟩
  · rintro ⟨t, ht, s, hs, h⟩
    exact ⟨s, .inr (below_node.2 ⟨t, ht, hs⟩), h⟩

theorem hasHit_mod {A m t} : HasHit W A (.mod m t) ↔ HasHit W A t := by
  constructor
  · rintro ⟨s, rfl | hs, h⟩
    · exact ⟨t, .inl rfl, h⟩
    · exact ⟨s, .inr (view_mod_below.1 hs), h⟩
  · rintro ⟨s, rfl | hs, h⟩
    · exact ⟨.mod m s, .inl rfl, h⟩
    · exact ⟨s, .inr (view_mod_below.2 hs), h⟩

theorem hasHit_below {A s t} (h : Ty.Below s t) (hs : HasHit W A s) : HasHit W A t := by
  have trans : ∀ {a b c : Ty}, Ty.Below a b → Ty.Below b c → Ty.Below a c := by
    intro a b c h1 h2
    induction h2 with
    | field h => exact .deep h h1
    | deep h _ ih => exact .deep h ih
  obtain ⟨u, rfl | hu, h'⟩ := hs
  · exact ⟨u, .inr h, h'⟩
  · exact ⟨u, .inr (trans hu h), h'⟩

theorem keepT_node {A B k fs} (hA : ∀ k fs, W.sub (.node k fs) A = false) :
    keepT W A B (.node k fs) = remake W k (fs.map (keepT W A B)) := by
  have : keepF W A B (.node k fs) = none := by simp [keepF, Ty.isModified, hA]
  rw [keepT, substT, this, Option.getD_none, substL_eq]; rfl

theorem keepT_mod {A B m t} : keepT W A B (.mod m t) = .mod m (keepT W A B t) := by
  have : keepF W A B (.mod m t) = none := by simp [keepF, Ty.isModified]
  rw [keepT, substT, this, Option.getD_none]; rfl

theorem keepT_noHit {A B} (hA : ∀ k fs, W.sub (.node k fs) A = false) (T : Ty) (hT : Built W T)
    (h : ¬ HasHit W A T) : keepT W A B T = T := by
  induction T using Ty.induct with
  | leaf l =>
      have : keepF W A B (.leaf l) = none := by
        simp only [keepF, Ty.isModified, Bool.false_eq_true, if_false, ite_eq_right_iff, reduceCtorEq, imp_false,
          Bool.not_eq_true]
        cases hs : W.sub (.leaf l) A with
        | false => rfl
        | true => exact absurd ⟨.leaf l, .inl rfl, hs⟩ h
      rw [keepT, substT, this]; rfl
  | enum l =>
      have : keepF W A B (.enum l) = none := by
        simp only [keepF, Ty.isModified, Bool.false_eq_true, if_false, ite_eq_right_iff, reduceCtorEq, imp_false,
          Bool.not_eq_true]
        cases hs : W.sub (.enum l) A with
        | false => rfl
        | true => exact absurd ⟨.enum l, .inl rfl, hs⟩ h
      rw [keepT, substT, this]; rfl
  | mod m t ih => rw [keepT_mod, ih hT.unmod (fun hh => h (hasHit_mod.2 hh))]
  | node k fs ih =>
      rw [keepT_node hA, map_id_of, remake_canon hT.canon]
      intro t ht
      exact ih t ht (hT.fields t ht) fun hh => h ((hasHit_node hA).2 ⟨t, ht, hh⟩)

theorem keepT_clean {A : Ty} {b : Leaf} (hA : ∀ k fs, W.sub (.node k fs) A = false)
    (hB : W.sub (.leaf b) A = false) (T : Ty) (hT : Built W T) : ¬ HasHit W A (keepT W A (.leaf b) T) := by
  have leafB : ¬ HasHit W A (.leaf b) := by
    rintro ⟨s, rfl | hs, h⟩
    · simp [Ty.unwrap, hB] at h
    · exact below_leaf hs
  induction T using Ty.induct with
  | leaf l =>
      cases hs : W.sub (.leaf l) A with
      | true =>
          rw [keepT, substT_hit (T' := .leaf b) (by simp [keepF, Ty.isModified, hs])]
          exact leafB
      | false =>
          have : keepT W A (.leaf b) (.leaf l) = .leaf l := by rw [keepT, substT]; simp [keepF, Ty.isModified, hs]
          rw [this]
          rintro ⟨s, rfl | h1, h2⟩
          · simp [Ty.unwrap, hs] at h2
          · exact below_leaf h1
  | enum l =>
      cases hs : W.sub (.enum l) A with
      | true =>
          rw [keepT, substT_hit (T' := .leaf b) (by simp [keepF, Ty.isModified, hs])]
          exact leafB
      | false =>
          have : keepT W A (.leaf b) (.enum l) = .enum l := by rw [keepT, substT]; simp [keepF, Ty.isModified, hs]
          rw [this]
          rintro ⟨s, rfl | h1, h2⟩
          · simp [Ty.unwrap, hs] at h2
          · exact below_enum h1
  | mod m t ih => rw [keepT_mod, hasHit_mod]; exact ih hT.unmod
  | node k fs ih =>
      rw [keepT_node hA]
      obtain ⟨k', fs', he, -, -, hm⟩ := remake_eq (W := W) k (fs.map (keepT W A (.leaf b)))
      rw [he, hasHit_node hA]
      rintro ⟨t, ht, hh⟩
      obtain ⟨s, hs, rfl⟩ := List.mem_map.1 (hm t ht)
      exact ih s hs (hT.fields s hs) hh

theorem keepT_good {A : Ty} {b : Leaf} (hA : ∀ k fs, W.sub (.node k fs) A = false) (T : Ty) (hT : Built W T)
    (hp : T.All Con.Bare OnLeaf) :
    Built W (keepT W A (.leaf b) T) ∧ (keepT W A (.leaf b) T).All Con.Bare OnLeaf ∧
      ((T.view = none ∧ (keepT W A (.leaf b) T).view = none) ∨ T.view ≠ none) ∧
      ∀ m, T.hasMod m = false → (keepT W A (.leaf b) T).hasMod m = false := by
  induction T using Ty.induct with
  | leaf l =>
      cases hs : W.sub (.leaf l) A with
      | true =>
          rw [keepT, substT_hit (T' := .leaf b) (by simp [keepF, Ty.isModified, hs])]
          exact ⟨.leaf _, .leaf _, .inl ⟨rfl, rfl⟩, fun _ _ => rfl⟩
      | false =>
          have : keepT W A (.leaf b) (.leaf l) = .leaf l := by rw [keepT, substT]; simp [keepF, Ty.isModified, hs]
          rw [this]
          exact ⟨.leaf _, .leaf _, .inl ⟨rfl, rfl⟩, fun _ _ => rfl⟩
  | enum l =>
      cases hs : W.sub (.enum l) A with
      | true =>
          rw [keepT, substT_hit (T' := .leaf b) (by simp [keepF, Ty.isModified, hs])]
          exact ⟨.leaf _, .leaf _, .inl ⟨rfl, rfl⟩, fun _ _ => rfl⟩
      | false =>
          have : keepT W A (.leaf b) (.enum l) = .enum l := by rw [keepT, substT]; simp [keepF, Ty.isModified, hs]
          rw [this]
          exact ⟨.enum _, .enum _, .inl ⟨rfl, rfl⟩, fun _ _ => rfl⟩
  | mod m t ih =>
      cases hp with
      | mod _ _ hm hp =>
      obtain ⟨h1, h2, h3, h4⟩ := ih hT.unmod hp
      rw [keepT_mod]
      have h3' : (keepT W A (.leaf b) t).view = none := by
        rcases h3 with h3 | h3
        · exact h3.2
        · exact absurd hm h3
      refine ⟨.mod m _ _ h1 (applyMod_ok.2 ⟨h4 m hT.noMod, rfl⟩), .mod _ _ h3' h2,
        .inl ⟨view_fieldless hm, view_fieldless h3'⟩, ?_⟩
      intro m' hm'
      simp only [Ty.hasMod, Bool.or_eq_false_iff] at hm' ⊢
      exact ⟨hm'.1, h4 m' hm'.2⟩
  | node k fs ih =>
      cases hp with
      | node _ _ hk hp =>
      rw [keepT_node hA]
      obtain ⟨h1, h2⟩ := remake_good (g := keepT W A (.leaf b)) hT hk fun t ht =>
        ⟨(ih t ht (hT.fields t ht) (hp t ht)).1, (ih t ht (hT.fields t ht) (hp t ht)).2.1⟩
      refine ⟨h1, h2, .inr (by simp [Ty.view]), ?_⟩
      intro m hm
      rw [hasMod_remake]
      exact hm

/-- Replacement of a class that does not occur below. -/
theorem substT_flat {f f' : Ty} (y : Ty) (hT : Built W y) (h : ¬ f.Below y) :
    substT W (rebF W f f' false) Ty.mod y = if y = f then f' else y := by
  by_cases hy : y = f
  · rw [if_pos hy, substT_hit (T' := f') (by simp [rebF, hit, hy])]
  · rw [if_neg hy]
    induction y using Ty.induct with
    | leaf l => simp [substT, rebF, hit, hy, Ty.isModified]
    | enum l => simp [substT, rebF, hit, hy, Ty.isModified]
    | mod m t ih => exact substT_hit (by simp [rebF, hit, hy, Ty.isModified])
    | node k fs ih =>
        have : rebF W f f' false (.node k fs) = none := by simp [rebF, hit, hy, Ty.isModified]
        rw [substT, this, Option.getD_none, substL_eq, map_id_of, remake_canon hT.canon]
        intro t ht
        apply ih t ht (hT.fields t ht)
        · exact fun hb => h (below_trans_field ht hb)
        · rintro rfl; exact h (below_field ht)

theorem substT_same (f : Ty) (y : Ty) (hT : Built W y) : substT W (rebF W f f false) Ty.mod y = y := by
  induction y using Ty.induct with
  | leaf l => by_cases h : Ty.leaf l = f <;> simp [substT, rebF, hit, h, Ty.isModified]
  | enum l => by_cases h : Ty.enum l = f <;> simp [substT, rebF, hit, h, Ty.isModified]
  | mod m t ih =>
      by_cases h : Ty.mod m t = f
      · exact substT_hit (by simp [rebF, hit, h])
      · exact substT_hit (by simp [rebF, hit, h, Ty.isModified])
  | node k fs ih =>
      by_cases h : Ty.node k fs = f
      · exact substT_hit (by simp [rebF, hit, h])
      · have : rebF W f f false (.node k fs) = none := by simp [rebF, hit, h, Ty.isModified]
        rw [substT, this, Option.getD_none, substL_eq, map_id_of, remake_canon hT.canon]
        exact fun t ht => ih t ht (hT.fields t ht)

theorem keepLoop_eq {A : Ty} {b : Leaf} (hA : ∀ k fs, W.sub (.node k fs) A = false)
    (hB : W.sub (.leaf b) A = false) {k fs} (hT : Built W (.node k fs)) (hk : k.Bare)
    (hp : ∀ t ∈ fs, t.All Con.Bare OnLeaf) (hap : ∀ f ∈ fs, HasHit W A f → ∀ x ∈ fs, ¬ f.Below x)
    (hg : ∀ t ∈ fs, Ty.rebindKeep W A (.leaf b) t [] = .ok (keepT W A (.leaf b) t))
    (l : List Ty) (hl : ∀ t ∈ l, t ∈ fs) (φ : Ty → Ty)
    (hφ : ∀ x ∈ fs, φ x = x ∨ φ x = keepT W A (.leaf b) x) :
    Ty.keepLoop W A (.leaf b) l (remake W k (fs.map φ)) =
      .ok (remake W k (fs.map (seqMap (l.map fun x => (x, keepT W A (.leaf b) x)) ∘ φ))) := by
  induction l generalizing φ with
  | nil => rw [Ty.keepLoop]; rfl
  | cons f l ih =>
      have hf : f ∈ fs := hl f (by simp)
      have hφgood : ∀ x ∈ fs, Built W (φ x) ∧ (φ x).All Con.Bare OnLeaf := by
        intro x hx
        rcases hφ x hx with h | h
        · rw [h]; exact ⟨hT.fields x hx, hp x hx⟩
        · rw [h]
          have := keepT_good (b := b) hA x (hT.fields x hx) (hp x hx)
          exact ⟨this.1, this.2.1⟩
      obtain ⟨h1, h2⟩ := remake_good (g := φ) hT hk hφgood
      obtain ⟨k', fs', he, -, -, -⟩ := remake_eq (W := W) k (fs.map φ)
      have hfits := hT.canon.fits.congr (fs' := fs.map φ) (by simp)
      have key : ∀ x ∈ fs, substT W (rebF W f (keepT W A (.leaf b) f) false) Ty.mod (φ x) =
          if φ x = f then keepT W A (.leaf b) f else φ x := by
        intro x hx
        by_cases hh : HasHit W A f
        · apply substT_flat _ (hφgood x hx).1
          rcases hφ x hx with h | h
          · rw [h]; exact hap f hf hh x hx
          · rw [h]
            exact fun hb => keepT_clean hA hB x (hT.fields x hx) (hasHit_below hb hh)
        · rw [keepT_noHit hA f (hT.fields f hf) hh, substT_same f _ (hφgood x hx).1]
          split
          · rename_i h; exact h
          · rfl
      have hr : Ty.rebind W f (keepT W A (.leaf b) f) false true (remake W k (fs.map φ)) =
          .ok (remake W k (fs.map fun x => if φ x = f then keepT W A (.leaf b) f else φ x)) := by
        rw [he] at h1 h2 ⊢
        rw [rebind_eq h1 h2, remake_comp he hfits, List.map_map]
        congr 2
        apply List.map_congr_left
        exact key
      rw [Ty.keepLoop, hg f hf, pyBindOk, hr, pyBindOk, ih (fun t ht => hl t (by simp [ht]))]
      · rfl
      · intro x hx
        split
        · rename_i h
          rcases hφ x hx with h' | h'
          · right; rw [← h, h']
          · by_cases hh : HasHit W A f
            · exfalso
              rw [← h, h'] at hh
              exact keepT_clean hA hB x (hT.fields x hx) hh
            · right; rw [keepT_noHit hA f (hT.fields f hf) hh, ← h, h']
        · exact hφ x hx

theorem keep_idem {A : Ty} {b : Leaf} (hA : ∀ k fs, W.sub (.node k fs) A = false)
    (hB : W.sub (.leaf b) A = false) (T : Ty) (hT : Built W T) (hp : T.All Con.Bare OnLeaf) :
    keepT W A (.leaf b) (keepT W A (.leaf b) T) = keepT W A (.leaf b) T :=
  keepT_noHit hA _ (keepT_good hA T hT hp).1 (keepT_clean hA hB T hT)

theorem keepT_rewrap (A B t ms) : keepT W A B (rewrap t ms) = rewrap (keepT W A B t) ms := by
  induction ms generalizing t with
  | nil => rfl
  | cons m ms ih =>
      have h : ∀ t, rewrap t (m :: ms) = rewrap (.mod m t) ms := fun _ => rfl
      rw [h, h, ih, keepT_mod]

theorem all_core {P M} (T : Ty) (h : T.All P M) : T.unwrap.1.All P M := by
  induction T using Ty.induct with
  | mod m t ih => cases h with | mod _ _ _ h => exact ih h
  | _ => simpa [Ty.unwrap] using h

theorem rebindKeep_goal {A : Ty} {b : Leaf} (hA : ∀ k fs, W.sub (.node k fs) A = false)
    (hB : W.sub (.leaf b) A = false) (T : Ty) (hT : Built W T) (hp : T.All Con.Bare OnLeaf)
    (hap : Apart W A T) : ∀ mods, Ty.rebindKeep W A (.leaf b) T mods =
      wrap (keepT W A (.leaf b) T.unwrap.1) (T.unwrap.2 ++ mods) := by
  induction T using Ty.induct with
  | leaf l =>
      intro mods
      rw [Ty.rebindKeep, wrapIf_eq]
      cases hs : W.sub (.leaf l) A <;> simp [Ty.unwrap, keepT, substT, keepF, Ty.isModified, hs]
  | enum l =>
      intro mods
      rw [Ty.rebindKeep, wrapIf_eq]
      cases hs : W.sub (.enum l) A <;> simp [Ty.unwrap, keepT, substT, keepF, Ty.isModified, hs]
  | mod m t ih =>
      intro mods
      cases hp with
      | mod _ _ _ hp =>
      cases hap with
      | mod _ _ hap =>
      rw [Ty.rebindKeep, ih hT.unmod hp hap]
      simp [Ty.unwrap]
  | node k fs ih =>
      intro mods
      cases hp with
      | node _ _ hk hp =>
      cases hap with
      | node _ _ hap1 hap2 =>
      have hg : ∀ t ∈ fs, Ty.rebindKeep W A (.leaf b) t [] = .ok (keepT W A (.leaf b) t) := by
        intro t ht
        have hTt := hT.fields t ht
        rw [ih t ht hTt (hp t ht) (hap2 t ht) [], List.append_nil, wrap_ok.2, ← keepT_rewrap, unwrap_rewrap]
        refine ⟨hTt.mods.1, fun m hm => ?_⟩
        exact (keepT_good hA t.unwrap.1 hTt.core (all_core t (hp t ht))).2.2.2 m (hTt.mods.2 m hm)
      have hloop := keepLoop_eq hA hB hT hk hp hap1 hg fs (fun t ht => ht) id (fun x _ => .inl rfl)
      rw [List.map_id, remake_canon hT.canon] at hloop
      rw [Ty.rebindKeep, hA k fs, if_neg (by simp), hloop, pyBindOk]
      simp only [wrapIf_eq]
      simp only [Ty.unwrap, List.nil_append, keepT_node hA]
      congr 2
      apply List.map_congr_left
      intro t ht
      rw [Function.comp_apply, id, seqMap_eq (keepT W A (.leaf b)) fs
        fun x hx => keep_idem hA hB x (hT.fields x hx) (hp x hx), if_pos ht]

theorem rebindKeep_eq {A : Ty} {b : Leaf} (hA : ∀ k fs, W.sub (.node k fs) A = false)
    (hB : W.sub (.leaf b) A = false) (T : Ty) (hT : Built W T) (hp : T.All Con.Bare OnLeaf)
    (hap : Apart W A T) : Ty.rebindKeep W A (.leaf b) T [] = .ok (keepT W A (.leaf b) T) := by
  rw [rebindKeep_goal hA hB T hT hp hap [], List.append_nil, wrap_ok.2, ← keepT_rewrap, unwrap_rewrap]
  refine ⟨hT.mods.1, fun m hm => ?_⟩
  exact (keepT_good hA T.unwrap.1 hT.core (all_core T hp)).2.2.2 m (hT.mods.2 m hm)

/-! ### `rebind_type` -/

theorem bv_good (V : VecSel) (T : Ty) (hT : Built W T) (hp : T.All Con.Bare OnLeaf) :
    Built W (substT W (bvF V false) Ty.mod T) ∧ (substT W (bvF V false) Ty.mod T).All Con.Bare OnLeaf := by
  induction T using Ty.induct with
  | leaf l =>
      cases h : bvF V false (.leaf l) with
      | none => simp only [substT, h, Option.getD_none]; exact ⟨hT, hp⟩
      | some x =>
          rw [substT_hit h]
          unfold bvF at h
          simp only [Ty.isModified, Bool.false_and, Bool.false_eq_true, if_false] at h
          split at h
          · cases h; exact ⟨.leaf _, .leaf _⟩
          · cases h
  | enum e => simp only [substT, bvF_enum, Option.getD_none]; exact ⟨hT, hp⟩
  | mod m t ih =>
      have : ∃ x, bvF V false (.mod m t) = some x ∧ (x = .mod m t ∨ ∃ s, x = .leaf (.vec V.k1 s)) := by
        unfold bvF
        simp only [Ty.isModified, Bool.false_and, Bool.false_eq_true, if_false, if_true]
        split
        · exact ⟨_, rfl, .inr ⟨_, rfl⟩⟩
        · exact ⟨_, rfl, .inl rfl⟩
      obtain ⟨x, h1, h2⟩ := this
      rw [substT_hit h1]
      rcases h2 with rfl | ⟨s, rfl⟩
      · exact ⟨hT, hp⟩
      · exact ⟨.leaf _, .leaf _⟩
  | node k fs ih =>
      cases hp with
      | node _ _ hk hp =>
      rw [substT, bvF_node, Option.getD_none, substL_eq]
      exact remake_good hT hk fun t ht => ih t ht (hT.fields t ht) (hp t ht)

/-- Vectors, then bits. -/
def famF (W : World) (V : VecSel) (A B : Ty) (t : Ty) : Option Ty :=
  if W.sub t A then some B else bvF V false t

theorem fam_comp {V : VecSel} {A B : Ty} (hA : ∀ k fs, W.sub (.node k fs) A = false)
    (hv : ∀ t k s, t.unwrap.1 = .leaf (.vec k s) → W.sub t A = false) (T : Ty) (hT : Built W T) :
    substT W (rebF W A B true) Ty.mod (substT W (bvF V false) Ty.mod T) = substT W (famF W V A B) Ty.mod T := by
  have hvec : ∀ s, substT W (rebF W A B true) Ty.mod (.leaf (.vec V.k1 s)) =
      if Ty.leaf (.vec V.k1 s) = A then B else .leaf (.vec V.k1 s) := by
    intro s
    simp only [substT, rebF, hit, hv (.leaf (.vec V.k1 s)) V.k1 s rfl, Bool.and_false, Bool.or_false,
      decide_eq_true_eq, Ty.isModified, Bool.false_eq_true, if_false]
    split <;> rfl
  have hne : ∀ s, Ty.leaf (.vec V.k1 s) ≠ A := by
    intro s h
    have := hv (.leaf (.vec V.k1 s)) V.k1 s rfl
    rw [h, W.sub_refl] at this
    cases this
  have hhit : ∀ t, hit W A true t = W.sub t A := by
    intro t
    unfold hit
    by_cases h : t = A
    · simp [h, W.sub_refl]
    · simp [h]
  have hsel : ∀ t s, V.selects t = some s → W.sub t A = false := by
    intro t s h
    obtain ⟨k, h, -⟩ := (selects_iff V t s).1 h
    exact hv t k s h
  induction T using Ty.induct with
  | leaf l =>
      cases h : V.selects (.leaf l) with
      | some s =>
          rw [substT_hit (f := bvF V false) (T' := .leaf (.vec V.k1 s)) (by simp [bvF, h]), hvec, if_neg (hne s),
            substT_hit (f := famF W V A B) (T' := .leaf (.vec V.k1 s)) (by simp [famF, bvF, h, hsel _ _ h])]
      | none => simp [substT, bvF, h, famF, rebF, hhit, Ty.isModified]
  | enum e =>
      rw [substT, bvF_enum, Option.getD_none]
      simp [substT, famF, bvF_enum, rebF, hhit, Ty.isModified]
  | mod m t ih =>
      cases h : V.selects (.mod m t) with
      | some s =>
          rw [substT_hit (f := bvF V false) (T' := .leaf (.vec V.k1 s)) (by simp [bvF, h]), hvec, if_neg (hne s),
            substT_hit (f := famF W V A B) (T' := .leaf (.vec V.k1 s)) (by simp [famF, bvF, h, hsel _ _ h])]
      | none =>
          rw [substT_hit (f := bvF V false) (T' := .mod m t) (by simp [bvF, h, Ty.isModified])]
          cases hs : W.sub (.mod m t) A with
          | true =>
              rw [substT_hit (T' := B) (by simp [rebF, hhit, hs]), substT_hit (T' := B) (by simp [famF, hs])]
          | false =>
              rw [substT_hit (T' := .mod m t) (by simp [rebF, hhit, hs, Ty.isModified]),
                substT_hit (T' := .mod m t) (by simp [famF, hs, bvF, h, Ty.isModified])]
  | node k fs ih =>
      have h1 : famF W V A B (.node k fs) = none := by simp [famF, hA, bvF_node]
      rw [substT, bvF_node, Option.getD_none, substL_eq]
      conv_rhs => rw [substT, h1, Option.getD_none, substL_eq]
      obtain ⟨k', fs', he, -, -, -⟩ := remake_eq (W := W) k (fs.map (substT W (bvF V false) Ty.mod))
      have h2 : rebF W A B true (.node k' fs') = none := by simp [rebF, hhit, hA, Ty.isModified]
      rw [he, substT, h2, Option.getD_none, substL_eq,
        remake_comp he (hT.canon.fits.congr (by simp)), List.map_map]
      congr 1
      apply List.map_congr_left
      exact fun t ht => ih t ht (hT.fields t ht)

theorem rebindType_eq {V : VecSel} {A B : Ty} (hA : ∀ k fs, W.sub (.node k fs) A = false)
    (hv : ∀ t k s, t.unwrap.1 = .leaf (.vec k s) → W.sub t A = false)
    {k fs} (hT : Built W (.node k fs)) (hp : (Ty.node k fs).All Con.Bare OnLeaf) :
    rebindType W V A B (.node k fs) = .ok (substT W (famF W V A B) Ty.mod (.node k fs)) := by
  have h1 := rebindBV_eq V false (.node k fs) hT (by
    clear hv hA
    generalize Ty.node k fs = T at hp
    induction hp with
    | leaf l => exact .leaf l
    | enum e => exact .enum e
    | node k fs hk _ ih => exact .node k fs hk ih
    | mod m t hm _ ih => exact .mod m t (.inr hm) ih)
  obtain ⟨hg1, hg2⟩ := bv_good V _ hT hp
  rw [rebindType, h1, pyBindOk]
  have h2 := fam_comp (B := B) (V := V) hA hv _ hT
  have h3 : famF W V A B (.node k fs) = none := by simp [famF, hA, bvF_node]
  rw [← h2]
  rw [substT, bvF_node, Option.getD_none, substL_eq] at hg1 hg2 ⊢
  obtain ⟨k', fs', he, -, -, -⟩ := remake_eq (W := W) k (fs.map (substT W (bvF V false) Ty.mod))
  rw [he] at hg1 hg2 ⊢
  have h4 : rebF W A B true (.node k' fs') = none := by
    simp only [rebF, hit, hA, Bool.and_false, Bool.or_false, Ty.isModified, Bool.false_eq_true, if_false,
      ite_eq_right_iff, reduceCtorEq, imp_false, decide_eq_true_eq]
    rintro rfl
    have := hA k' fs'
    rw [W.sub_refl] at this
    cases this
  rw [rebind_eq hg1 hg2, substT, h4, Option.getD_none, substL_eq]

end HW.Adt
