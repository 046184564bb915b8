import Verif.Lemmas.Adt.Modifier

/-! # Lemmas on `strip_modifiers`, `push_modifiers` and visitors -/

namespace HW.Adt

variable {W : World}

theorem buildSame_eq {k : Con} {fs} (hb : k.Bare) : buildSame W k fs = .ok (remake W k fs) := by
  obtain ⟨shape, base, name, ns, names⟩ := k
  obtain ⟨h1, h2⟩ := hb
  dsimp only at h1 h2
  subst h2
  cases shape <;> first | rfl | exact absurd rfl h1

/-- `strip_modifiers` as a function. -/
def stripT (W : World) (t : Ty) : Ty := substT W (fun _ => none) (fun _ t => t) t

theorem stripT_node (k fs) : stripT W (.node k fs) = remake W k (fs.map (stripT W)) := by
  rw [stripT, substT, Option.getD_none, substL_eq]; rfl

theorem stripT_mod (m t) : stripT W (.mod m t) = stripT W t := by
  rw [stripT, substT, Option.getD_none]; rfl

theorem stripT_leaf (l) : stripT W (.leaf l) = .leaf l := by rw [stripT, substT]; rfl
theorem stripT_enum (l) : stripT W (.enum l) = .enum l := by rw [stripT, substT]; rfl

theorem strips_eq {fs} {g : Ty → Ty} (h : ∀ t ∈ fs, t.strip W = .ok (g t)) : Ty.strips W fs = .ok (fs.map g) := by
  induction fs with
  | nil => rw [Ty.strips]; rfl
  | cons t ts ih =>
      rw [Ty.strips, h t (by simp), ih fun t ht => h t (by simp [ht])]
      rfl

theorem strip_eq (T : Ty) (hp : T.All Con.Bare (fun _ _ => True)) : T.strip W = .ok (stripT W T) := by
  induction T using Ty.induct with
  | leaf l => rw [Ty.strip, stripT_leaf] <;> simp
  | enum l => rw [Ty.strip, stripT_enum] <;> simp
  | mod m t ih =>
      cases hp with
      | mod _ _ _ h => rw [Ty.strip, stripT_mod, ih h]
  | node k fs ih =>
      cases hp with
      | node _ _ hk h =>
      rw [Ty.strip, strips_eq fun t ht => ih t ht (h t ht), pyBindOk, buildSame_eq hk, stripT_node]

theorem stripT_noMods (T : Ty) (hT : Built W T) : (stripT W T).NoMods := by
  induction T using Ty.induct with
  | leaf l => rw [stripT_leaf]; exact .leaf l
  | enum l => rw [stripT_enum]; exact .enum l
  | mod m t ih => rw [stripT_mod]; exact ih hT.unmod
  | node k fs ih =>
      rw [stripT_node]
      obtain ⟨k', fs', he, -, -, hm⟩ := remake_eq (W := W) k (fs.map (stripT W))
      rw [he]
      refine .node _ _ trivial fun t ht => ?_
      obtain ⟨s, hs, rfl⟩ := List.mem_map.1 (hm t ht)
      exact ih s hs (hT.fields s hs)

theorem stripT_built (T : Ty) (hT : Built W T) : Built W (stripT W T) := by
  induction T using Ty.induct with
  | leaf l => rw [stripT_leaf]; exact .leaf l
  | enum l => rw [stripT_enum]; exact .enum l
  | mod m t ih => rw [stripT_mod]; exact ih hT.unmod
  | node k fs ih =>
      rw [stripT_node]
      refine remake_built (hT.canon.fits.congr (by simp)) fun t ht => ?_
      obtain ⟨s, hs, rfl⟩ := List.mem_map.1 ht
      exact ih s hs (hT.fields s hs)

theorem stripT_bare (T : Ty) (hT : Built W T) (hp : T.All Con.Bare (fun _ _ => True)) :
    (stripT W T).All Con.Bare (fun _ _ => False) := by
  induction T using Ty.induct with
  | leaf l => rw [stripT_leaf]; exact .leaf l
  | enum l => rw [stripT_enum]; exact .enum l
  | mod m t ih =>
      cases hp with
      | mod _ _ _ h => rw [stripT_mod]; exact ih hT.unmod h
  | node k fs ih =>
      cases hp with
      | node _ _ hk h =>
      rw [stripT_node]
      obtain ⟨k', fs', he, -, -, hm⟩ := remake_eq (W := W) k (fs.map (stripT W))
      rw [he]
      refine .node _ _ (bare_remake he (hT.canon.fits.congr (by simp)) hk) fun t ht => ?_
      obtain ⟨s, hs, rfl⟩ := List.mem_map.1 (hm t ht)
      exact ih s hs (hT.fields s hs) (h s hs)

theorem Ty.All.mono {P P' : Con → Prop} {M M' : ModId → Ty → Prop} {T : Ty} (h : T.All P M)
    (hP : ∀ k, P k → P' k) (hM : ∀ m t, M m t → M' m t) : T.All P' M' := by
  induction h with
  | leaf l => exact .leaf l
  | enum e => exact .enum e
  | node k fs h1 _ ih => exact .node _ _ (hP _ h1) ih
  | mod m t h1 _ ih => exact .mod _ _ (hM _ _ h1) ih

theorem stripT_of_noMods (T : Ty) (hT : Built W T) (h : T.NoMods) : stripT W T = T := by
  induction T using Ty.induct with
  | leaf l => exact stripT_leaf l
  | enum l => exact stripT_enum l
  | mod m t ih => cases h with | mod _ _ h _ => exact h.elim
  | node k fs ih =>
      cases h with
      | node _ _ _ h =>
      rw [stripT_node, map_id_of fun t ht => ih t ht (hT.fields t ht) (h t ht), remake_canon hT.canon]

/-! ### `push_modifiers` -/

mutual
def pushT (W : World) : Ty → List ModId → Ty
  | .leaf l, ms => rewrap (.leaf l) ms
  | .enum l, ms => rewrap (.enum l) ms
  | .mod m t, ms => pushT W t (m :: ms)
  | .node k fs, ms => remake W k (pushL W fs ms)
def pushL (W : World) : List Ty → List ModId → List Ty
  | [], _ => []
  | t :: ts, ms => pushT W t ms :: pushL W ts ms
end

theorem pushL_eq (l : List Ty) (ms) : pushL W l ms = l.map fun t => pushT W t ms := by
  induction l with
  | nil => rw [pushL]; rfl
  | cons a l ih => rw [pushL, ih]; rfl

theorem pushs_cases {fs : List Ty} {ms} {R : Ty → Prop} {g : Ty → Ty}
    (h : ∀ t ∈ fs, (R t ∧ t.push W ms = .ok (g t)) ∨ (¬ R t ∧ t.push W ms = .error .typeError)) :
    ((∀ t ∈ fs, R t) ∧ Ty.pushs W fs ms = .ok (fs.map g)) ∨
      (¬ (∀ t ∈ fs, R t) ∧ Ty.pushs W fs ms = .error .typeError) := by
  induction fs with
  | nil => left; exact ⟨by simp, by rw [Ty.pushs]; rfl⟩
  | cons t ts ih =>
      rw [Ty.pushs]
      rcases h t (by simp) with ⟨h1, h2⟩ | ⟨h1, h2⟩
      · rw [h2, pyBindOk]
        rcases ih fun t ht => h t (by simp [ht]) with ⟨h3, h4⟩ | ⟨h3, h4⟩
        · left
          rw [h4]
          refine ⟨?_, rfl⟩
          intro x hx
          rcases List.mem_cons.1 hx with hx | hx
          · exact hx ▸ h1
          · exact h3 x hx
        · right
          rw [h4]
          exact ⟨fun hh => h3 fun x hx => hh x (by simp [hx]), rfl⟩
      · right
        rw [h2]
        exact ⟨fun hh => h1 (hh t (by simp)), rfl⟩

theorem push_cases (T : Ty) (hp : T.All Con.Bare (fun _ _ => True)) :
    ∀ ms, (PathsNodup ms T ∧ T.push W ms = .ok (pushT W T ms)) ∨
      (¬ PathsNodup ms T ∧ T.push W ms = .error .typeError) := by
  have base : ∀ (t : Ty) (ms : List ModId), (∀ m, t.hasMod m = false) →
      (ms.Nodup ∧ wrap t ms = .ok (rewrap t ms)) ∨ (¬ ms.Nodup ∧ wrap t ms = .error .typeError) := by
    intro t ms h
    by_cases hn : ms.Nodup
    · left; exact ⟨hn, wrap_ok.2 ⟨hn, fun m _ => h m⟩⟩
    · right; exact ⟨hn, by rw [wrap, if_neg hn]⟩
  induction T using Ty.induct with
  | leaf l =>
      intro ms
      have h1 : (Ty.leaf l).push W ms = wrap (.leaf l) ms := by rw [Ty.push] <;> simp
      rw [h1, pushT]
      rcases base (.leaf l) ms (fun _ => rfl) with ⟨h, h'⟩ | ⟨h, h'⟩
      · exact .inl ⟨.leaf h, h'⟩
      · exact .inr ⟨fun hh => by cases hh with | leaf hh => exact h hh, h'⟩
  | enum l =>
      intro ms
      have h1 : (Ty.enum l).push W ms = wrap (.enum l) ms := by rw [Ty.push] <;> simp
      rw [h1, pushT]
      rcases base (.enum l) ms (fun _ => rfl) with ⟨h, h'⟩ | ⟨h, h'⟩
      · exact .inl ⟨.enum h, h'⟩
      · exact .inr ⟨fun hh => by cases hh with | enum hh => exact h hh, h'⟩
  | mod m t ih =>
      intro ms
      cases hp with
      | mod _ _ _ h =>
      rw [Ty.push, pushT]
      rcases ih h (m :: ms) with ⟨h1, h2⟩ | ⟨h1, h2⟩
      · exact .inl ⟨.mod h1, h2⟩
      · exact .inr ⟨fun hh => by cases hh with | mod hh => exact h1 hh, h2⟩
  | node k fs ih =>
      intro ms
      cases hp with
      | node _ _ hk h =>
      rw [Ty.push, pushT, pushL_eq]
      rcases pushs_cases (W := W) (fs := fs) (ms := ms) (R := PathsNodup ms) (g := fun t => pushT W t ms)
        fun t ht => ih t ht (h t ht) ms with ⟨h1, h2⟩ | ⟨h1, h2⟩
      · left
        rw [h2, pyBindOk, buildSame_eq hk]
        exact ⟨.node h1, rfl⟩
      · right
        rw [h2]
        exact ⟨fun hh => by cases hh with | node hh => exact h1 hh, rfl⟩

theorem stripT_rewrap (t ms) : stripT W (rewrap t ms) = stripT W t := by
  induction ms generalizing t with
  | nil => rfl
  | cons m ms ih =>
      have h : rewrap t (m :: ms) = rewrap (.mod m t) ms := rfl
      rw [h, ih, stripT_mod]

theorem stripT_pushT (T : Ty) (hT : Built W T) : ∀ ms, stripT W (pushT W T ms) = stripT W T := by
  induction T using Ty.induct with
  | leaf l => intro ms; rw [pushT, stripT_rewrap]
  | enum l => intro ms; rw [pushT, stripT_rewrap]
  | mod m t ih => intro ms; rw [pushT, stripT_mod, ih hT.unmod]
  | node k fs ih =>
      intro ms
      rw [pushT, pushL_eq, stripT_node]
      obtain ⟨k', fs', he, -, -, -⟩ := remake_eq (W := W) k (fs.map fun t => pushT W t ms)
      rw [he, stripT_node, remake_comp he (hT.canon.fits.congr (by simp)), List.map_map]
      congr 1
      apply List.map_congr_left
      intro t ht
      exact ih t ht (hT.fields t ht) ms

theorem pushT_pushed (T : Ty) (hT : Built W T) : ∀ ms, Pushed ms T (pushT W T ms) := by
  induction T using Ty.induct with
  | leaf l => intro ms; rw [pushT]; exact .leaf (by rw [rewrap_unwrap]; rfl)
  | enum l => intro ms; rw [pushT]; exact .enum (by rw [rewrap_unwrap]; rfl)
  | mod m t ih => intro ms; rw [pushT]; exact .mod (ih hT.unmod _)
  | node k fs ih =>
      intro ms
      rw [pushT, pushL_eq]
      have hc := hT.canon
      have h : ∀ t ∈ fs, Pushed ms t ((fun t => pushT W t ms) t) := fun t ht => ih t ht (hT.fields t ht) ms
      generalize (fun t => pushT W t ms) = g at h
      obtain ⟨shape, base, name, ns, names⟩ := k
      have hord : ∀ (i : Nat) (t t' : Ty), fs[i]? = some t → (fs.map g)[i]? = some t' → Pushed ms t t' := by
        intro i t t' ht ht'
        rw [List.getElem?_map, ht] at ht'
        cases ht'
        exact h t (List.mem_of_getElem? ht)
      cases shape <;> simp only [Canon] at hc
      · obtain ⟨rfl, rfl, rfl⟩ := hc
        exact .ordered (by simp) (by simp) (by simp) hord
      · obtain ⟨rfl, rfl, _⟩ := hc
        exact .ordered (by simp) (by simp) (by simp) hord
      · exact .ordered (by simp) (by simp) (by simp) hord
      · obtain ⟨rfl, rfl, rfl, _⟩ := hc
        exact .sum g rfl (W.nodup_canon _) h fun t' => by rw [W.mem_canon, List.mem_map]
      · obtain ⟨hl, hnd, _⟩ := hc
        have hp := W.perm_canonF ⟨.tagged, base, name, ns, names⟩ (names.zip (fs.map g))
        have hp1 := hp.map Prod.fst
        rw [List.map_fst_zip (by simp; omega)] at hp1
        refine Pushed.tagged (k := ⟨.tagged, base, name, ns, names⟩) (names' := _) rfl hp1 hl.symm (by simp) ?_
        intro n t t' hm hm'
        dsimp only at hm hm'
        rw [zip_unzip] at hm'
        have hm'' := hp.mem_iff.1 hm'
        obtain ⟨i, hi, he⟩ := List.getElem_of_mem hm
        obtain ⟨j, hj, he'⟩ := List.getElem_of_mem hm''
        simp only [List.getElem_zip, Prod.mk.injEq, List.getElem_map] at he he'
        have : i = j := by
          apply (List.Nodup.getElem_inj_iff hnd).1
          rw [he.1, he'.1]
        subst this
        rw [← he'.2, he.2]
        exact h t (he.2 ▸ List.getElem_mem _)

theorem all_rewrap {P : Con → Prop} {t ms} (h : t.view = none) (ht : t.All P OnLeaf) : (rewrap t ms).All P OnLeaf := by
  induction ms generalizing t with
  | nil => exact ht
  | cons m ms ih =>
      have e : rewrap t (m :: ms) = rewrap (.mod m t) ms := rfl
      rw [e]
      exact ih (view_fieldless h) (.mod _ _ h ht)

theorem pushT_onLeaf (T : Ty) (hT : Built W T) : ∀ ms, (pushT W T ms).All (fun _ => True) OnLeaf := by
  induction T using Ty.induct with
  | leaf l => intro ms; rw [pushT]; exact all_rewrap rfl (.leaf l)
  | enum l => intro ms; rw [pushT]; exact all_rewrap rfl (.enum l)
  | mod m t ih => intro ms; rw [pushT]; exact ih hT.unmod _
  | node k fs ih =>
      intro ms
      rw [pushT, pushL_eq]
      obtain ⟨k', fs', he, -, -, hm⟩ := remake_eq (W := W) k (fs.map fun t => pushT W t ms)
      rw [he]
      refine .node _ _ trivial fun t ht => ?_
      obtain ⟨s, hs, rfl⟩ := List.mem_map.1 (hm t ht)
      exact ih s hs (hT.fields s hs) ms

theorem pushT_bare (T : Ty) (hT : Built W T) (hp : T.All Con.Bare (fun _ _ => True)) :
    ∀ ms, (pushT W T ms).All Con.Bare (fun _ _ => True) := by
  have hr : ∀ (t : Ty) (ms : List ModId), t.All Con.Bare (fun _ _ => True) →
      (rewrap t ms).All Con.Bare (fun _ _ => True) := by
    intro t ms
    induction ms generalizing t with
    | nil => exact fun h => h
    | cons m ms ih => exact fun h => ih (.mod m t) (.mod _ _ trivial h)
  induction T using Ty.induct with
  | leaf l => intro ms; rw [pushT]; exact hr _ _ (.leaf l)
  | enum l => intro ms; rw [pushT]; exact hr _ _ (.enum l)
  | mod m t ih =>
      intro ms
      cases hp with
      | mod _ _ _ h => rw [pushT]; exact ih hT.unmod h _
  | node k fs ih =>
      intro ms
      cases hp with
      | node _ _ hk h =>
      rw [pushT, pushL_eq]
      obtain ⟨k', fs', he, -, -, hm⟩ := remake_eq (W := W) k (fs.map fun t => pushT W t ms)
      rw [he]
      refine .node _ _ (bare_remake he (hT.canon.fits.congr (by simp)) hk) fun t ht => ?_
      obtain ⟨s, hs, rfl⟩ := List.mem_map.1 (hm t ht)
      exact ih s hs (hT.fields s hs) (h s hs) ms

/-! ### Visitors -/

theorem visits_eq {fs : List Ty} (h : ∀ t ∈ fs, t.visit true = .ok (t.nodes.map Ty.ev)) :
    Ty.visits true fs = .ok ((Ty.nodesL fs).map Ty.ev) := by
  induction fs with
  | nil => rw [Ty.visits, Ty.nodesL]; rfl
  | cons t ts ih =>
      have h1 := h t (by simp)
      rw [Ty.visit] at h1
      rw [Ty.visits, h1, ih fun t ht => h t (by simp [ht]), Ty.nodesL, List.map_append]
      rfl

theorem visitFrom_eq (T : Ty) : ∀ whole : Ty, whole.unwrap.1 = T.unwrap.1 →
    Ty.visitFrom true whole T = .ok ((whole :: T.subnodes).map Ty.ev) := by
  induction T using Ty.induct with
  | leaf l => intro w hw; rw [Ty.visitFrom, Ty.subnodes]; simp_all [Ty.ev, Ty.unwrap]
  | enum l => intro w hw; rw [Ty.visitFrom, Ty.subnodes]; simp_all [Ty.ev, Ty.unwrap]
  | mod m t ih => intro w hw; rw [Ty.visitFrom, Ty.subnodes]; exact ih w hw
  | node k fs ih =>
      intro w hw
      rw [Ty.visitFrom, visits_eq fun t ht => by rw [Ty.visit, ih t ht t rfl, Ty.nodes], pyBindOk, Ty.subnodes]
      simp only [Ty.unwrap] at hw
      simp only [List.map_cons, Ty.ev, hw]
      cases k.shape <;> rfl

theorem visits_false_cases {fs : List Ty}
    (h : ∀ t ∈ fs, (t.leaves ≠ [] ∧ t.visit false = .error .attributeError) ∨
      (t.leaves = [] ∧ ∃ l, t.visit false = .ok l)) :
    ((Ty.nodesL fs).filter Ty.isLeaf ≠ [] ∧ Ty.visits false fs = .error .attributeError) ∨
      ((Ty.nodesL fs).filter Ty.isLeaf = [] ∧ ∃ l, Ty.visits false fs = .ok l) := by
  induction fs with
  | nil => right; exact ⟨by simp [Ty.nodesL], _, by rw [Ty.visits]⟩
  | cons t ts ih =>
      have e : (Ty.nodesL (t :: ts)).filter Ty.isLeaf = t.leaves ++ (Ty.nodesL ts).filter Ty.isLeaf := by
        rw [Ty.nodesL, List.filter_append]; rfl
      rw [Ty.visits, e]
      rcases h t (by simp) with ⟨h1, h2⟩ | ⟨h1, l, h2⟩
      · left
        rw [Ty.visit] at h2
        rw [h2]
        exact ⟨by simp [h1], rfl⟩
      · rw [Ty.visit] at h2
        rw [h2, pyBindOk, h1, List.nil_append]
        rcases ih fun t ht => h t (by simp [ht]) with ⟨h3, h4⟩ | ⟨h3, l', h4⟩
        · left; rw [h4]; exact ⟨h3, rfl⟩
        · right; rw [h4]; exact ⟨h3, _, rfl⟩

theorem visit_false_cases (T : Ty) : ∀ whole : Ty,
    (T.leaves ≠ [] ∧ Ty.visitFrom false whole T = .error .attributeError) ∨
      (T.leaves = [] ∧ ∃ l, Ty.visitFrom false whole T = .ok l) := by
  induction T using Ty.induct with
  | leaf l =>
      intro w; left
      exact ⟨by simp [Ty.leaves, Ty.nodes, Ty.isLeaf, Ty.unwrap], by rw [Ty.visitFrom]; rfl⟩
  | enum l =>
      intro w; right
      exact ⟨by simp [Ty.leaves, Ty.nodes, Ty.isLeaf, Ty.unwrap, Ty.subnodes], _, by rw [Ty.visitFrom]⟩
  | mod m t ih =>
      intro w
      have : (Ty.mod m t).leaves = [] ↔ t.leaves = [] := by
        have h : (Ty.mod m t).isLeaf = t.isLeaf := rfl
        simp only [Ty.leaves, Ty.nodes, Ty.subnodes, List.filter_cons, h]
        cases t.isLeaf <;> simp
      rw [Ty.visitFrom, Ne, this]
      exact ih w
  | node k fs ih =>
      intro w
      have : (Ty.node k fs).leaves = (Ty.nodesL fs).filter Ty.isLeaf := by
        simp [Ty.leaves, Ty.nodes, Ty.isLeaf, Ty.unwrap, Ty.subnodes]
      rw [Ty.visitFrom, this]
      rcases visits_false_cases fun t ht => ih t ht t with ⟨h3, h4⟩ | ⟨h3, l', h4⟩
      · left; rw [h4]; exact ⟨h3, rfl⟩
      · right; rw [h4]; exact ⟨h3, _, rfl⟩

end HW.Adt
