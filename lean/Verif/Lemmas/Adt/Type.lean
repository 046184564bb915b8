import Mathlib.Data.List.Zip
import Mathlib.Data.List.Basic
import Verif.Spec.Adt

/-! # Lemmas on ADT classes -/

namespace HW.Adt

variable {W : World}

/-- The representation of a class with fields. -/
def Canon (W : World) (k : Con) (fs : List Ty) : Prop :=
  match k.shape with
  | .tuple => k.name = 0 ∧ k.ns = 0 ∧ k.names = []
  | .anon => k.name = 0 ∧ k.ns = 0 ∧ k.names.length = fs.length ∧ k.names.Nodup
  | .sum => k.name = 0 ∧ k.ns = 0 ∧ k.names = [] ∧ W.canon fs = fs
  | .product => k.names.length = fs.length ∧ k.names.Nodup
  | .tagged => k.names.length = fs.length ∧ k.names.Nodup ∧ W.canonF k (k.names.zip fs) = k.names.zip fs

theorem canon_idem (l : List Ty) : W.canon (W.canon l) = W.canon l :=
  W.canon_congr _ _ fun t => W.mem_canon l t

theorem canonF_idem (k : Con) (l) : W.canonF k (W.canonF k l) = W.canonF k l :=
  W.canonF_congr k k _ _ rfl rfl rfl (W.perm_canonF k l)

theorem zip_unzip {α β : Type} (l : List (α × β)) : (l.map Prod.fst).zip (l.map Prod.snd) = l := by
  induction l with
  | nil => rfl
  | cons a l ih => simp [ih]

theorem canon_tuple (b fs) : Canon W ⟨.tuple, b, 0, 0, []⟩ fs := ⟨rfl, rfl, rfl⟩

theorem canon_sum (b fs) : Canon W ⟨.sum, b, 0, 0, []⟩ (W.canon fs) := ⟨rfl, rfl, rfl, canon_idem fs⟩

theorem canon_tagged {b name ns names fs} (hl : names.length = fs.length) (hn : names.Nodup) :
    Canon W ⟨.tagged, b, name, ns, (W.canonF ⟨.tagged, b, name, ns, names⟩ (names.zip fs)).map Prod.fst⟩
      ((W.canonF ⟨.tagged, b, name, ns, names⟩ (names.zip fs)).map Prod.snd) := by
  have hp := W.perm_canonF ⟨.tagged, b, name, ns, names⟩ (names.zip fs)
  refine ⟨by simp, ?_, ?_⟩
  · have := hp.map Prod.fst
    rw [List.map_fst_zip (by omega)] at this
    exact this.nodup_iff.2 hn
  · dsimp only
    rw [zip_unzip]
    exact W.canonF_congr _ _ _ _ rfl rfl rfl hp

theorem mem_tagged {b name ns names fs} (h : t ∈ (W.canonF ⟨.tagged, b, name, ns, names⟩
    (names.zip fs)).map Prod.snd) : t ∈ fs := by
  obtain ⟨p, hp, rfl⟩ := List.mem_map.1 h
  exact (List.of_mem_zip ((W.perm_canonF _ _).mem_iff.1 hp)).2

theorem applyMod_ok {m t t'} : applyMod m t = .ok t' ↔ t.hasMod m = false ∧ t' = .mod m t := by
  unfold applyMod
  split <;> rename_i h
  · simp [h]
  · simp only [Except.ok.injEq]
    exact ⟨fun e => ⟨by simpa using h, e.symm⟩, fun e => e.2.symm⟩

theorem Built.inv {T} (h : Built W T) :
    (∀ k fs, T = .node k fs → (∀ t ∈ fs, Built W t) ∧ Canon W k fs) ∧
    (∀ m t, T = .mod m t → Built W t ∧ t.hasMod m = false) := by
  cases h with
  | leaf | enum => exact ⟨by simp, by simp⟩
  | tuple b fs h =>
      refine ⟨?_, by simp [mkTuple]⟩
      rintro k fs' h'
      obtain ⟨rfl, rfl⟩ := Ty.node.inj h'
      exact ⟨h, canon_tuple _ _⟩
  | anon b names fs hl hn h =>
      refine ⟨?_, by simp [mkAnon]⟩
      rintro k fs' h'
      obtain ⟨rfl, rfl⟩ := Ty.node.inj h'
      exact ⟨h, rfl, rfl, hl, hn⟩
  | sum b fs h =>
      refine ⟨?_, by simp [mkSum]⟩
      rintro k fs' h'
      obtain ⟨rfl, rfl⟩ := Ty.node.inj h'
      exact ⟨fun t ht => h t ((W.mem_canon _ _).1 ht), canon_sum _ _⟩
  | product b name ns names fs hl hn h =>
      refine ⟨?_, by simp [mkProduct]⟩
      rintro k fs' h'
      obtain ⟨rfl, rfl⟩ := Ty.node.inj h'
      exact ⟨h, hl, hn⟩
  | tagged b name ns names fs hl hn h =>
      refine ⟨?_, by simp [mkTagged]⟩
      rintro k fs' h'
      obtain ⟨rfl, rfl⟩ := Ty.node.inj h'
      exact ⟨fun t ht => h t (mem_tagged ht), canon_tagged hl hn⟩
  | mod m t t' h ha =>
      obtain ⟨hm, rfl⟩ := applyMod_ok.1 ha
      refine ⟨by simp, ?_⟩
      rintro m' t' h'
      obtain ⟨rfl, rfl⟩ := Ty.mod.inj h'
      exact ⟨h, hm⟩

theorem Built.fields {k fs} (h : Built W (.node k fs)) : ∀ t ∈ fs, Built W t := (h.inv.1 _ _ rfl).1
theorem Built.canon {k fs} (h : Built W (.node k fs)) : Canon W k fs := (h.inv.1 _ _ rfl).2
theorem Built.unmod {m t} (h : Built W (.mod m t)) : Built W t := (h.inv.2 _ _ rfl).1
theorem Built.noMod {m t} (h : Built W (.mod m t)) : t.hasMod m = false := (h.inv.2 _ _ rfl).2

/-- A class with fields `fs'` that is otherwise like `k`. -/
def remake (W : World) (k : Con) (fs : List Ty) : Ty :=
  match k.shape with
  | .tuple => mkTuple k.base fs
  | .anon => mkAnon k.base k.names fs
  | .sum => mkSum W k.base fs
  | .product => mkProduct k.base k.name k.ns k.names fs
  | .tagged => mkTagged W k.base k.name k.ns k.names fs

theorem remake_canon {k fs} (h : Canon W k fs) : remake W k fs = .node k fs := by
  obtain ⟨shape, base, name, ns, names⟩ := k
  cases shape <;> simp only [Canon] at h
  · obtain ⟨rfl, rfl, rfl⟩ := h; rfl
  · obtain ⟨rfl, rfl, _⟩ := h; rfl
  · rfl
  · obtain ⟨rfl, rfl, rfl, h⟩ := h
    simp [remake, mkSum, h]
  · obtain ⟨h1, h2, h3⟩ := h
    simp only [remake, mkTagged, h3]
    rw [List.map_fst_zip (by omega), List.map_snd_zip (by omega)]

/-- Length conditions only. -/
def Fits (k : Con) (fs : List Ty) : Prop :=
  match k.shape with
  | .tuple => True
  | .sum => True
  | _ => k.names.length = fs.length ∧ k.names.Nodup

theorem Canon.fits {k fs} (h : Canon W k fs) : Fits k fs := by
  obtain ⟨shape, base, name, ns, names⟩ := k
  cases shape <;> simp_all [Canon, Fits]

theorem Fits.congr {k : Con} {fs fs' : List Ty} (h : Fits k fs) (hl : fs'.length = fs.length) : Fits k fs' := by
  obtain ⟨shape, base, name, ns, names⟩ := k
  cases shape <;> simp_all [Fits]

theorem remake_built {k fs} (hf : Fits k fs) (h : ∀ t ∈ fs, Built W t) : Built W (remake W k fs) := by
  obtain ⟨shape, base, name, ns, names⟩ := k
  cases shape <;> simp only [Fits] at hf
  · exact .tuple _ _ h
  · exact .anon _ _ _ hf.1 hf.2 h
  · exact .product _ _ _ _ _ hf.1 hf.2 h
  · exact .sum _ _ h
  · exact .tagged _ _ _ _ _ hf.1 hf.2 h

/-- A remade class is a node. -/
theorem remake_eq (k fs) : ∃ k' fs', remake W k fs = .node k' fs' ∧ k'.shape = k.shape ∧ k'.base = k.base ∧
    (∀ t, t ∈ fs' → t ∈ fs) := by
  obtain ⟨shape, base, name, ns, names⟩ := k
  cases shape
  · exact ⟨_, _, rfl, rfl, rfl, fun t h => h⟩
  · exact ⟨_, _, rfl, rfl, rfl, fun t h => h⟩
  · exact ⟨_, _, rfl, rfl, rfl, fun t h => h⟩
  · exact ⟨_, _, rfl, rfl, rfl, fun t h => (W.mem_canon _ _).1 h⟩
  · exact ⟨_, _, rfl, rfl, rfl, fun t h => mem_tagged h⟩

/-! ### Replacement as a function -/

mutual
def substT (W : World) (f : Ty → Option Ty) (w : ModId → Ty → Ty) : Ty → Ty
  | .leaf l => (f (.leaf l)).getD (.leaf l)
  | .enum e => (f (.enum e)).getD (.enum e)
  | .mod m t => (f (.mod m t)).getD (w m (substT W f w t))
  | .node k fs => (f (.node k fs)).getD (remake W k (substL W f w fs))
def substL (W : World) (f : Ty → Option Ty) (w : ModId → Ty → Ty) : List Ty → List Ty
  | [] => []
  | t :: ts => substT W f w t :: substL W f w ts
end

theorem substL_eq (f w) (l : List Ty) : substL W f w l = l.map (substT W f w) := by
  induction l with
  | nil => simp [substL]
  | cons a l ih => simp [substL, ih]

theorem substT_hit {f w T T'} (h : f T = some T') : substT W f w T = T' := by
  cases T <;> simp [substT, h]

theorem maps_remake {f w k fs} (hn : f (.node k fs) = none) (hc : Canon W k fs) (g : Ty → Ty)
    (h : ∀ t ∈ fs, Maps f w t (g t)) : Maps f w (.node k fs) (remake W k (fs.map g)) := by
  obtain ⟨shape, base, name, ns, names⟩ := k
  have hord : ∀ (i : Nat) (t t' : Ty), fs[i]? = some t → (fs.map g)[i]? = some t' → Maps f w t t' := by
    intro i t t' ht ht'
    rw [List.getElem?_map, ht] at ht'
    cases ht'
    exact h t (List.mem_of_getElem? ht)
  cases shape <;> simp only [Canon] at hc
  · obtain ⟨rfl, rfl, rfl⟩ := hc
    exact .ordered hn (by simp) (by simp) (by simp) hord
  · obtain ⟨rfl, rfl, _⟩ := hc
    exact .ordered hn (by simp) (by simp) (by simp) hord
  · exact .ordered hn (by simp) (by simp) (by simp) hord
  · obtain ⟨rfl, rfl, rfl, _⟩ := hc
    exact .sum g hn rfl (W.nodup_canon _) h fun t' => by rw [W.mem_canon, List.mem_map]
  · obtain ⟨hl, hnd, _⟩ := hc
    have hp := W.perm_canonF ⟨.tagged, base, name, ns, names⟩ (names.zip (fs.map g))
    have hp1 := hp.map Prod.fst
    rw [List.map_fst_zip (by simp; omega)] at hp1
    refine Maps.tagged (k := ⟨.tagged, base, name, ns, names⟩) (names' := _) hn rfl hp1 hl.symm (by simp) ?_
    intro n t t' hm hm'
    dsimp only at hm hm'
    rw [zip_unzip] at hm'
    have hm'' := hp.mem_iff.1 hm'
    obtain ⟨i, hi, he⟩ := List.getElem_of_mem hm
    obtain ⟨j, hj, he'⟩ := List.getElem_of_mem hm''
    simp only [List.getElem_zip, Prod.mk.injEq, List.getElem_map] at he he'
    have : i = j := by
      apply (List.Nodup.getElem_inj_iff hnd).1
      rw [he.1, he'.1]
    subst this
    rw [← he'.2, he.2]
    exact h t (he.2 ▸ List.getElem_mem _)

theorem substT_maps (f w) (T : Ty) (hT : Built W T) : Maps f w T (substT W f w T) := by
  induction T using Ty.induct with
  | leaf l =>
      rw [substT]
      cases h : f (.leaf l) with
      | none => exact .leaf h
      | some x => exact .hit h
  | enum e =>
      rw [substT]
      cases h : f (.enum e) with
      | none => exact .enum h
      | some x => exact .hit h
  | mod m t ih =>
      rw [substT]
      cases h : f (.mod m t) with
      | none => exact .mod h (ih hT.unmod)
      | some x => exact .hit h
  | node k fs ih =>
      rw [substT]
      cases h : f (.node k fs) with
      | none =>
          rw [substL_eq]
          exact maps_remake h hT.canon _ fun t ht => ih t ht (hT.fields t ht)
      | some x => exact .hit h

/-! ### `rebind` -/

@[simp] theorem pyBindOk {α β : Type} (a : α) (f : α → PyM β) : (Except.ok a >>= f) = f a := rfl

theorem view_fieldless {m t} (h : Ty.Fieldless t) : (Ty.mod m t).view = none := by
  simp only [Ty.Fieldless] at h
  simp [Ty.view, h]

/-- What `rebind` does with the classes it meets. -/
def rebF (W : World) (A B : Ty) (subs : Bool) (T : Ty) : Option Ty :=
  if hit W A subs T then some B else if T.isModified then some T else none

/-- Modifiers on classes without fields only. -/
abbrev OnLeaf (_ : ModId) (t : Ty) : Prop := t.Fieldless

theorem rebFields_node (A B subs rec k fs) :
    Ty.rebFields W A B subs rec (.node k fs) = Ty.rebList W A B subs rec fs := by rw [Ty.rebFields]

theorem rebuild_eq {T k fs fs'} (hT : T = .node k fs) (hb : k.Bare) (hc : Canon W k fs) :
    rebuild W T k fs fs' = .ok (remake W k fs') := by
  obtain ⟨shape, base, name, ns, names⟩ := k
  obtain ⟨h1, h2⟩ := hb
  dsimp only at h1 h2
  subst h2
  have := remake_canon hc
  cases shape <;> simp only [rebuild, remake]
  · exact absurd rfl h1
  · split
    · rename_i h; subst h; rw [hT]; rfl
    · rfl
  · split
    · rename_i h; subst h; rw [hT, ← this]; rfl
    · rfl

theorem rebList_eq {A B subs fs} (hf : ∀ t ∈ fs, Built W t ∧ t.All Con.Bare OnLeaf)
    (h : ∀ t ∈ fs, hit W A subs t = false → t.isBound = true →
      (Ty.rebFields W A B subs true t >>= t.finishRebind W) =
        .ok (substT W (rebF W A B subs) Ty.mod t)) :
    Ty.rebList W A B subs true fs = .ok (fs.map (substT W (rebF W A B subs) Ty.mod)) := by
  induction fs with
  | nil => simp [Ty.rebList]
  | cons t ts ih =>
      rw [Ty.rebList, ih (fun t ht => hf t (by simp [ht])) (fun t ht => h t (by simp [ht]))]
      have hh := h t (by simp)
      cases hA : hit W A subs t with
      | true =>
          rw [List.map_cons, substT_hit (T := t) (T' := B) (by simp [rebF, hA])]
          rfl
      | false =>
          cases hb : t.isBound with
          | true =>
              have := hh hA hb
              simp only [Bool.false_eq_true, if_false, Bool.true_and, if_true]
              rw [this]
              rfl
          | false =>
              have : substT W (rebF W A B subs) Ty.mod t = t := by
                cases t with
                | leaf l => simp [substT, rebF, hA, Ty.isModified]
                | enum e => simp [Ty.isBound] at hb
                | node => simp [Ty.isBound] at hb
                | mod m t => exact substT_hit (by simp [rebF, hA, Ty.isModified])
              rw [List.map_cons, this]
              rfl

theorem finish_eq {A B subs} (T : Ty) (hT : Built W T) (hp : T.All Con.Bare OnLeaf)
    (hA : hit W A subs T = false) (hbd : T.isBound = true) :
    (Ty.rebFields W A B subs true T >>= T.finishRebind W) = .ok (substT W (rebF W A B subs) Ty.mod T) := by
  induction T using Ty.induct with
  | leaf l => simp [Ty.isBound] at hbd
  | enum e =>
      simp [Ty.rebFields, Ty.finishRebind, Ty.view, substT, rebF, hA, Ty.isModified]
  | mod m t ih =>
      cases hp with
      | mod _ _ hm hp =>
      rw [substT_hit (T := .mod m t) (T' := .mod m t) (by simp [rebF, hA, Ty.isModified])]
      have : ∃ l, Ty.rebFields W A B subs true (.mod m t) = .ok l := by
        rw [Ty.rebFields]
        clear ih hA hT hbd
        revert hm
        induction t using Ty.induct with
        | leaf => intro; exact ⟨_, by rw [Ty.rebFields] <;> simp⟩
        | enum => intro; exact ⟨_, by rw [Ty.rebFields] <;> simp⟩
        | node => intro hm; simp [OnLeaf, Ty.Fieldless, Ty.view] at hm
        | mod m t ih =>
            intro hm
            rw [Ty.rebFields]
            cases hp with
            | mod _ _ hm hp => exact ih hp hm
      obtain ⟨l, hl⟩ := this
      rw [hl, pyBindOk, Ty.finishRebind, view_fieldless hm]
  | node k fs ih =>
      cases hp with
      | node _ _ hk hp =>
      rw [rebFields_node, rebList_eq (fun t ht => ⟨hT.fields t ht, hp t ht⟩)
        (fun t ht h1 h2 => ih t ht (hT.fields t ht) (hp t ht) h1 h2), pyBindOk, Ty.finishRebind]
      have hf : rebF W A B subs (.node k fs) = none := by simp [rebF, hA, Ty.isModified]
      simp only [Ty.view, substT, hf, Option.getD_none, substL_eq]
      exact rebuild_eq rfl hk hT.canon

/-- `rebind` of a class with fields. -/
theorem rebind_eq {A B subs k fs} (hT : Built W (.node k fs)) (hp : (Ty.node k fs).All Con.Bare OnLeaf) :
    Ty.rebind W A B subs true (.node k fs) =
      .ok (remake W k (fs.map (substT W (rebF W A B subs) Ty.mod))) := by
  cases hp with
  | node _ _ hk hp =>
  simp only [Ty.rebind, Ty.isBound, if_true]
  rw [rebFields_node, rebList_eq (fun t ht => ⟨hT.fields t ht, hp t ht⟩)
    (fun t ht h1 h2 => finish_eq t (hT.fields t ht) (hp t ht) h1 h2), pyBindOk, Ty.finishRebind]
  simp only [Ty.view]
  exact rebuild_eq rfl hk hT.canon

/-! ### Composition -/

theorem remake_comp {k fs k' fs'} (h : remake W k fs = .node k' fs') (hf : Fits k fs) (g : Ty → Ty) :
    remake W k' (fs'.map g) = remake W k (fs.map g) := by
  obtain ⟨shape, base, name, ns, names⟩ := k
  cases shape <;> simp only [remake, Fits] at h hf
  · obtain ⟨rfl, rfl⟩ := Ty.node.inj h; rfl
  · obtain ⟨rfl, rfl⟩ := Ty.node.inj h; rfl
  · obtain ⟨rfl, rfl⟩ := Ty.node.inj h; rfl
  · obtain ⟨rfl, rfl⟩ := Ty.node.inj h
    simp only [remake, mkSum]
    congr 1
    apply W.canon_congr
    intro t
    simp only [List.mem_map, W.mem_canon]
  · obtain ⟨rfl, rfl⟩ := Ty.node.inj h
    simp only [remake, mkTagged]
    generalize hp : W.canonF ⟨.tagged, base, name, ns, names⟩ (names.zip fs) = p
    have hperm := W.perm_canonF ⟨.tagged, base, name, ns, names⟩ (names.zip fs)
    rw [hp] at hperm
    have key : W.canonF ⟨.tagged, base, name, ns, p.map Prod.fst⟩
        ((p.map Prod.fst).zip ((p.map Prod.snd).map g)) =
        W.canonF ⟨.tagged, base, name, ns, names⟩ (names.zip (fs.map g)) := by
      refine W.canonF_congr _ _ _ _ rfl rfl rfl ?_
      rw [List.zip_map_right, zip_unzip, List.zip_map_right]
      exact hperm.map _
    rw [key]

theorem mem_remake {k fs k' fs'} (h : remake W k fs = .node k' fs') (hf : Fits k fs) {t} (ht : t ∈ fs) :
    t ∈ fs' := by
  obtain ⟨shape, base, name, ns, names⟩ := k
  cases shape <;> simp only [remake, Fits] at h hf
  · obtain ⟨rfl, rfl⟩ := Ty.node.inj h; exact ht
  · obtain ⟨rfl, rfl⟩ := Ty.node.inj h; exact ht
  · obtain ⟨rfl, rfl⟩ := Ty.node.inj h; exact ht
  · obtain ⟨rfl, rfl⟩ := Ty.node.inj h; exact (W.mem_canon _ _).2 ht
  · obtain ⟨rfl, rfl⟩ := Ty.node.inj h
    have hperm := W.perm_canonF ⟨.tagged, base, name, ns, names⟩ (names.zip fs)
    have h2 := hperm.map Prod.snd
    rw [List.map_snd_zip (by omega)] at h2
    exact h2.mem_iff.2 ht

theorem size_field {k : Con} {fs : List Ty} {t : Ty} (h : t ∈ fs) : sizeOf t < sizeOf (Ty.node k fs) := by
  have := List.sizeOf_lt_of_mem h
  simp only [Ty.node.sizeOf_spec]
  omega

theorem substT_congr {f g : Ty → Option Ty} {w : ModId → Ty → Ty} (T : Ty)
    (h : ∀ s, sizeOf s ≤ sizeOf T → f s = g s) : substT W f w T = substT W g w T := by
  induction T using Ty.induct with
  | leaf l => simp [substT, h (.leaf l)]
  | enum l => simp [substT, h (.enum l)]
  | mod m t ih =>
      rw [substT, substT, h _ (Nat.le_refl _), ih]
      intro s hs
      apply h
      simp only [Ty.mod.sizeOf_spec]
      omega
  | node k fs ih =>
      rw [substT, substT, h _ (Nat.le_refl _), substL_eq, substL_eq]
      congr 2
      apply List.map_congr_left
      intro t ht
      apply ih t ht
      intro s hs
      apply h
      have := size_field (k := k) ht
      omega

/-- The fields of a kept class, with the class itself excluded from the replacement. -/
theorem substT_except {f : Ty → Option Ty} {w : ModId → Ty → Ty} (k fs) :
    substT W (fun t => if t = .node k fs then none else f t) w (.node k fs) =
      remake W k (fs.map (substT W f w)) := by
  rw [substT, if_pos rfl, Option.getD_none, substL_eq]
  congr 1
  apply List.map_congr_left
  intro t ht
  apply substT_congr
  intro s hs
  have := size_field (k := k) ht
  rw [if_neg]
  rintro rfl
  omega

theorem map_id_of {g : Ty → Ty} {l : List Ty} (h : ∀ t ∈ l, g t = t) : l.map g = l := by
  induction l with
  | nil => rfl
  | cons a l ih => simp [h a (by simp), ih fun t ht => h t (by simp [ht])]

/-- Replacement by `B` leaves a class alone or makes it contain `B`. -/
theorem subst_size {A B} (T : Ty) (hT : Built W T) :
    substT W (rebF W A B false) Ty.mod T = T ∨
      sizeOf B ≤ sizeOf (substT W (rebF W A B false) Ty.mod T) := by
  induction T using Ty.induct with
  | leaf l =>
      by_cases h : hit W A false (.leaf l) = true
      · right; rw [substT_hit (T' := B) (by simp [rebF, h])]
      · left; simp [substT, rebF, h, Ty.isModified]
  | enum l =>
      by_cases h : hit W A false (.enum l) = true
      · right; rw [substT_hit (T' := B) (by simp [rebF, h])]
      · left; simp [substT, rebF, h, Ty.isModified]
  | mod m t ih =>
      by_cases h : hit W A false (.mod m t) = true
      · right; rw [substT_hit (T' := B) (by simp [rebF, h])]
      · left; exact substT_hit (by simp [rebF, h, Ty.isModified])
  | node k fs ih =>
      by_cases h : hit W A false (.node k fs) = true
      · right; rw [substT_hit (T' := B) (by simp [rebF, h])]
      · rw [substT, substL_eq]
        have hf : rebF W A B false (.node k fs) = none := by simp [rebF, h, Ty.isModified]
        rw [hf, Option.getD_none]
        by_cases hall : ∀ t ∈ fs, substT W (rebF W A B false) Ty.mod t = t
        · left
          rw [map_id_of hall]
          exact remake_canon hT.canon
        · right
          simp only [not_forall] at hall
          obtain ⟨t, ht, hne⟩ := hall
          obtain ⟨k', fs', he, -, -, -⟩ := remake_eq (W := W) k (fs.map (substT W (rebF W A B false) Ty.mod))
          have hm := mem_remake he (hT.canon.fits.congr (by simp)) (List.mem_map_of_mem ht)
          have := (ih t ht (hT.fields t ht)).resolve_left hne
          have h2 := size_field (k := k') hm
          rw [he]
          omega

theorem below_field {k fs t} (h : t ∈ fs) : Ty.Below t (.node k fs) := .field ⟨k, fs, rfl, h⟩

theorem below_trans_field {k fs t s} (h : t ∈ fs) (hb : Ty.Below s t) : Ty.Below s (.node k fs) :=
  .deep ⟨k, fs, rfl, h⟩ hb

theorem subst_back {A B} (T : Ty) (hT : Built W T) (hB : T ≠ B) (hB' : ¬ B.Below T) :
    substT W (rebF W B A false) Ty.mod (substT W (rebF W A B false) Ty.mod T) = T := by
  have hitA : ∀ t, hit W A false t = decide (t = A) := by intro t; simp [hit]
  have hitB : ∀ t, hit W B false t = decide (t = B) := by intro t; simp [hit]
  induction T using Ty.induct with
  | leaf l =>
      by_cases h : Ty.leaf l = A
      · rw [substT_hit (T := .leaf l) (T' := B) (by simp [rebF, hitA, h]),
          substT_hit (T := B) (T' := A) (by simp [rebF, hitB]), h]
      · have : substT W (rebF W A B false) Ty.mod (.leaf l) = .leaf l := by
          simp [substT, rebF, hitA, h, Ty.isModified]
        rw [this]
        simp [substT, rebF, hitB, hB, Ty.isModified]
  | enum l =>
      by_cases h : Ty.enum l = A
      · rw [substT_hit (T := .enum l) (T' := B) (by simp [rebF, hitA, h]),
          substT_hit (T := B) (T' := A) (by simp [rebF, hitB]), h]
      · have : substT W (rebF W A B false) Ty.mod (.enum l) = .enum l := by
          simp [substT, rebF, hitA, h, Ty.isModified]
        rw [this]
        simp [substT, rebF, hitB, hB, Ty.isModified]
  | mod m t ih =>
      by_cases h : Ty.mod m t = A
      · rw [substT_hit (T := .mod m t) (T' := B) (by simp [rebF, hitA, h]),
          substT_hit (T := B) (T' := A) (by simp [rebF, hitB]), h]
      · rw [substT_hit (T := .mod m t) (T' := .mod m t) (by simp [rebF, hitA, h, Ty.isModified])]
        exact substT_hit (by simp [rebF, hitB, hB, Ty.isModified])
  | node k fs ih =>
      by_cases h : Ty.node k fs = A
      · rw [substT_hit (T := .node k fs) (T' := B) (by simp [rebF, hitA, h]),
          substT_hit (T := B) (T' := A) (by simp [rebF, hitB]), h]
      · have hf : rebF W A B false (.node k fs) = none := by simp [rebF, hitA, h, Ty.isModified]
        have h1 : substT W (rebF W A B false) Ty.mod (.node k fs) =
            remake W k (fs.map (substT W (rebF W A B false) Ty.mod)) := by
          rw [substT, hf, Option.getD_none, substL_eq]
        obtain ⟨k', fs', he, -, -, -⟩ := remake_eq (W := W) k (fs.map (substT W (rebF W A B false) Ty.mod))
        have hfits := hT.canon.fits.congr (fs' := fs.map (substT W (rebF W A B false) Ty.mod)) (by simp)
        have hne : Ty.node k' fs' ≠ B := by
          by_cases hall : ∀ t ∈ fs, substT W (rebF W A B false) Ty.mod t = t
          · rw [map_id_of hall, remake_canon hT.canon] at he
            rw [← he]; exact hB
          · simp only [not_forall] at hall
            obtain ⟨t, ht, hne⟩ := hall
            have hm := mem_remake he hfits (List.mem_map_of_mem ht)
            have := (subst_size t (hT.fields t ht)).resolve_left hne
            have h2 := size_field (k := k') hm
            rintro rfl
            omega
        have hg : rebF W B A false (.node k' fs') = none := by simp [rebF, hitB, hne, Ty.isModified]
        rw [h1, he, substT, hg, Option.getD_none, substL_eq, remake_comp he hfits, List.map_map, map_id_of,
          remake_canon hT.canon]
        intro t ht
        apply ih t ht (hT.fields t ht)
        · rintro rfl
          exact hB' (below_field ht)
        · exact fun hb => hB' (below_trans_field ht hb)

/-! ### Nothing to replace -/

theorem rebuild_same {T k fs} (hT : T = .node k fs) (hk : k.Named) (hc : Canon W k fs) :
    rebuild W T k fs fs = .ok T := by
  have hr := remake_canon hc
  obtain ⟨shape, base, name, ns, names⟩ := k
  cases shape <;> simp only [rebuild, remake] at *
  · rw [hr, hT]
  · exact absurd rfl hk
  · simp
  · rw [hr, hT]
  · simp

theorem rebFields_fieldless {A B subs rec t} (h : Ty.Fieldless t) : ∃ l, Ty.rebFields W A B subs rec t = .ok l := by
  induction t using Ty.induct with
  | leaf => exact ⟨_, by rw [Ty.rebFields] <;> simp⟩
  | enum => exact ⟨_, by rw [Ty.rebFields] <;> simp⟩
  | node => simp [Ty.Fieldless, Ty.view] at h
  | mod m t ih =>
      rw [Ty.rebFields]
      apply ih
      simp only [Ty.Fieldless, Ty.view, Option.map_eq_none_iff] at h
      exact h

theorem rebList_same {A B subs rec fs} (hf : ∀ t ∈ fs, hit W A subs t = false)
    (h : ∀ t ∈ fs, t.isBound = true → (Ty.rebFields W A B subs rec t >>= t.finishRebind W) = .ok t) :
    Ty.rebList W A B subs rec fs = .ok fs := by
  induction fs with
  | nil => rw [Ty.rebList]
  | cons t ts ih =>
      rw [Ty.rebList, ih (fun t ht => hf t (by simp [ht])) (fun t ht => h t (by simp [ht])), hf t (by simp)]
      simp only [Bool.false_eq_true, if_false]
      split <;> rename_i hb
      · rw [h t (by simp) (by simp_all)]; rfl
      · rfl

theorem finish_same {A B subs rec} (T : Ty) (hT : Built W T) (hp : T.All Con.Named OnLeaf)
    (hA : ∀ t, t.Below T → hit W A subs t = false) (hbd : T.isBound = true) :
    (Ty.rebFields W A B subs rec T >>= T.finishRebind W) = .ok T := by
  induction T using Ty.induct with
  | leaf l => simp [Ty.isBound] at hbd
  | enum e => rw [Ty.rebFields] <;> simp [Ty.finishRebind, Ty.view]
  | mod m t ih =>
      cases hp with
      | mod _ _ hm hp =>
      obtain ⟨l, hl⟩ := rebFields_fieldless (W := W) (A := A) (B := B) (subs := subs) (rec := rec) hm
      rw [Ty.rebFields, hl, pyBindOk, Ty.finishRebind, view_fieldless hm]
  | node k fs ih =>
      cases hp with
      | node _ _ hk hp =>
      rw [rebFields_node, rebList_same (fun t ht => hA t (below_field ht))
        (fun t ht hb => ih t ht (hT.fields t ht) (hp t ht) (fun s hs => hA s (below_trans_field ht hs)) hb),
        pyBindOk, Ty.finishRebind]
      simp only [Ty.view]
      exact rebuild_same rfl hk hT.canon

theorem rebF_eq (A B subs) : rebF W A B subs = replaced W A B subs := by
  funext t
  simp only [rebF, replaced, hit, Bool.or_eq_true, decide_eq_true_eq, Bool.and_eq_true]

theorem shape_remake {k fs k' fs'} (h : remake W k fs = .node k' fs') (hb : k.Bare) : k'.Bare := by
  obtain ⟨shape, base, name, ns, names⟩ := k
  obtain ⟨h1, h2⟩ := hb
  cases shape <;> simp only [remake] at h <;> obtain ⟨rfl, rfl⟩ := Ty.node.inj h
  · exact ⟨by simp, rfl⟩
  · exact absurd rfl h1
  · exact ⟨by simp, h2⟩
  · exact ⟨by simp, rfl⟩
  · exact ⟨by simp, h2⟩

theorem remake_good {k fs} {g : Ty → Ty} (hT : Built W (.node k fs)) (hk : k.Bare)
    (h : ∀ t ∈ fs, Built W (g t) ∧ (g t).All Con.Bare OnLeaf) :
    Built W (remake W k (fs.map g)) ∧ (remake W k (fs.map g)).All Con.Bare OnLeaf := by
  have hm : ∀ t ∈ fs.map g, Built W t ∧ t.All Con.Bare OnLeaf := by
    intro t ht
    obtain ⟨s, hs, rfl⟩ := List.mem_map.1 ht
    exact h s hs
  refine ⟨remake_built (hT.canon.fits.congr (by simp)) fun t ht => (hm t ht).1, ?_⟩
  obtain ⟨k', fs', he, -, -, hsub⟩ := remake_eq (W := W) k (fs.map g)
  rw [he]
  exact .node _ _ (shape_remake he hk) fun t ht => (hm t (hsub t ht)).2

/-- Replacement keeps classes constructible. -/
theorem substT_good {A B subs} (hB : Built W B) (hB' : B.All Con.Bare OnLeaf) (T : Ty) (hT : Built W T)
    (hp : T.All Con.Bare OnLeaf) :
    Built W (substT W (rebF W A B subs) Ty.mod T) ∧ (substT W (rebF W A B subs) Ty.mod T).All Con.Bare OnLeaf := by
  induction T using Ty.induct with
  | leaf l =>
      rw [substT]
      cases h : rebF W A B subs (.leaf l) with
      | none => exact ⟨hT, hp⟩
      | some x =>
          have : x = B := by
            simp only [rebF, Ty.isModified] at h
            split at h
            · simpa [eq_comm] using h
            · simp at h
          rw [this]; exact ⟨hB, hB'⟩
  | enum l =>
      rw [substT]
      cases h : rebF W A B subs (.enum l) with
      | none => exact ⟨hT, hp⟩
      | some x =>
          have : x = B := by
            simp only [rebF, Ty.isModified] at h
            split at h
            · simpa [eq_comm] using h
            · simp at h
          rw [this]; exact ⟨hB, hB'⟩
  | mod m t ih =>
      cases h : hit W A subs (.mod m t) with
      | true => rw [substT_hit (T' := B) (by simp [rebF, h])]; exact ⟨hB, hB'⟩
      | false => rw [substT_hit (T' := .mod m t) (by simp [rebF, h, Ty.isModified])]; exact ⟨hT, hp⟩
  | node k fs ih =>
      cases h : hit W A subs (.node k fs) with
      | true => rw [substT_hit (T' := B) (by simp [rebF, h])]; exact ⟨hB, hB'⟩
      | false =>
          cases hp with
          | node _ _ hk hp =>
          have hf : rebF W A B subs (.node k fs) = none := by simp [rebF, h, Ty.isModified]
          rw [substT, hf, Option.getD_none, substL_eq]
          exact remake_good hT hk fun t ht => ih t ht (hT.fields t ht) (hp t ht)

end HW.Adt
