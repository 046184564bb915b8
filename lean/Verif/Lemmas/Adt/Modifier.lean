import Verif.Lemmas.Adt.Type

/-! # Lemmas on modifiers and `rebind_bitvector` -/

namespace HW.Adt

variable {W : World}

/-- Modifiers put on, innermost first. -/
def rewrap (t : Ty) (ms : List ModId) : Ty := ms.foldl (fun t m => .mod m t) t

theorem rewrap_append (t ms ms') : rewrap t (ms ++ ms') = rewrap (rewrap t ms) ms' := by simp [rewrap]

theorem unwrap_rewrap (t : Ty) : rewrap t.unwrap.1 t.unwrap.2 = t := by
  induction t using Ty.induct with
  | mod m t ih => simp only [Ty.unwrap, rewrap_append, ih]; rfl
  | _ => simp [Ty.unwrap, rewrap]

theorem unwrap_core (t : Ty) : t.unwrap.1.isModified = false := by
  induction t using Ty.induct with
  | mod m t ih => simpa [Ty.unwrap] using ih
  | _ => simp [Ty.unwrap, Ty.isModified]

theorem unwrap_unmod {t : Ty} (h : t.isModified = false) : t.unwrap = (t, []) := by
  cases t <;> simp_all [Ty.unwrap, Ty.isModified]

theorem rewrap_unwrap (t : Ty) (ms : List ModId) : (rewrap t ms).unwrap = (t.unwrap.1, t.unwrap.2 ++ ms) := by
  induction ms generalizing t with
  | nil => simp [rewrap]
  | cons m ms ih =>
      have : rewrap t (m :: ms) = rewrap (.mod m t) ms := rfl
      rw [this, ih]
      simp [Ty.unwrap]

theorem hasMod_iff (m : ModId) (t : Ty) : t.hasMod m = true ↔ m ∈ t.unwrap.2 ∨ t.unwrap.1.hasMod m = true := by
  induction t using Ty.induct with
  | mod m' t ih =>
      simp only [Ty.hasMod, Bool.or_eq_true, decide_eq_true_eq, ih, Ty.unwrap, List.mem_append, List.mem_singleton]
      tauto
  | _ => simp [Ty.unwrap]

/-- Applying modifiers not yet present, without duplicates, works. -/
theorem applyMods_ok {ms : List ModId} {t : Ty} :
    applyMods ms t = .ok (rewrap t ms) ↔ ms.Nodup ∧ ∀ m ∈ ms, t.hasMod m = false := by
  induction ms generalizing t with
  | nil => simp [applyMods, rewrap]
  | cons m ms ih =>
      rw [applyMods]
      cases h : t.hasMod m with
      | true => simp [applyMod, h, bind, Except.bind]
      | false =>
          simp only [applyMod, h, Bool.false_eq_true, if_false, pyBindOk]
          have : rewrap t (m :: ms) = rewrap (.mod m t) ms := rfl
          rw [this, ih, List.nodup_cons]
          simp only [Ty.hasMod, Bool.or_eq_false_iff, decide_eq_false_iff_not, List.mem_cons, forall_eq_or_imp, h,
            true_and]
          constructor
          · rintro ⟨h1, h2⟩
            exact ⟨⟨fun hm => (h2 m hm).1 rfl, h1⟩, fun x hx => (h2 x hx).2⟩
          · rintro ⟨⟨h0, h1⟩, h2⟩
            exact ⟨h1, fun x hx => ⟨fun e => h0 (e ▸ hx), h2 x hx⟩⟩

theorem applyMods_cases (ms : List ModId) (t : Ty) :
    applyMods ms t = .ok (rewrap t ms) ∨ applyMods ms t = .error .typeError := by
  induction ms generalizing t with
  | nil => left; rfl
  | cons m ms ih =>
      rw [applyMods]
      cases h : t.hasMod m with
      | true => right; simp [applyMod, h, bind, Except.bind]
      | false =>
          simp only [applyMod, h, Bool.false_eq_true, if_false, pyBindOk]
          exact ih (.mod m t)

theorem wrap_ok {ms : List ModId} {t : Ty} :
    wrap t ms = .ok (rewrap t ms) ↔ ms.Nodup ∧ ∀ m ∈ ms, t.hasMod m = false := by
  unfold wrap
  split <;> rename_i h
  · rw [applyMods_ok]
  · simp [h]

theorem wrap_cases (ms : List ModId) (t : Ty) :
    wrap t ms = .ok (rewrap t ms) ∨ wrap t ms = .error .typeError := by
  unfold wrap
  split
  · exact applyMods_cases ms t
  · right; rfl

theorem wrapIf_eq (ms : List ModId) (t : Ty) : wrapIf ms t = wrap t ms := by
  unfold wrapIf
  split
  · subst_vars; rfl
  · rfl

theorem Built.mods {T} (h : Built W T) : T.unwrap.2.Nodup ∧ ∀ m ∈ T.unwrap.2, T.unwrap.1.hasMod m = false := by
  induction T using Ty.induct with
  | mod m t ih =>
      obtain ⟨h1, h2⟩ := ih h.unmod
      have h3 := h.noMod
      have h4 : m ∉ t.unwrap.2 ∧ t.unwrap.1.hasMod m = false := by
        have := hasMod_iff m t
        rw [h3] at this
        simp only [Bool.false_eq_true, false_iff, not_or, Bool.not_eq_true] at this
        exact this
      simp only [Ty.unwrap]
      refine ⟨?_, ?_⟩
      · rw [List.nodup_append]
        refine ⟨h1, by simp, ?_⟩
        intro a ha b hb
        simp only [List.mem_singleton] at hb
        subst hb
        rintro rfl
        exact h4.1 ha
      · intro x hx
        rcases List.mem_append.1 hx with hx | hx
        · exact h2 x hx
        · simp only [List.mem_singleton] at hx
          exact hx ▸ h4.2
  | _ => simp [Ty.unwrap]

theorem Built.core {T} (h : Built W T) : Built W T.unwrap.1 := by
  induction T using Ty.induct with
  | mod m t ih => exact ih h.unmod
  | _ => simpa [Ty.unwrap] using h

theorem Built.rewrap {t ms} (h : Built W t) (hn : ms.Nodup) (hm : ∀ m ∈ ms, t.hasMod m = false) :
    Built W (rewrap t ms) := by
  induction ms generalizing t with
  | nil => exact h
  | cons m ms ih =>
      have : HW.Adt.rewrap t (m :: ms) = HW.Adt.rewrap (.mod m t) ms := rfl
      rw [this]
      rw [List.nodup_cons] at hn
      refine ih (.mod m t _ h (applyMod_ok.2 ⟨hm m (by simp), rfl⟩)) hn.2 ?_
      intro x hx
      simp only [Ty.hasMod, Bool.or_eq_false_iff, decide_eq_false_iff_not]
      exact ⟨fun e => hn.1 (e ▸ hx), hm x (by simp [hx])⟩

/-! ### `rebindSeq` -/

/-- The replacements one after the other. -/
def seqMap (ps : List (Ty × Ty)) (x : Ty) : Ty := ps.foldl (fun x p => if x = p.1 then p.2 else x) x

theorem canon_remake {k fs k' fs'} (h : remake W k fs = .node k' fs') (hf : Fits k fs) :
    Canon W k' fs' ∧ k'.shape = k.shape ∧ k'.ns = (if k.shape = .tagged ∨ k.shape = .product then k.ns else 0) := by
  obtain ⟨shape, base, name, ns, names⟩ := k
  cases shape <;> simp only [remake, Fits] at h hf
  · obtain ⟨rfl, rfl⟩ := Ty.node.inj h; exact ⟨⟨rfl, rfl, rfl⟩, rfl, by simp⟩
  · obtain ⟨rfl, rfl⟩ := Ty.node.inj h; exact ⟨⟨rfl, rfl, hf⟩, rfl, by simp⟩
  · obtain ⟨rfl, rfl⟩ := Ty.node.inj h; exact ⟨hf, rfl, by simp⟩
  · obtain ⟨rfl, rfl⟩ := Ty.node.inj h; exact ⟨canon_sum _ _, rfl, by simp⟩
  · obtain ⟨rfl, rfl⟩ := Ty.node.inj h; exact ⟨canon_tagged hf.1 hf.2, rfl, by simp⟩

theorem bare_remake {k fs k' fs'} (h : remake W k fs = .node k' fs') (hf : Fits k fs) (hb : k.Bare) : k'.Bare := by
  obtain ⟨-, h2, h3⟩ := canon_remake h hf
  refine ⟨by rw [h2]; exact hb.1, ?_⟩
  rw [h3, hb.2]
  simp

theorem rebList_flat (f f' : Ty) (fs : List Ty) :
    Ty.rebList W f f' false false fs = .ok (fs.map fun x => if x = f then f' else x) := by
  induction fs with
  | nil => rw [Ty.rebList]; rfl
  | cons t ts ih =>
      rw [Ty.rebList, ih]
      by_cases h : t = f
      · simp only [hit, h, decide_true, Bool.true_or, if_true, List.map_cons]
        rfl
      · simp only [hit, h, decide_false, Bool.false_or, Bool.false_and, Bool.false_eq_true, if_false,
          List.map_cons]
        rfl

theorem rebindSeq_eq (ps : List (Ty × Ty)) {k fs} (hb : k.Bare) (hc : Canon W k fs) :
    rebindSeq W ps (.node k fs) = .ok (remake W k (fs.map (seqMap ps))) := by
  induction ps generalizing k fs with
  | nil =>
      have : fs.map (seqMap []) = fs := map_id_of (fun t _ => rfl)
      rw [rebindSeq, this, remake_canon hc]
  | cons p ps ih =>
      obtain ⟨f, f'⟩ := p
      have h1 : Ty.rebind W f f' false false (.node k fs) =
          .ok (remake W k (fs.map fun x => if x = f then f' else x)) := by
        simp only [Ty.rebind, Ty.isBound, if_true]
        rw [rebFields_node, rebList_flat, pyBindOk, Ty.finishRebind]
        simp only [Ty.view]
        exact rebuild_eq rfl hb hc
      rw [rebindSeq, h1, pyBindOk]
      obtain ⟨k', fs', he, -, -, -⟩ := remake_eq (W := W) k (fs.map fun x => if x = f then f' else x)
      have hfits := hc.fits.congr (fs' := fs.map fun x => if x = f then f' else x) (by simp)
      rw [he, ih (bare_remake he hfits hb) (canon_remake he hfits).1, remake_comp he hfits, List.map_map]
      rfl

theorem seqMap_eq (g : Ty → Ty) (l : List Ty) (hg : ∀ x ∈ l, g (g x) = g x) (y : Ty) :
    seqMap (l.map fun x => (x, g x)) y = if y ∈ l then g y else y := by
  induction l generalizing y with
  | nil => simp [seqMap]
  | cons a l ih =>
      have ih := ih (fun x hx => hg x (by simp [hx]))
      have : seqMap ((a :: l).map fun x => (x, g x)) y =
          seqMap (l.map fun x => (x, g x)) (if y = a then g a else y) := rfl
      rw [this, ih]
      by_cases h : y = a
      · subst h
        simp only [if_true, List.mem_cons, true_or]
        split
        · exact hg y (by simp)
        · rfl
      · simp [h]

/-! ### `rebind_bitvector` -/

/-- What `rebind_bitvector` does with the classes it meets. -/
def bvF (V : VecSel) (keep : Bool) (t : Ty) : Option Ty :=
  if keep && t.isModified then none
  else match V.selects t with
    | some s => some (.leaf (.vec V.k1 s))
    | none => if t.isModified then some t else none

theorem bvF_node (V keep k fs) : bvF V keep (.node k fs) = none := by
  simp [bvF, Ty.isModified, VecSel.selects, Ty.asVec]

theorem bvF_enum (V keep e) : bvF V keep (.enum e) = none := by
  simp [bvF, Ty.isModified, VecSel.selects, Ty.asVec]

theorem substT_vec (V keep s) :
    substT W (bvF V keep) Ty.mod (.leaf (.vec V.k1 s)) = .leaf (.vec V.k1 s) := by
  rw [substT]
  unfold bvF
  simp only [Ty.isModified, Bool.and_false, Bool.false_eq_true, if_false, VecSel.selects, Ty.asVec]
  split <;> rename_i h
  · split at h <;> simp_all
  · rfl

theorem bv_idem (V keep) (T : Ty) (hT : Built W T) :
    substT W (bvF V keep) Ty.mod (substT W (bvF V keep) Ty.mod T) = substT W (bvF V keep) Ty.mod T := by
  induction T using Ty.induct with
  | leaf l =>
      cases h : bvF V keep (.leaf l) with
      | none => simp [substT, h]
      | some x =>
          rw [substT_hit h]
          simp only [bvF, Ty.isModified, Bool.and_false, Bool.false_eq_true, if_false] at h
          split at h
          · simp only [Option.some.injEq] at h
            rw [← h]; exact substT_vec V keep _
          · exact absurd h (by simp)
  | enum e => simp [substT, bvF_enum]
  | mod m t ih =>
      cases h : bvF V keep (.mod m t) with
      | none =>
          have hk : keep = true := by
            cases keep with
            | true => rfl
            | false =>
                simp only [bvF, Bool.false_and, Bool.false_eq_true, if_false, Ty.isModified, if_true] at h
                split at h <;> simp at h
          subst hk
          have h2 : ∀ x, bvF V true (.mod m x) = none := by intro x; simp [bvF, Ty.isModified]
          simp only [substT, h2, Option.getD_none, ih hT.unmod]
      | some x =>
          rw [substT_hit h]
          have h' := h
          unfold bvF at h
          split at h
          · simp at h
          · split at h
            · simp only [Option.some.injEq] at h
              rw [← h]; exact substT_vec V keep _
            · simp only [Ty.isModified, if_true, Option.some.injEq] at h
              subst h
              exact substT_hit h'
  | node k fs ih =>
      have h1 : substT W (bvF V keep) Ty.mod (.node k fs) =
          remake W k (fs.map (substT W (bvF V keep) Ty.mod)) := by
        rw [substT, bvF_node, Option.getD_none, substL_eq]
      rw [h1]
      obtain ⟨k', fs', he, -, -, -⟩ := remake_eq (W := W) k (fs.map (substT W (bvF V keep) Ty.mod))
      have hfits := hT.canon.fits.congr (fs' := fs.map (substT W (bvF V keep) Ty.mod)) (by simp)
      rw [he, substT, bvF_node, Option.getD_none, substL_eq, remake_comp he hfits, List.map_map]
      rw [← he]
      congr 1
      apply List.map_congr_left
      intro t ht
      exact ih t ht (hT.fields t ht)

/-- Modifiers that `rebind_bitvector` can pass. -/
def BvMod (keep : Bool) (_ : ModId) (t : Ty) : Prop := keep = true ∨ t.Fieldless

theorem bvPairs_fieldless {V keep t} (h : Ty.Fieldless t) : Ty.bvPairs W V keep t = .ok [] := by
  induction t using Ty.induct with
  | leaf => rw [Ty.bvPairs] <;> simp
  | enum => rw [Ty.bvPairs] <;> simp
  | node => simp [Ty.Fieldless, Ty.view] at h
  | mod m t ih =>
      rw [Ty.bvPairs]
      apply ih
      simp only [Ty.Fieldless, Ty.view, Option.map_eq_none_iff] at h
      exact h

theorem bvList_eq {V keep fs} {g : Ty → Ty} (h : ∀ t ∈ fs, t.rebindBV W V keep [] = .ok (g t)) :
    Ty.bvList W V keep fs = .ok (fs.map fun t => (t, g t)) := by
  induction fs with
  | nil => rw [Ty.bvList]; rfl
  | cons t ts ih =>
      rw [Ty.bvList, h t (by simp), ih fun t ht => h t (by simp [ht])]
      rfl

theorem hasMod_remake (k fs m) : (remake W k fs).hasMod m = k.base.hasMod m := by
  obtain ⟨k', fs', he, -, hb, -⟩ := remake_eq (W := W) k fs
  rw [he, Ty.hasMod, hb]

theorem hasMod_subst (V m) (t : Ty) (h : t.isModified = false) :
    (substT W (bvF V true) Ty.mod t).hasMod m = t.hasMod m := by
  cases t with
  | leaf l =>
      cases hf : bvF V true (.leaf l) with
      | none => simp [substT, hf]
      | some x =>
          rw [substT_hit hf]
          simp only [bvF, Ty.isModified, Bool.and_false, Bool.false_eq_true, if_false] at hf
          split at hf
          · simp only [Option.some.injEq] at hf
            rw [← hf]; rfl
          · exact absurd hf (by simp)
  | enum e => simp [substT, bvF_enum]
  | node k fs =>
      rw [substT, bvF_node, Option.getD_none, hasMod_remake]
      try rfl
  | mod => simp [Ty.isModified] at h

theorem subst_rewrap (V) (t : Ty) (ms) :
    substT W (bvF V true) Ty.mod (rewrap t ms) = rewrap (substT W (bvF V true) Ty.mod t) ms := by
  induction ms generalizing t with
  | nil => rfl
  | cons m ms ih =>
      have h : ∀ t, rewrap t (m :: ms) = rewrap (.mod m t) ms := fun _ => rfl
      rw [h, h, ih]
      congr 1

/-- The result in terms of the unmodified class. -/
def BvGoal (W : World) (V : VecSel) (keep : Bool) (T : Ty) : Prop :=
  ∀ mods, (keep = false → mods = []) →
    T.rebindBV W V keep mods =
      (if keep then wrap (substT W (bvF V keep) Ty.mod T.unwrap.1) (T.unwrap.2 ++ mods)
      else .ok (substT W (bvF V keep) Ty.mod T))

theorem BvGoal.eq {V keep T} (h : BvGoal W V keep T) (hT : Built W T) :
    T.rebindBV W V keep [] = .ok (substT W (bvF V keep) Ty.mod T) := by
  have := h [] (fun _ => rfl)
  rw [this]
  cases keep with
  | false => rfl
  | true =>
      simp only [if_true, List.append_nil]
      rw [wrap_ok.2, ← subst_rewrap, unwrap_rewrap]
      refine ⟨hT.mods.1, fun m hm => ?_⟩
      rw [hasMod_subst V m _ (unwrap_core T)]
      exact hT.mods.2 m hm

theorem wrap_nil (t : Ty) : wrap t [] = .ok t := rfl

theorem bv_leaf {V : VecSel} {keep mods T} (h : T.isModified = false)
    (he : T.rebindBV W V keep mods = wrap (substT W (bvF V keep) Ty.mod T) mods)
    (hm : keep = false → mods = []) : T.rebindBV W V keep mods =
      (if keep then wrap (substT W (bvF V keep) Ty.mod T.unwrap.1) (T.unwrap.2 ++ mods)
      else .ok (substT W (bvF V keep) Ty.mod T)) := by
  rw [he, unwrap_unmod h]
  cases keep with
  | true => simp
  | false => rw [hm rfl, wrap_nil]; rfl

theorem rebindBV_goal (V keep) (T : Ty) (hT : Built W T) (hp : T.All Con.Bare (BvMod keep)) :
    BvGoal W V keep T := by
  induction T using Ty.induct with
  | leaf l =>
      intro mods hm
      refine bv_leaf rfl ?_ hm
      rw [Ty.rebindBV]
      cases h : V.selects (.leaf l) with
      | none =>
          have : bvF V keep (.leaf l) = none := by simp [bvF, Ty.isModified, h]
          rw [substT, this, wrapIf_eq]; rfl
      | some s =>
          have : bvF V keep (.leaf l) = some (.leaf (.vec V.k1 s)) := by simp [bvF, Ty.isModified, h]
          rw [substT, this]; exact wrapIf_eq _ _
  | enum e =>
      intro mods hm
      refine bv_leaf rfl ?_ hm
      rw [Ty.rebindBV, substT, bvF_enum, wrapIf_eq]; rfl
  | mod m t ih =>
      intro mods hm
      cases hp with
      | mod _ _ h1 h2 =>
      cases keep with
      | true =>
          rw [Ty.rebindBV, if_pos rfl, ih hT.unmod h2 (m :: mods) (by simp)]
          simp only [if_true, Ty.unwrap, List.append_assoc, List.singleton_append]
      | false =>
          have h1 : t.Fieldless := by
            rcases h1 with h | h
            · exact absurd h (by simp)
            · exact h
          rw [Ty.rebindBV, if_neg (by simp), if_neg (c := false = true) (by simp)]
          cases h : V.selects (.mod m t) with
          | some s =>
              have : bvF V false (.mod m t) = some (.leaf (.vec V.k1 s)) := by simp [bvF, h]
              rw [substT_hit this]
              try rfl
          | none =>
              have : bvF V false (.mod m t) = some (.mod m t) := by simp [bvF, h, Ty.isModified]
              rw [substT_hit this]
              dsimp only
              split
              · rw [bvPairs_fieldless h1]; rfl
              · rfl
  | node k fs ih =>
      intro mods hm
      refine bv_leaf rfl ?_ hm
      cases hp with
      | node _ _ hk hp =>
      have h1 : ∀ t ∈ fs, t.rebindBV W V keep [] = .ok (substT W (bvF V keep) Ty.mod t) := fun t ht =>
        (ih t ht (hT.fields t ht) (hp t ht)).eq (hT.fields t ht)
      rw [Ty.rebindBV, bvList_eq h1, pyBindOk, rebindSeq_eq _ hk hT.canon, pyBindOk, wrapIf_eq, substT, bvF_node,
        Option.getD_none, substL_eq]
      congr 2
      apply List.map_congr_left
      intro t ht
      rw [seqMap_eq (substT W (bvF V keep) Ty.mod) fs fun x hx => bv_idem V keep x (hT.fields x hx), if_pos ht]

theorem rebindBV_eq (V keep) (T : Ty) (hT : Built W T) (hp : T.All Con.Bare (BvMod keep)) :
    T.rebindBV W V keep [] = .ok (substT W (bvF V keep) Ty.mod T) := (rebindBV_goal V keep T hT hp).eq hT

theorem asVec_iff (t : Ty) (k s) : t.asVec = some (k, s) ↔ t.unwrap.1 = .leaf (.vec k s) := by
  induction t using Ty.induct with
  | leaf l => cases l <;> simp [Ty.asVec, Ty.unwrap]
  | enum => simp [Ty.asVec, Ty.unwrap]
  | node => simp [Ty.asVec, Ty.unwrap]
  | mod m t ih => simpa [Ty.asVec, Ty.unwrap] using ih

theorem selects_iff (V : VecSel) (t : Ty) (s) :
    V.selects t = some s ↔ ∃ k, t.unwrap.1 = .leaf (.vec k s) ∧ V.Derives k s := by
  unfold VecSel.selects
  cases h : t.asVec with
  | none =>
      simp only [reduceCtorEq, false_iff, not_exists, not_and]
      intro k hk
      rw [← asVec_iff, h] at hk
      exact absurd hk (by simp)
  | some p =>
      obtain ⟨k', s'⟩ := p
      have h' := (asVec_iff t k' s').1 h
      dsimp only
      split <;> rename_i hc
      · simp only [Option.some.injEq, h']
        constructor
        · rintro rfl; exact ⟨k', rfl, hc⟩
        · rintro ⟨k, hk, -⟩
          simp only [Ty.leaf.injEq, Leaf.vec.injEq] at hk
          exact hk.2
      · simp only [reduceCtorEq, h', false_iff, not_exists, not_and]
        rintro k hk
        simp only [Ty.leaf.injEq, Leaf.vec.injEq] at hk
        obtain ⟨rfl, rfl⟩ := hk
        exact hc

theorem bvF_image (V keep) (T : Ty) : VecImage V keep T (bvF V keep T) := by
  unfold bvF
  split <;> rename_i h
  · simp only [Bool.and_eq_true] at h
    exact .under h.1 h.2
  · cases hs : V.selects T with
    | some s =>
        obtain ⟨k, h1, h2⟩ := (selects_iff V T s).1 hs
        refine .vec (ms := T.unwrap.2) (Prod.ext h1 rfl) h2 ?_
        rintro rfl
        simp only [Bool.true_and, Bool.not_eq_true] at h
        rw [unwrap_unmod h]
    | none =>
        dsimp only
        split <;> rename_i hm
        · refine .keep (by simpa [hm] using h) hm ?_
          intro k s ms he hd
          have := (selects_iff V T s).2 ⟨k, by rw [he], hd⟩
          rw [hs] at this
          exact absurd this (by simp)
        · refine .other (by simpa using hm) ?_
          rintro k s rfl hd
          have := (selects_iff V (.leaf (.vec k s)) s).2 ⟨k, rfl, hd⟩
          rw [hs] at this
          exact absurd this (by simp)

/-- The image is determined. -/
theorem VecImage.unique {V keep T a b} (h : VecImage V keep T a) (h' : VecImage V keep T b) : a = b := by
  cases h with
  | vec h1 h2 h3 =>
      cases h' with
      | vec h1' h2' h3' => rw [h1] at h1'; simp_all
      | under e hm =>
          rw [h3 e] at h1
          have := unwrap_rewrap T
          rw [h1] at this
          rw [← this] at hm
          simp [rewrap, Ty.isModified] at hm
      | keep e hm hn => exact absurd h2 (hn _ _ _ h1)
      | other hm hn =>
          rw [unwrap_unmod hm] at h1
          simp only [Prod.mk.injEq] at h1
          exact absurd h2 (hn _ _ h1.1)
  | under e hm =>
      cases h' with
      | vec h1' h2' h3' =>
          rw [h3' e] at h1'
          have := unwrap_rewrap T
          rw [h1'] at this
          rw [← this] at hm
          simp [rewrap, Ty.isModified] at hm
      | under => rfl
      | keep e' => simp_all
      | other => rfl
  | keep e hm hn =>
      cases h' with
      | vec h1' h2' h3' => exact absurd h2' (hn _ _ _ h1')
      | under e' => simp_all
      | keep => rfl
      | other hm' => simp_all
  | other hm hn =>
      cases h' with
      | vec h1' h2' h3' =>
          rw [unwrap_unmod hm] at h1'
          simp only [Prod.mk.injEq] at h1'
          exact absurd h2' (hn _ _ h1'.1)
      | under => rfl
      | keep _ hm' => simp_all
      | other => rfl

end HW.Adt
