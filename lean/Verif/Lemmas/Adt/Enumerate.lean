import Verif.Lemmas.Adt.ValueDict

/-!
# Enumeration
-/

namespace HW.Adt

variable {W : World}

theorem mapM_ok {α β : Type} {f : α → PyM β} {g : α → β} : ∀ {l : List α}, (∀ a ∈ l, f a = .ok (g a)) →
    l.mapM f = .ok (l.map g)
  | [], _ => rfl
  | a :: l, h => by
      rw [List.mapM_cons, h a (by simp), mapM_ok fun b hb => h b (by simp [hb])]
      rfl

theorem mem_product {α : Type} {as : List α} : ∀ {ls : List (List α)}, as ∈ product ls ↔
    List.Forall₂ (fun a l => a ∈ l) as ls
  | [] => by simp [product]
  | l :: ls => by
      simp only [product, List.mem_flatMap, List.mem_map, mem_product (ls := ls)]
      constructor
      · rintro ⟨a, ha, bs, hb, rfl⟩
        exact .cons ha hb
      · intro h
        cases h with
        | cons ha hb => exact ⟨_, ha, _, hb, rfl⟩

theorem nodup_product {α : Type} : ∀ {ls : List (List α)}, (∀ l ∈ ls, l.Nodup) → (product ls).Nodup
  | [], _ => by simp [product]
  | l :: ls, h => by
      rw [product, List.nodup_flatMap]
      constructor
      · intro a _
        exact (nodup_product fun m hm => h m (by simp [hm])).map fun x y e => by cases e; rfl
      · refine (h l (by simp)).imp fun {a b} hne => ?_
        intro x hx hy
        simp only [List.mem_map] at hx hy
        obtain ⟨x', -, rfl⟩ := hx
        obtain ⟨y', -, e⟩ := hy
        cases e
        exact hne rfl

theorem length_product {α : Type} : ∀ ls : List (List α), (product ls).length = (ls.map List.length).prod
  | [] => rfl
  | l :: ls => by
      simp only [product, List.length_flatMap, List.length_map, length_product ls, List.map_cons, List.prod_cons]
      simp

theorem Exact.cls {T v} (h : Exact T v) : v.cls = T := by cases h <;> rfl

theorem eqv_rel {L : Leaves} {t x y} (hx : Exact t x) {f : Bool} (h : Val.eqv W L f x y = true) :
    W.sub x.cls y.cls = true ∨ W.sub y.cls x.cls = true := by
  have key : ∀ {a b : Ty} {g}, decides W f a b = some g → W.sub a b = true ∨ W.sub b a = true :=
    fun e => decides_iff.1 ⟨_, e⟩
  cases hx <;> cases y <;> simp only [Val.eqv, Bool.false_eq_true] at h <;> split at h <;>
    first | exact key (by assumption) | cases h

/-- `l` are the values of `t`, each once. -/
def Lists (t : Ty) (l : List Val) : Prop := l.Nodup ∧ ∀ v, v ∈ l ↔ Exact t v

theorem forall₂_get {α β : Type} {R : α → β → Prop} {as : List α} {bs : List β} : List.Forall₂ R as bs ↔
    as.length = bs.length ∧ ∀ (i : Nat) a b, as[i]? = some a → bs[i]? = some b → R a b := by
  rw [List.forall₂_iff_get]
  refine and_congr_right fun hl => ⟨fun h i a b ha hb => ?_, fun h i h1 h2 => ?_⟩
  · obtain ⟨h1, rfl⟩ := List.getElem?_eq_some_iff.1 ha
    obtain ⟨h2, rfl⟩ := List.getElem?_eq_some_iff.1 hb
    exact h i h1 h2
  · exact h i _ _ (List.getElem?_eq_getElem h1) (List.getElem?_eq_getElem h2)

theorem enumerate_tuple {cls : Ty} {k k' : Con} {fs : List Ty} {ls : List (List Val)} (hv : cls.view = some (k', fs))
    (hs : k'.shape = k.shape) (hf : Fits k' fs) (h1 : k.shape ≠ .sum) (h2 : k.shape ≠ .tagged)
    (hls : List.Forall₂ Lists fs ls) : ∃ l, enumerateWith W cls k ls = .ok l ∧ Lists cls l ∧
      l.length = (ls.map List.length).prod := by
  obtain ⟨hll, hlg⟩ := forall₂_get.1 hls
  have hmem : ∀ args, args ∈ product ls ↔ args.length = fs.length ∧
      ∀ (i : Nat) v t, args[i]? = some v → fs[i]? = some t → Exact t v := by
    intro args
    rw [mem_product, forall₂_get, ← hll]
    refine and_congr_right fun hl => ⟨fun h i v t hi ht => ?_, fun h i v l hi hl' => ?_⟩
    · have hlt : i < ls.length := by rw [← hll]; exact (List.getElem?_eq_some_iff.1 ht).1
      have := h i v _ hi (List.getElem?_eq_getElem hlt)
      exact ((hlg i t _ ht (List.getElem?_eq_getElem hlt)).2 v).1 this
    · have hlt : i < fs.length := by rw [hll]; exact (List.getElem?_eq_some_iff.1 hl').1
      exact ((hlg i _ l (List.getElem?_eq_getElem hlt) hl').2 v).2 (h i v _ hi (List.getElem?_eq_getElem hlt))
  have hcon : ∀ args ∈ product ls, constructV W cls args [] = .ok (.tup cls false args) := by
    intro args ha
    obtain ⟨hl, hx⟩ := (hmem args).1 ha
    have hi : initTuple (Val.isinst W) fs args = .ok args :=
      initTuple_ok.2 ⟨rfl, hl, fun i v t a b => by rw [Val.isinst, (hx i v t a b).cls]; exact W.sub_refl _⟩
    have ht : callTuple (Val.isinst W) k' fs args [] = .ok args := by
      unfold callTuple
      split
      · rw [if_pos rfl, hi]
      · rename_i hne
        have hfl : k'.names.length = fs.length := by
          unfold Fits at hf
          rw [hs] at hf hne
          cases hsh : k.shape <;> simp_all
        have hb : bindArgs k'.names args [] = .ok args := by
          unfold bindArgs
          rw [if_neg (by omega)]
          have : k'.names.drop args.length = [] := List.drop_eq_nil_of_le (by omega)
          simp [this]
        rw [hb]
        exact hi
    unfold constructV
    rw [hv]
    cases hsh : k'.shape <;> dsimp only
    · simp only [hsh, ht, pyBindOk]; rfl
    · simp only [hsh, ht, pyBindOk]; rfl
    · simp only [hsh, ht, pyBindOk]; rfl
    · exact absurd (hs.symm.trans hsh) h1
    · exact absurd (hs.symm.trans hsh) h2
  have hen : enumerateWith W cls k ls = .ok ((product ls).map (Val.tup cls false)) := by
    unfold enumerateWith
    cases hsh : k.shape <;> dsimp only
    · exact mapM_ok hcon
    · exact mapM_ok hcon
    · exact mapM_ok hcon
    · exact absurd hsh h1
    · exact absurd hsh h2
  refine ⟨_, hen, ⟨?_, ?_⟩, by rw [List.length_map, length_product]⟩
  · refine (nodup_product ?_).map fun a b e => by cases e; rfl
    intro l hl
    obtain ⟨i, hi⟩ := List.mem_iff_getElem?.1 hl
    have hlt : i < fs.length := by rw [hll]; exact (List.getElem?_eq_some_iff.1 hi).1
    exact (hlg i _ l (List.getElem?_eq_getElem hlt) hi).1
  · intro v
    rw [List.mem_map]
    constructor
    · rintro ⟨args, ha, rfl⟩
      obtain ⟨hl, hx⟩ := (hmem args).1 ha
      exact .tup hv (by rw [hs]; exact h1) (by rw [hs]; exact h2) hl hx
    · intro hx
      cases hx with
      | enum => cases hv
      | sum e1 e2 => rw [hv] at e1; cases e1; exact absurd (hs.symm.trans e2) h1
      | tag e1 e2 => rw [hv] at e1; cases e1; exact absurd (hs.symm.trans e2) h2
      | tup e1 _ _ e2 e3 =>
          rw [hv] at e1
          cases e1
          exact ⟨_, (hmem _).2 ⟨e2, e3⟩, rfl⟩

theorem enumerate_sum {cls : Ty} {k k' : Con} {fs : List Ty} {ls : List (List Val)} (hv : cls.view = some (k', fs))
    (hs : k'.shape = k.shape) (hn : fs.Nodup) (h1 : k.shape = .sum)
    (hls : List.Forall₂ Lists fs ls) : ∃ l, enumerateWith W cls k ls = .ok l ∧ Lists cls l ∧
      l.length = (ls.map List.length).sum := by
  have hmem : ∀ v, v ∈ ls.flatten ↔ ∃ t ∈ fs, Exact t v := by
    intro v
    clear hv hn
    induction hls with
    | nil => simp
    | cons h _ ih => simp [ih, h.2]
  have hnd : ls.flatten.Nodup := by
    clear hv hmem
    induction hls with
    | nil => simp
    | @cons t l ts ls h hr ih =>
        rw [List.flatten_cons, List.nodup_append']
        rw [List.nodup_cons] at hn
        refine ⟨h.1, ih hn.2, ?_⟩
        intro v hv hv'
        have ht := ((h.2 v).1 hv).cls
        obtain ⟨l', hl', hvl⟩ := List.mem_flatten.1 hv'
        obtain ⟨i, hi⟩ := List.mem_iff_getElem?.1 hl'
        obtain ⟨hll, hlg⟩ := forall₂_get.1 hr
        have hlt : i < ts.length := by rw [hll]; exact (List.getElem?_eq_some_iff.1 hi).1
        have := (((hlg i _ l' (List.getElem?_eq_getElem hlt) hi).2 v).1 hvl).cls
        rw [ht] at this
        exact hn.1 (this ▸ List.getElem_mem hlt)
  have hcon : ∀ v ∈ ls.flatten, constructV W cls [v] [] = .ok (.sum cls v) := by
    intro v h
    obtain ⟨t, ht, hx⟩ := (hmem v).1 h
    unfold constructV
    rw [hv]
    simp only [hs, h1, callSum, hx.cls, ht, if_true]
    rfl
  refine ⟨ls.flatten.map (Val.sum cls), ?_, ⟨hnd.map fun a b e => by cases e; rfl, ?_⟩, by rw [List.length_map, List.length_flatten]⟩
  · unfold enumerateWith
    rw [h1]
    exact mapM_ok hcon
  · intro v
    rw [List.mem_map]
    constructor
    · rintro ⟨w, h, rfl⟩
      obtain ⟨t, ht, hx⟩ := (hmem w).1 h
      exact .sum hv (hs.trans h1) ht hx
    · intro hx
      cases hx with
      | enum => cases hv
      | tup e1 e2 => rw [hv] at e1; cases e1; exact absurd (hs.trans h1) e2
      | tag e1 e2 => rw [hv] at e1; cases e1; rw [hs, h1] at e2; cases e2
      | sum e1 _ e2 e3 =>
          rw [hv] at e1
          cases e1
          exact ⟨_, (hmem _).2 ⟨_, e2, e3⟩, rfl⟩

theorem enumerate_tagged {cls : Ty} {k k' : Con} {fs : List Ty} {ls : List (List Val)}
    (hv : cls.view = some (k', fs)) (hs : k'.shape = k.shape) (hnm : k'.names = k.names)
    (hl : k.names.length = fs.length) (hn : k.names.Nodup) (h1 : k.shape = .tagged)
    (hls : List.Forall₂ Lists fs ls) : ∃ l, enumerateWith W cls k ls = .ok l ∧ Lists cls l ∧
      l.length = (ls.map List.length).sum := by
  obtain ⟨hll, hlg⟩ := forall₂_get.1 hls
  let ps := (k.names.zip ls).flatMap fun p => p.2.map fun v => (p.1, v)
  have hmem : ∀ n v, (n, v) ∈ ps ↔ ∃ (i : Nat) (t : Ty), k.names[i]? = some n ∧ fs[i]? = some t ∧ Exact t v := by
    intro n v
    simp only [ps, List.mem_flatMap, List.mem_map, Prod.mk.injEq]
    constructor
    · rintro ⟨⟨m, l⟩, hm, w, hw, rfl, rfl⟩
      obtain ⟨i, hi⟩ := List.mem_iff_getElem?.1 hm
      rw [List.getElem?_zip_eq_some] at hi
      have hlt : i < fs.length := by rw [hll]; exact (List.getElem?_eq_some_iff.1 hi.2).1
      have ht := List.getElem?_eq_getElem hlt
      exact ⟨i, _, hi.1, ht, ((hlg i _ l ht hi.2).2 w).1 hw⟩
    · rintro ⟨i, t, e1, e2, e3⟩
      have hlt : i < ls.length := by rw [← hll]; exact (List.getElem?_eq_some_iff.1 e2).1
      have ht := List.getElem?_eq_getElem hlt
      refine ⟨(n, ls[i]), ?_, v, ((hlg i t _ e2 ht).2 v).2 e3, rfl, rfl⟩
      rw [List.mem_iff_getElem?]
      exact ⟨i, by rw [List.getElem?_zip_eq_some]; exact ⟨e1, ht⟩⟩
  have hnd : ps.Nodup := by
    rw [List.nodup_flatMap]
    constructor
    · rintro ⟨m, l⟩ hm
      obtain ⟨i, hi⟩ := List.mem_iff_getElem?.1 hm
      rw [List.getElem?_zip_eq_some] at hi
      have hlt : i < fs.length := by rw [hll]; exact (List.getElem?_eq_some_iff.1 hi.2).1
      exact (hlg i _ l (List.getElem?_eq_getElem hlt) hi.2).1.map fun a b e => by cases e; rfl
    · have hz : ((k.names.zip ls).map Prod.fst).Nodup := by
        rw [List.map_fst_zip (by omega)]
        exact hn
      rw [List.Nodup, List.pairwise_map] at hz
      refine hz.imp fun {a b} hne => ?_
      intro x hx hy
      simp only [List.mem_map] at hx hy
      obtain ⟨x', -, rfl⟩ := hx
      obtain ⟨y', -, e⟩ := hy
      exact hne (Prod.mk.inj e).1.symm
  have hidx : ∀ {i n}, k.names[i]? = some n → k.names.idxOf n = i := by
    intro i n h
    obtain ⟨hi, e⟩ := List.getElem?_eq_some_iff.1 h
    rw [← e]
    exact hn.idxOf_getElem i hi
  have hcon : ∀ p ∈ ps, constructV W cls [] [p] = .ok (.tag cls (k.names.idxOf p.1) p.2) := by
    rintro ⟨n, v⟩ h
    obtain ⟨i, t, e1, e2, e3⟩ := (hmem n v).1 h
    unfold constructV
    rw [hv]
    simp only [hs, h1, hnm, callTagged, ne_eq, not_true_eq_false, if_false, List.mem_of_getElem? e1, if_true, hidx e1, e2,
      Val.isinst, e3.cls, W.sub_refl]
    rfl
  refine ⟨ps.map fun p => Val.tag cls (k.names.idxOf p.1) p.2, ?_, ⟨?_, ?_⟩, ?_⟩
  · unfold enumerateWith
    rw [h1]
    exact mapM_ok hcon
  · refine List.Nodup.map_on ?_ hnd
    rintro ⟨n, v⟩ hx ⟨m, w⟩ hy e
    obtain ⟨i, t, a1, -, -⟩ := (hmem n v).1 hx
    obtain ⟨j, u, b1, -, -⟩ := (hmem m w).1 hy
    simp only [Val.tag.injEq, true_and] at e
    rw [hidx a1, hidx b1] at e
    obtain ⟨rfl, rfl⟩ := e
    rw [a1] at b1
    cases b1
    rfl
  · intro v
    rw [List.mem_map]
    constructor
    · rintro ⟨⟨n, w⟩, h, rfl⟩
      obtain ⟨i, t, e1, e2, e3⟩ := (hmem n w).1 h
      dsimp only
      rw [hidx e1]
      exact .tag hv (hs.trans h1) e2 e3
    · intro hx
      cases hx with
      | enum => cases hv
      | tup e1 _ e2 => rw [hv] at e1; cases e1; exact absurd (hs.trans h1) e2
      | sum e1 e2 => rw [hv] at e1; cases e1; rw [hs, h1] at e2; cases e2
      | @tag _ _ _ i _ w e1 _ e2 e3 =>
          rw [hv] at e1
          cases e1
          have hlt : i < k.names.length := by rw [hl]; exact (List.getElem?_eq_some_iff.1 e2).1
          have hi := List.getElem?_eq_getElem hlt
          refine ⟨(k.names[i], w), (hmem _ _).2 ⟨i, _, hi, e2, e3⟩, ?_⟩
          dsimp only
          rw [hidx hi]
  · rw [List.length_map, List.length_flatMap]
    have : (k.names.zip ls).map (fun p => (p.2.map fun v => (p.1, v)).length) = ls.map List.length := by
      simp only [List.length_map]
      rw [show (fun p : Name × List Val => p.2.length) = List.length ∘ Prod.snd from rfl, ← List.map_map,
        List.map_snd_zip (by omega)]
    rw [this]

theorem OverEnums.fields {k fs} (h : OverEnums (.node k fs)) : ∀ t ∈ fs, OverEnums t := by
  cases h with
  | node _ _ h => exact h

theorem OverEnums.bound {T} (h : OverEnums T) : T.isBound = true := by
  induction h with
  | enum => rfl
  | node => rfl
  | mod m t _ _ ih => exact ih

theorem enumAs_ok (C : Calls) (T : Ty) : Built W T → OverEnums T →
    (∀ e, T = .enum e → ∃ l, Ty.enumAs W C T T = .ok l ∧ Lists T l ∧ l.length = T.card) ∧
    (∀ k fs, T.view = some (k, fs) → ∀ cls k', cls.view = some (k', fs) → k'.shape = k.shape → k'.names = k.names →
      ∃ l, Ty.enumAs W C cls T = .ok l ∧ Lists cls l ∧ l.length = T.card) := by
  induction T using Ty.induct with
  | leaf l => intro _ h; cases h
  | enum e =>
      intro _ _
      refine ⟨fun e' _ => ⟨_, rfl, ⟨?_, ?_⟩, by simp [Ty.card]⟩, nofun⟩
      · exact List.nodup_range.map fun a b h => by cases h; rfl
      · intro v
        rw [List.mem_map]
        constructor
        · rintro ⟨i, hi, rfl⟩
          exact .enum e i (List.mem_range.1 hi)
        · intro h
          cases h with
          | enum _ i hi => exact ⟨i, List.mem_range.2 hi, rfl⟩
          | tup h => cases h
          | sum h => cases h
          | tag h => cases h
  | node k fs ih =>
      intro hT hO
      refine ⟨nofun, ?_⟩
      intro k1 fs1 hv cls k' hc hs hnm
      cases hv
      have hls : ∀ ts : List Ty, (∀ t ∈ ts, t ∈ fs) → ∃ ls, Ty.enumFields W C k.zero ts = .ok ls ∧
          List.Forall₂ Lists ts ls ∧ ls.map List.length = Ty.card.cards ts := by
        intro ts
        induction ts with
        | nil => intro _; exact ⟨[], rfl, .nil, rfl⟩
        | cons t ts ih' =>
            intro h
            have ht := h t (by simp)
            obtain ⟨ls, e1, e2, e3⟩ := ih' fun u hu => h u (by simp [hu])
            have hB := hT.fields t ht
            have hOt := hO.fields t ht
            obtain ⟨i1, i2⟩ := ih t ht hB hOt
            have : ∃ l, Ty.enumAs W C t t = .ok l ∧ Lists t l ∧ l.length = t.card := by
              cases hvt : t.view with
              | some p => exact i2 p.1 p.2 hvt t p.1 hvt rfl rfl
              | none =>
                  cases hOt with
                  | enum e => exact i1 e rfl
                  | node => cases hvt
                  | mod m u hu =>
                      simp only [Ty.view, Option.map_eq_none_iff] at hvt
                      exact absurd hvt hu
            obtain ⟨l, l1, l2, l3⟩ := this
            refine ⟨l :: ls, ?_, .cons l2 e2, by simp [l3, e3, Ty.card.cards]⟩
            rw [Ty.enumFields, hOt.bound, if_pos rfl, l1, pyBindOk, e1]
            rfl
      obtain ⟨ls, e1, e2, e3⟩ := hls fs fun t ht => ht
      have hf : Fits k fs := hT.canon.fits
      have hf' : Fits k' fs := by unfold Fits at hf ⊢; rw [hs, hnm]; exact hf
      have hun : Ty.enumAs W C cls (.node k fs) = enumerateWith W cls k ls := by
        rw [Ty.enumAs, e1]; rfl
      rw [hun]
      by_cases h1 : k.shape = .sum
      · obtain ⟨l, a, b, c⟩ := enumerate_sum (W := W) hc hs (view_sum_nodup hT rfl h1) h1 e2
        exact ⟨l, a, b, by rw [c, e3, Ty.card, if_pos (.inl h1)]⟩
      · by_cases h2 : k.shape = .tagged
        · have hfn : k.names.length = fs.length ∧ k.names.Nodup := by unfold Fits at hf; rw [h2] at hf; exact hf
          obtain ⟨l, a, b, c⟩ := enumerate_tagged (W := W) hc hs hnm hfn.1 hfn.2 h2 e2
          exact ⟨l, a, b, by rw [c, e3, Ty.card, if_pos (.inr h2)]⟩
        · obtain ⟨l, a, b, c⟩ := enumerate_tuple (W := W) hc hs hf' h1 h2 e2
          exact ⟨l, a, b, by rw [c, e3, Ty.card, if_neg (by simp [h1, h2])]⟩
  | mod m t ih =>
      intro hT hO
      refine ⟨nofun, ?_⟩
      intro k fs hv cls k' hc hs hnm
      simp only [Ty.view, Option.map_eq_some_iff] at hv
      obtain ⟨⟨k0, fs0⟩, e1, e2⟩ := hv
      cases e2
      cases hO with
      | mod _ _ _ hO => exact (ih hT.unmod hO).2 k0 _ e1 cls k' hc hs hnm

end HW.Adt
