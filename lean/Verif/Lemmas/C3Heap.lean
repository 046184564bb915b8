import Verif.Lemmas.C3
import Verif.Props.ClassHeap

/-! # MROs in the class heap -/

namespace HW.Cls

theorem mapM_congr_opt {f g : Nat → Option (List Nat)} : ∀ {l : List Nat}, (∀ b ∈ l, f b = g b) → l.mapM f = l.mapM g
  | [], _ => rfl
  | a :: l, h => by
      rw [List.mapM_cons, List.mapM_cons, h a (by simp), mapM_congr_opt fun b hb => h b (by simp [hb])]

theorem mapM_iff {f : Nat → Option (List Nat)} : ∀ {l : List Nat} {ls : List (List Nat)},
    l.mapM f = some ls ↔ List.Forall₂ (fun b lb => f b = some lb) l ls
  | [], ls => by
      constructor
      · intro h; cases h; exact .nil
      · intro h; cases h; rfl
  | a :: l, ls => by
      rw [List.mapM_cons]
      constructor
      · intro h
        cases ha : f a with
        | none => rw [ha] at h; cases h
        | some la =>
          rw [ha] at h
          cases hl : l.mapM f with
          | none => rw [hl] at h; cases h
          | some ls' => rw [hl] at h; cases h; exact .cons ha (mapM_iff.1 hl)
      · intro h
        cases h with
        | cons h1 h2 => rw [h1, mapM_iff.2 h2]; rfl

theorem forall₂_pre {α β : Type} {R : α → β → Prop} : ∀ {l : List α} {m : List β}, List.Forall₂ R l m →
    ∀ {b}, b ∈ m → ∃ a ∈ l, R a b
  | _, _, .nil, _, h => (by cases h)
  | _, _, .cons h hs, b, hb => by
      rcases List.mem_cons.1 hb with rfl | hb
      · exact ⟨_, by simp, h⟩
      · obtain ⟨a, h1, h2⟩ := forall₂_pre hs hb
        exact ⟨a, by simp [h1], h2⟩

theorem mroF_congr {B B' : Nat → List Nat} : ∀ (c : Nat) {fuel fuel' : Nat}, (∀ d ≤ c, ∀ b ∈ B d, b < d) →
    (∀ d ≤ c, B d = B' d) → c < fuel → c < fuel' → mroF B fuel c = mroF B' fuel' c := by
  intro c
  induction c using Nat.strong_induction_on with
  | _ c ih =>
    intro fuel fuel' hB hBB h1 h2
    cases fuel with
    | zero => omega
    | succ fuel =>
      cases fuel' with
      | zero => omega
      | succ fuel' =>
        rw [mroF, mroF, ← hBB c (Nat.le_refl _)]
        rw [mapM_congr_opt (g := mroF B' fuel') fun b hb => ?_]
        have hlt := hB c (Nat.le_refl _) b hb
        exact ih b hlt (fun d hd => hB d (by omega)) (fun d hd => hBB d (by omega)) (by omega) (by omega)

namespace Heap

theorem Inv.bases_lt {h : Heap} (hi : h.Inv) {c b : Nat} (hb : b ∈ h.bases c) : b < c :=
  basesOf_lt hi.good hb

/-- The MRO of a class from those of its bases. -/
theorem Inv.mro_iff {h : Heap} (hi : h.Inv) {c : Nat} {l : List Nat} : h.mro c = some l ↔
    ∃ ls r, List.Forall₂ (fun b lb => h.mro b = some lb) (h.bases c) ls ∧ Merge (ls ++ [h.bases c]) r ∧ l = c :: r := by
  have e : (h.bases c).mapM (mroF h.bases c) = (h.bases c).mapM h.mro := mapM_congr_opt fun b hb =>
    mroF_congr b (fun d _ b' hb' => hi.bases_lt hb') (fun _ _ => rfl) (hi.bases_lt hb) (Nat.lt_succ_self _)
  unfold mro
  rw [mroF, e]
  constructor
  · intro h
    cases hl : (Heap.bases _ c).mapM (Heap.mro _) with
    | none => rw [hl] at h; cases h
    | some ls =>
      rw [hl] at h
      simp only [bind, Option.bind] at h
      cases hr : pmerge (total (ls ++ [Heap.bases _ c])) (ls ++ [Heap.bases _ c]) with
      | none => rw [hr] at h; cases h
      | some r =>
        rw [hr] at h; cases h
        exact ⟨ls, r, mapM_iff.1 hl, merge_iff.1 hr, rfl⟩
  · rintro ⟨ls, r, h1, h2, rfl⟩
    have h1' : (h.bases c).mapM h.mro = some ls := mapM_iff.2 h1
    rw [h1']
    simp only [bind, Option.bind]
    rw [merge_iff.2 h2]; rfl

theorem Ext.mro {u₀ : Nat} {h h' : Heap} (hi : h.Inv) (hx : Ext u₀ h h') {c : Nat} (hc : c < h.classes.length) :
    h'.mro c = h.mro c :=
  (mroF_congr c (fun _ _ _ hb => hi.bases_lt hb) (fun d hd => (hx.bases (by omega)).symm) (by omega) (by omega)).symm

theorem Inv.mro_mem {h : Heap} (hi : h.Inv) : ∀ (c : Nat) {l : List Nat}, h.mro c = some l →
    l.head? = some c ∧ ∀ y ∈ l, Sub h c y ∧ y ≤ c := by
  intro c
  induction c using Nat.strong_induction_on with
  | _ c ih =>
    intro l hl
    obtain ⟨ls, r, h1, h2, rfl⟩ := hi.mro_iff.1 hl
    refine ⟨rfl, fun y hy => ?_⟩
    rcases List.mem_cons.1 hy with rfl | hy
    · exact ⟨.refl _, Nat.le_refl _⟩
    · obtain ⟨l', hl', hy⟩ := (h2.mem y).1 hy
      rcases List.mem_append.1 hl' with hl' | hl'
      · obtain ⟨b, hb, hbl⟩ : ∃ b ∈ h.bases c, h.mro b = some l' := forall₂_pre h1 hl'
        obtain ⟨s1, s2⟩ := (ih b (hi.bases_lt hb) hbl).2 y hy
        have := hi.bases_lt hb
        exact ⟨.step hb s1, by omega⟩
      · rw [List.mem_singleton.1 hl'] at hy
        have := hi.bases_lt hy
        exact ⟨.step hy (.refl _), by omega⟩

/-- The MROs of the bases go into that of the class. -/
theorem Inv.mro_base {h : Heap} (hi : h.Inv) {c : Nat} {l : List Nat} (hl : h.mro c = some l) {b : Nat}
    (hb : b ∈ h.bases c) : ∃ lb, h.mro b = some lb ∧ lb ⊆ l := by
  obtain ⟨ls, r, h1, h2, rfl⟩ := hi.mro_iff.1 hl
  obtain ⟨lb, hlb, e⟩ := forall₂_left h1 hb
  exact ⟨lb, e, fun y hy => List.mem_cons_of_mem _ ((h2.mem y).2 ⟨lb, by simp [hlb], hy⟩)⟩

theorem Inv.mro_cover {h : Heap} (hi : h.Inv) {c : Nat} {l : List Nat} (hl : h.mro c = some l) {y : Nat} (hy : y ∈ l) :
    y = c ∨ ∃ b ∈ h.bases c, ∃ lb, h.mro b = some lb ∧ y ∈ lb := by
  obtain ⟨ls, r, h1, h2, rfl⟩ := hi.mro_iff.1 hl
  rcases List.mem_cons.1 hy with rfl | hy
  · exact .inl rfl
  · obtain ⟨l', hl', hy⟩ := (h2.mem y).1 hy
    rcases List.mem_append.1 hl' with hl' | hl'
    · obtain ⟨b, hb, e⟩ : ∃ b ∈ h.bases c, h.mro b = some l' := forall₂_pre h1 hl'
      exact .inr ⟨b, hb, l', e, hy⟩
    · rw [List.mem_singleton.1 hl'] at hy
      obtain ⟨lb, hlb, e⟩ := forall₂_left h1 hy
      exact .inr ⟨y, hy, lb, e, List.mem_of_mem_head? (hi.mro_mem y e).1⟩

theorem Inv.mro_nodup {h : Heap} (hi : h.Inv) {c : Nat} {l : List Nat} (hl : h.mro c = some l) : l.Nodup := by
  obtain ⟨ls, r, h1, h2, rfl⟩ := hi.mro_iff.1 hl
  refine List.nodup_cons.2 ⟨fun hc => ?_, h2.nodup⟩
  rcases (h2.mem c).1 hc with ⟨l', hl', hc⟩
  rcases List.mem_append.1 hl' with hl' | hl'
  · obtain ⟨b, hb, e⟩ : ∃ b ∈ h.bases c, h.mro b = some l' := forall₂_pre h1 hl'
    have := ((hi.mro_mem b e).2 c hc).2
    have := hi.bases_lt hb
    omega
  · rw [List.mem_singleton.1 hl'] at hc
    exact Nat.lt_irrefl _ (hi.bases_lt hc)

/-- The bases of a sized class. -/
theorem Inv.sized_bases {h : Heap} (hi : h.Inv) {c t : Nat} {n : Int} (hl : h.lookup c n = some t) :
    h.size t = some n ∧ h.size c = none ∧ h.isVec c = true ∧
    ∃ bs, h.bases t = c :: bs ∧ List.Forall₂ (fun b d => h.lookup b n = some d) ((h.bases c).filter h.isVec) bs := by
  obtain ⟨hal, hm⟩ := hi.lookup_made hl
  obtain ⟨k, hk, kv, ks, ku⟩ := id hm
  obtain ⟨-, -, m3, m4, bs, m5, m6⟩ := (hi.good t k hk).made kv n c ks ku
  refine ⟨hm.facts.1, m4, m3, bs, ?_, ?_⟩
  · unfold Heap.bases; rw [hk]; exact m5
  · have hcl := (hi.closed t k hk hal.2).1
    have key : ∀ {us ds : List Nat}, List.Forall₂ (fun b d => MadeAs h.classes d b n) us ds → (∀ d ∈ ds, d ∉ h.dead) →
        List.Forall₂ (fun b d => h.lookup b n = some d) us ds := by
      intro us ds hf
      induction hf with
      | nil => intro _; exact .nil
      | @cons b d us ds h1 _ ih =>
        intro hd
        refine .cons ?_ (ih fun d hd' => hd d (by simp [hd']))
        obtain ⟨k', hk', kv', ks', ku'⟩ := id h1
        exact hi.complete d b n (hd d (by simp)) h1 ⟨k', hk', ((hi.good d k' hk').made kv' n b ks' ku').2.1⟩
    exact key m6 fun d hd => hcl d (by rw [m5]; simp [hd])

/-- Every vector class the MRO lists has been sized too. -/
theorem Inv.sized_all {h : Heap} (hi : h.Inv) {n : Int} : ∀ (c : Nat) {t : Nat} {l : List Nat}, h.lookup c n = some t →
    h.mro c = some l → ∀ y ∈ l, h.isVec y = true → ∃ d, h.lookup y n = some d := by
  intro c
  induction c using Nat.strong_induction_on with
  | _ c ih =>
    intro t l hl hm y hy hv
    rcases hi.mro_cover hm hy with rfl | ⟨b, hb, lb, e, hyb⟩
    · exact ⟨t, hl⟩
    · obtain ⟨-, -, -, bs, -, hf⟩ := hi.sized_bases hl
      have hbv : h.isVec b = true := by
        by_contra hc
        have := hi.plain_super ((hi.mro_mem b e).2 y hyb).1 (by simpa using hc)
        rw [hv] at this; cases this
      obtain ⟨d, -, hd⟩ := forall₂_left hf (List.mem_filter.2 ⟨hb, hbv⟩)
      exact ih b (hi.bases_lt hb) hd e y hyb hv

/-- Without the sized classes it is the MRO of the class. -/
theorem Inv.mro_erase {h : Heap} (hi : h.Inv) {n : Int} : ∀ (c : Nat) {t : Nat} {L : List Nat}, h.lookup c n = some t →
    h.mro t = some L → ∃ l, h.mro c = some l ∧ L.filter (fun x => (h.size x).isNone) = l := by
  intro c
  induction c using Nat.strong_induction_on with
  | _ c ih =>
    intro t L hl hL
    obtain ⟨ht, hc, hcv, bs, hbs, hf⟩ := hi.sized_bases hl
    obtain ⟨l, hlc, -⟩ := hi.mro_base hL (b := c) (by rw [hbs]; simp)
    refine ⟨l, hlc, ?_⟩
    have hlun : ∀ y ∈ l, (h.size y).isNone = true := fun y hy => by
      rw [hi.unsized_super ((hi.mro_mem c hlc).2 y hy).1 hc]; rfl
    obtain ⟨ls, R, h1, h2, rfl⟩ := hi.mro_iff.1 hL
    have hsub : l.Sublist R := h2.sublist l (by
      rw [hbs] at h1
      cases h1 with
      | cons e _ => rw [hlc] at e; cases e; simp)
    rw [List.filter_cons, if_neg (by rw [ht]; simp)]
    have hsub' : l.Sublist (R.filter fun x => (h.size x).isNone) := by
      have := hsub.filter (fun x => (h.size x).isNone)
      rwa [List.filter_eq_self.2 hlun] at this
    refine (hsub'.eq_of_length_le ?_).symm
    refine ((h2.nodup.filter _).subperm ?_).length_le
    intro x hx
    obtain ⟨hx, hxs⟩ := List.mem_filter.1 hx
    have hxL : x ∈ t :: R := List.mem_cons_of_mem _ hx
    rcases hi.mro_cover hL hxL with rfl | ⟨b, hb, lb, e, hxb⟩
    · rw [ht] at hxs; cases hxs
    · rw [hbs] at hb
      rcases List.mem_cons.1 hb with rfl | hb
      · rw [hlc] at e; cases e; exact hxb
      · obtain ⟨u, hu, hud⟩ : ∃ u ∈ (h.bases c).filter h.isVec, h.lookup u n = some b := forall₂_pre hf hb
        have huc := (List.mem_filter.1 hu).1
        obtain ⟨lu, hlu, efu⟩ := ih u (hi.bases_lt huc) hud e
        obtain ⟨lu', hlu', hsu⟩ := hi.mro_base hlc huc
        rw [hlu] at hlu'; cases hlu'
        exact hsu (by rw [← efu]; exact List.mem_filter.2 ⟨hxb, hxs⟩)

/-- No plain base stands between two vector bases. -/
def Grouped (h : Heap) (c : Nat) : Prop := ∃ p V q, h.bases c = p ++ (V ++ q) ∧ (∀ y ∈ p, h.isVec y = false) ∧
  (∀ y ∈ V, h.isVec y = true) ∧ ∀ y ∈ q, h.isVec y = false

/-- The sized version, of those that have one. -/
def szd (h : Heap) (n : Int) (x : Nat) : Nat := (h.lookup x n).getD 0

theorem szd_eq {h : Heap} {n : Int} {x d : Nat} (e : h.lookup x n = some d) : h.szd n x = d := by
  unfold szd; rw [e]; rfl

theorem images_mapM {h : Heap} {v : Nat → Bool} {s : Nat → Nat} : ∀ {bs : List Nat} {ls : List (List Nat)},
    List.Forall₂ (fun b lb => h.mro b = some lb) bs ls →
    (∀ b ∈ bs, v b = true → ∀ lb, h.mro b = some lb → h.mro (s b) = some (lb.flatMap (withSized v s))) →
    List.Forall₂ (fun b lb => h.mro b = some lb) (baseImage v s bs)
      (images v s (List.zipWith (fun b lb => (v b, lb)) bs ls)) := by
  intro bs ls hf
  induction hf with
  | nil => intro _; exact .nil
  | @cons b lb bs ls h1 _ ih =>
    intro hb
    have ih := ih fun b hb' => hb b (by simp [hb'])
    by_cases hv : v b = true
    · have e1 : baseImage v s (b :: bs) = s b :: baseImage v s bs := by simp [baseImage, hv]
      have e2 : images v s (List.zipWith (fun b lb => (v b, lb)) (b :: bs) (lb :: ls)) =
          lb.flatMap (withSized v s) :: images v s (List.zipWith (fun b lb => (v b, lb)) bs ls) := by
        simp [images, hv]
      rw [e1, e2]
      exact .cons (hb b (by simp) hv lb h1) ih
    · have e1 : baseImage v s (b :: bs) = baseImage v s bs := by simp [baseImage, hv]
      have e2 : images v s (List.zipWith (fun b lb => (v b, lb)) (b :: bs) (lb :: ls)) =
          images v s (List.zipWith (fun b lb => (v b, lb)) bs ls) := by
        simp [images, hv]
      rw [e1, e2]; exact ih

theorem zip_snd {α β γ : Type} (f : α → γ) {R : α → β → Prop} : ∀ {l : List α} {m : List β}, List.Forall₂ R l m →
    (List.zipWith (fun a b => (f a, b)) l m).map (·.2) = m
  | _, _, .nil => rfl
  | _, _, .cons _ h => by simp only [List.zipWith_cons_cons, List.map_cons, zip_snd f h]

theorem mem_zip {α β γ : Type} (f : α → γ) {R : α → β → Prop} : ∀ {l : List α} {m : List β}, List.Forall₂ R l m →
    ∀ e ∈ List.zipWith (fun a b => (f a, b)) l m, ∃ a ∈ l, R a e.2 ∧ e.1 = f a
  | _, _, .nil, e, he => by cases he
  | _, _, .cons h hs, e, he => by
      simp only [List.zipWith_cons_cons, List.mem_cons] at he
      rcases he with rfl | he
      · exact ⟨_, by simp, h, rfl⟩
      · obtain ⟨a, h1, h2⟩ := mem_zip f hs e he
        exact ⟨a, by simp [h1], h2⟩

theorem zip_mem {α β γ : Type} (f : α → γ) {R : α → β → Prop} : ∀ {l : List α} {m : List β}, List.Forall₂ R l m →
    ∀ a ∈ l, ∃ b, R a b ∧ (f a, b) ∈ List.zipWith (fun a b => (f a, b)) l m
  | _, _, .nil, a, h => by cases h
  | _, _, .cons h hs, a, ha => by
      rcases List.mem_cons.1 ha with rfl | ha
      · exact ⟨_, h, by simp⟩
      · obtain ⟨b, h1, h2⟩ := zip_mem f hs a ha
        exact ⟨b, h1, by simp [h2]⟩

/-- The MRO of the sized class: every vector class of the MRO goes after its sized version. -/
theorem Inv.mro_sized {h : Heap} (hi : h.Inv) {n : Int} : ∀ (c : Nat) {t : Nat} {l : List Nat}, h.lookup c n = some t →
    h.mro c = some l → (∀ y ∈ l, h.isVec y = true → h.Grouped y) →
    h.mro t = some (l.flatMap (withSized h.isVec (h.szd n))) := by
  intro c
  induction c using Nat.strong_induction_on with
  | _ c ih =>
    intro t l hl hm hg
    obtain ⟨ht, hc, hcv, bs, hbs, hf⟩ := hi.sized_bases hl
    have hall := hi.sized_all c hl hm
    have hlun : ∀ y ∈ l, h.size y = none := fun y hy => hi.unsized_super ((hi.mro_mem c hm).2 y hy).1 hc
    have hbase := fun {b} (hb : b ∈ h.bases c) => hi.mro_base hm hb
    have hhead := (hi.mro_mem c hm).1
    have hcl : c ∈ l := List.mem_of_mem_head? hhead
    have hnd := hi.mro_nodup hm
    obtain ⟨ls, r, h1, h2, rfl⟩ := hi.mro_iff.1 hm
    have hbs' : bs = baseImage h.isVec (h.szd n) (h.bases c) := by
      unfold baseImage
      clear hbs h2 h1
      revert hf
      generalize (h.bases c).filter h.isVec = us
      intro hf
      induction hf with
      | nil => rfl
      | cons e _ ih => rw [List.map_cons, szd_eq e, ih]
    -- the state
    have hs : ∀ x y, x ∈ c :: r → y ∈ c :: r → h.isVec x = true → h.szd n x ≠ y := by
      intro x y hx hy hv e
      obtain ⟨d, hd⟩ := hall x hx hv
      rw [szd_eq hd] at e
      have := (hi.sized_bases hd).1
      rw [e, hlun y hy] at this; cases this
    have hinj : ∀ x y, x ∈ c :: r → y ∈ c :: r → h.isVec x = true → h.isVec y = true → h.szd n x = h.szd n y → x = y := by
      intro x y hx hy hv hv' e
      obtain ⟨d, hd⟩ := hall x hx hv
      obtain ⟨d', hd'⟩ := hall y hy hv'
      rw [szd_eq hd, szd_eq hd'] at e
      subst e
      obtain ⟨-, k, hk, -, -, ku⟩ := hi.lookup_made hd
      obtain ⟨-, k', hk', -, -, ku'⟩ := hi.lookup_made hd'
      rw [hk] at hk'; cases hk'
      rw [ku] at ku'; exact Option.some.inj ku'
    have hst : StateInv h.isVec (· ∈ c :: r) (List.zipWith (fun b lb => (h.isVec b, lb)) (h.bases c) ls) (h.bases c) := by
      have sub : ∀ e ∈ List.zipWith (fun b lb => (h.isVec b, lb)) (h.bases c) ls, ∀ y ∈ e.2, y ∈ c :: r := by
        intro e he y hy
        obtain ⟨b, hb, hbm, -⟩ := mem_zip h.isVec h1 e he
        obtain ⟨lb, e1, e2⟩ := hbase hb
        rw [hbm] at e1; cases e1
        exact e2 hy
      refine ⟨sub, fun y hy => ?_, fun e he h3 y hy => ?_, fun e he y hy hv => ?_, fun y hy hv => ?_, ?_⟩
      · obtain ⟨lb, e1, e2⟩ := hbase hy
        exact e2 (List.mem_of_mem_head? (hi.mro_mem y e1).1)
      · obtain ⟨b, hb, hbm, h4⟩ := mem_zip h.isVec h1 e he
        exact hi.plain_super ((hi.mro_mem b hbm).2 y hy).1 (h4.symm.trans h3)
      · refine ⟨e, he, ?_, hy⟩
        by_contra h3
        obtain ⟨b, hb, hbm, h4⟩ := mem_zip h.isVec h1 e he
        have := hi.plain_super ((hi.mro_mem b hbm).2 y hy).1 (h4.symm.trans (by simpa using h3))
        rw [hv] at this; cases this
      · obtain ⟨lb, h3, h4⟩ := zip_mem h.isVec h1 y hy
        exact ⟨_, h4, hv, List.mem_of_mem_head? (hi.mro_mem y h3).1⟩
      · obtain ⟨p, V, q, e, hp, hV, hq⟩ := hg c (by simp) hcv
        cases p with
        | nil => exact .inl ⟨V, q, e, hV, hq⟩
        | cons a p =>
          refine .inr ⟨a, p, V, q, e, hp a (by simp), fun y hy => hp y (by simp [hy]), hV, hq, fun e' he' h3 => ?_⟩
          obtain ⟨b, hb, hbm, h4⟩ := mem_zip h.isVec h1 e' he'
          have hbv : h.isVec b = true := h4.symm.trans h3
          refine ⟨b, ?_, (hi.mro_mem b hbm).1⟩
          rw [e] at hb
          simp only [List.mem_append] at hb
          rcases hb with hb | hb | hb
          · rw [hp b hb] at hbv; cases hbv
          · exact hb
          · rw [hq b hb] at hbv; cases hbv
    have hmi := merge_images hs hinj (by rw [zip_snd h.isVec h1]; exact h2) hst
    have hrec := images_mapM (v := h.isVec) (s := h.szd n) h1 fun b hb hv lb hlb => by
      obtain ⟨lb', e1, e2⟩ := hbase hb
      rw [hlb] at e1; cases e1
      obtain ⟨d, hd⟩ := hall b (e2 (List.mem_of_mem_head? (hi.mro_mem b hlb).1)) hv
      rw [szd_eq hd]
      exact ih b (hi.bases_lt hb) hd hlb fun y hy hvy => hg y (e2 hy) hvy
    -- the class itself
    refine hi.mro_iff.2 ⟨(c :: r) :: images h.isVec (h.szd n) (List.zipWith (fun b lb => (h.isVec b, lb)) (h.bases c) ls),
      c :: r.flatMap (withSized h.isVec (h.szd n)), ?_, ?_, ?_⟩
    · rw [hbs, hbs']; exact .cons hm hrec
    · rw [hbs, hbs']
      have cB : c ∉ baseImage h.isVec (h.szd n) (h.bases c) := by
        intro hcc
        simp only [baseImage, List.mem_map, List.mem_filter] at hcc
        obtain ⟨y, ⟨hy, hv⟩, e⟩ := hcc
        exact hs y c (hst.domB y hy) (by simp) hv e
      have cI : ∀ l' ∈ images h.isVec (h.szd n) (List.zipWith (fun b lb => (h.isVec b, lb)) (h.bases c) ls), c ∉ l' := by
        intro l' hl' hcc
        simp only [images, List.mem_map, List.mem_filter] at hl'
        obtain ⟨e, ⟨he, -⟩, rfl⟩ := hl'
        rcases mem_flat.1 hcc with hcc | ⟨y, hy, hv, e'⟩
        · obtain ⟨b, hb, hbm, -⟩ := mem_zip h.isVec h1 e he
          have := ((hi.mro_mem b hbm).2 c hcc).2
          have := hi.bases_lt hb
          omega
        · exact hs y c (hst.dom e he y hy) (by simp) hv e'.symm
      refine .cons ?_ ?_
      · unfold pick
        rw [List.cons_append, findHead_cons, if_pos]
        rw [free_iff]
        intro l' hl'
        simp only [List.mem_cons, List.mem_append, List.not_mem_nil, or_false] at hl'
        rcases hl' with rfl | hl' | rfl
        · exact (List.nodup_cons.1 hnd).1
        · exact fun hcc => cI l' hl' (List.mem_of_mem_tail hcc)
        · exact cB
      · rw [unhead_eq]
        simp only [List.map_cons, List.map_append, List.map_nil]
        rw [untop_cons, untop_cons]
        have : (images h.isVec (h.szd n) (List.zipWith (fun b lb => (h.isVec b, lb)) (h.bases c) ls)).map (untop c) =
            images h.isVec (h.szd n) (List.zipWith (fun b lb => (h.isVec b, lb)) (h.bases c) ls) := by
          conv_rhs => rw [← List.map_id (images _ _ _)]
          exact List.map_congr_left fun l' hl' => untop_ne (cI l' hl')
        rw [this]; exact hmi
    · rw [List.flatMap_cons, withSized_vec hcv, szd_eq hl]; rfl

end Heap
end HW.Cls
