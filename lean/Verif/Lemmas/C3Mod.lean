import Verif.Lemmas.C3Heap

/-! # MROs over any table of bases, and of classes that repeat a hierarchy -/

namespace HW.Cls

variable {B : Nat → List Nat}

/-- `C.__mro__` over a table of bases. -/
abbrev mroB (B : Nat → List Nat) (c : Nat) : Option (List Nat) := mroF B (c + 1) c

theorem mroB_linear (hB : ∀ c, ∀ b ∈ B c, b < c) (c : Nat) : mroB B c = (do
    let ls ← (B c).mapM (mroB B)
    let r ← pmerge (total (ls ++ [B c])) (ls ++ [B c])
    return c :: r) := by
  have e : (B c).mapM (mroF B c) = (B c).mapM (mroB B) := mapM_congr_opt fun b hb =>
    mroF_congr b (fun d _ b' hb' => hB d b' hb') (fun _ _ => rfl) (hB c b hb) (Nat.lt_succ_self _)
  rw [mroB, mroF, e]

theorem linear_iff {f : Nat → Option (List Nat)} {bs r : List Nat} : (do
    let ls ← bs.mapM f
    pmerge (total (ls ++ [bs])) (ls ++ [bs])) = some r ↔
    ∃ ls, List.Forall₂ (fun b lb => f b = some lb) bs ls ∧ Merge (ls ++ [bs]) r := by
  constructor
  · intro h
    cases hl : bs.mapM f with
    | none => rw [hl] at h; cases h
    | some ls =>
      rw [hl] at h
      exact ⟨ls, mapM_iff.1 hl, merge_iff.1 h⟩
  · rintro ⟨ls, h1, h2⟩
    rw [mapM_iff.2 h1]
    exact merge_iff.2 h2

theorem mroB_iff (hB : ∀ c, ∀ b ∈ B c, b < c) {c : Nat} {l : List Nat} : mroB B c = some l ↔
    ∃ ls r, List.Forall₂ (fun b lb => mroB B b = some lb) (B c) ls ∧ Merge (ls ++ [B c]) r ∧ l = c :: r := by
  rw [mroB_linear hB]
  constructor
  · intro h
    cases hl : (B c).mapM (mroB B) with
    | none => rw [hl] at h; cases h
    | some ls =>
      rw [hl] at h
      simp only [bind, Option.bind] at h
      cases hr : pmerge (total (ls ++ [B c])) (ls ++ [B c]) with
      | none => rw [hr] at h; cases h
      | some r =>
        rw [hr] at h; cases h
        exact ⟨ls, r, mapM_iff.1 hl, merge_iff.1 hr, rfl⟩
  · rintro ⟨ls, r, h1, h2, rfl⟩
    rw [mapM_iff.2 h1]
    simp only [bind, Option.bind]
    rw [merge_iff.2 h2]; rfl

/-- What holds of a class and goes over to bases holds of the classes of its MRO. -/
theorem mroB_ind (hB : ∀ c, ∀ b ∈ B c, b < c) {P : Nat → Prop} (hP : ∀ c, P c → ∀ b ∈ B c, P b) :
    ∀ (c : Nat) {l : List Nat}, mroB B c = some l → P c → ∀ y ∈ l, P y := by
  intro c
  induction c using Nat.strong_induction_on with
  | _ c ih =>
    intro l hl hc y hy
    obtain ⟨ls, r, h1, h2, rfl⟩ := (mroB_iff hB).1 hl
    rcases List.mem_cons.1 hy with rfl | hy
    · exact hc
    · obtain ⟨l', hl', hy⟩ := (h2.mem y).1 hy
      rcases List.mem_append.1 hl' with hl' | hl'
      · obtain ⟨b, hb, hbl⟩ : ∃ b ∈ B c, mroB B b = some l' := forall₂_pre h1 hl'
        exact ih b (hB c b hb) hbl (hP c hc b hb) y hy
      · rw [List.mem_singleton.1 hl'] at hy
        exact hP c hc y hy

theorem mroB_le (hB : ∀ c, ∀ b ∈ B c, b < c) {c : Nat} {l : List Nat} (hl : mroB B c = some l) : ∀ y ∈ l, y ≤ c :=
  mroB_ind hB (P := (· ≤ c)) (fun c' h b hb => by have := hB c' b hb; show b ≤ c; have : c' ≤ c := h; omega) c hl
    (Nat.le_refl _)

theorem mroB_head (hB : ∀ c, ∀ b ∈ B c, b < c) {c : Nat} {l : List Nat} (hl : mroB B c = some l) : ∃ r, l = c :: r := by
  obtain ⟨_, r, _, _, rfl⟩ := (mroB_iff hB).1 hl
  exact ⟨r, rfl⟩

theorem mroB_base (hB : ∀ c, ∀ b ∈ B c, b < c) {c : Nat} {l : List Nat} (hl : mroB B c = some l) {b : Nat}
    (hb : b ∈ B c) : ∃ lb, mroB B b = some lb ∧ lb ⊆ l := by
  obtain ⟨ls, r, h1, h2, rfl⟩ := (mroB_iff hB).1 hl
  obtain ⟨lb, hlb, e⟩ := forall₂_left h1 hb
  exact ⟨lb, e, fun y hy => List.mem_cons_of_mem _ ((h2.mem y).2 ⟨lb, by simp [hlb], hy⟩)⟩

theorem mroB_nodup (hB : ∀ c, ∀ b ∈ B c, b < c) {c : Nat} {l : List Nat} (hl : mroB B c = some l) : l.Nodup := by
  obtain ⟨ls, r, h1, h2, rfl⟩ := (mroB_iff hB).1 hl
  refine List.nodup_cons.2 ⟨fun hc => ?_, h2.nodup⟩
  rcases (h2.mem c).1 hc with ⟨l', hl', hc⟩
  rcases List.mem_append.1 hl' with hl' | hl'
  · obtain ⟨b, hb, e⟩ : ∃ b ∈ B c, mroB B b = some l' := forall₂_pre h1 hl'
    have := mroB_le hB e c hc
    have := hB c b hb
    omega
  · rw [List.mem_singleton.1 hl'] at hc
    exact Nat.lt_irrefl _ (hB c c hc)

/-- Every class before itself repeated. -/
abbrev twice (s : Nat → Nat) (l : List Nat) : List Nat := l.flatMap (withSized (fun _ => true) s)

theorem images_all {s : Nat → Nat} : ∀ {bs : List Nat} {ls : List (List Nat)},
    List.Forall₂ (fun b lb => mroB B b = some lb) bs ls →
    (∀ b ∈ bs, ∀ lb, mroB B b = some lb → mroB B (s b) = some (twice s lb)) →
    List.Forall₂ (fun b lb => mroB B b = some lb) (bs.map s) (ls.map (twice s))
  | _, _, .nil, _ => .nil
  | _, _, .cons h hs, hb => .cons (hb _ (by simp) _ h) (images_all hs fun b hb' => hb b (by simp [hb']))

/-- The merge for a class with bases `c` and the repeated bases of `c`. -/
theorem merge_twice (hB : ∀ c, ∀ b ∈ B c, b < c) {s : Nat → Nat} {c : Nat} {l : List Nat} (hm : mroB B c = some l)
    (hs : ∀ x ∈ l, ∀ y ∈ l, s x ≠ y) (hinj : ∀ x ∈ l, ∀ y ∈ l, s x = s y → x = y)
    (hb : ∀ b ∈ B c, ∀ lb, mroB B b = some lb → mroB B (s b) = some (twice s lb)) :
    ∃ ls, List.Forall₂ (fun b lb => mroB B b = some lb) (c :: (B c).map s) ls ∧
      Merge (ls ++ [c :: (B c).map s]) (c :: (twice s l).tail.tail) := by
  have hbase := fun {b} (h : b ∈ B c) => mroB_base hB hm h
  have hnd := mroB_nodup hB hm
  have hle := mroB_le hB hm
  obtain ⟨ls, r, h1, h2, rfl⟩ := (mroB_iff hB).1 hm
  let tl : List (Bool × List Nat) := ls.map fun l => (true, l)
  have htl : tl.map (·.2) = ls := by simp [tl]
  have him : images (fun _ => true) s tl = ls.map (twice s) := by
    simp only [images, tl]
    rw [List.filter_eq_self.2 (by simp), List.map_map]; rfl
  have hbi : baseImage (fun _ => true) s (B c) = (B c).map s := by
    simp only [baseImage]; rw [List.filter_eq_self.2 (by simp)]
  have hst : StateInv (fun _ => true) (· ∈ c :: r) tl (B c) := by
    have mem : ∀ e ∈ tl, ∃ b ∈ B c, mroB B b = some e.2 ∧ e.1 = true := by
      intro e he
      simp only [tl, List.mem_map] at he
      obtain ⟨l', hl', rfl⟩ := he
      obtain ⟨b, hb, hbl⟩ : ∃ b ∈ B c, mroB B b = some l' := forall₂_pre h1 hl'
      exact ⟨b, hb, hbl, rfl⟩
    refine ⟨fun e he y hy => ?_, fun y hy => ?_, fun e he h3 y hy => ?_, fun e he y hy _ => ?_, fun y hy _ => ?_, ?_⟩
    · obtain ⟨b, hb, hbl, -⟩ := mem e he
      obtain ⟨lb, e1, e2⟩ := hbase hb
      rw [hbl] at e1; cases e1
      exact e2 hy
    · obtain ⟨lb, e1, e2⟩ := hbase hy
      obtain ⟨_, rfl⟩ := mroB_head hB e1
      exact e2 (by simp)
    · obtain ⟨_, _, _, h4⟩ := mem e he
      rw [h3] at h4; cases h4
    · obtain ⟨_, _, _, h4⟩ := mem e he
      exact ⟨e, he, h4, hy⟩
    · obtain ⟨lb, hlb, e⟩ := forall₂_left h1 hy
      obtain ⟨r', rfl⟩ := mroB_head hB e
      exact ⟨(true, y :: r'), by simp only [tl, List.mem_map]; exact ⟨_, hlb, rfl⟩, rfl, by simp⟩
    · exact .inl ⟨B c, [], by simp, fun _ _ => rfl, nofun⟩
  have hmi := merge_images (v := fun _ => true) (s := s) (D := (· ∈ c :: r)) (fun x y hx hy _ => hs x hx y hy)
    (fun x y hx hy _ _ e => hinj x hx y hy e) (by rw [htl]; exact h2) hst
  rw [him, hbi] at hmi
  refine ⟨(c :: r) :: ls.map (twice s), .cons hm (images_all h1 hb), ?_⟩
  have e : (twice s (c :: r)).tail.tail = twice s r := rfl
  rw [e]
  have cB : c ∉ (B c).map s := by
    intro hcc
    obtain ⟨y, hy, e⟩ := List.mem_map.1 hcc
    exact hs y (hst.domB y hy) c (by simp) e
  have cI : ∀ l' ∈ ls.map (twice s), c ∉ l' := by
    intro l' hl' hcc
    obtain ⟨l0, hl0, rfl⟩ := List.mem_map.1 hl'
    obtain ⟨b, hb', hbl⟩ : ∃ b ∈ B c, mroB B b = some l0 := forall₂_pre h1 hl0
    rcases mem_flat.1 hcc with hcc | ⟨y, hy, -, e'⟩
    · have := mroB_le hB hbl c hcc
      have := hB c b hb'
      omega
    · obtain ⟨lb, e1, e2⟩ := hbase hb'
      rw [hbl] at e1; cases e1
      exact hs y (e2 hy) c (by simp) e'.symm
  refine .cons ?_ ?_
  · unfold pick
    rw [List.cons_append, findHead_cons, if_pos]
    rw [free_iff]
    intro l' hl'
    simp only [List.mem_cons, List.mem_append, List.not_mem_nil, or_false] at hl'
    rcases hl' with rfl | hl' | rfl
    · exact (List.nodup_cons.1 hnd).1
    · exact fun hcc => cI l' hl' (List.mem_of_mem_tail hcc)
    · exact cB
  · rw [unhead_eq]
    simp only [List.map_cons, List.map_append, List.map_nil, List.cons_append]
    rw [untop_cons, untop_cons]
    have : (ls.map (twice s)).map (untop c) = ls.map (twice s) := by
      conv_rhs => rw [← List.map_id (ls.map (twice s))]
      exact List.map_congr_left fun l' hl' => untop_ne (cI l' hl')
    rw [this]; exact hmi

/-- The MRO of a class that repeats `c`. -/
theorem mroB_twice (hB : ∀ c, ∀ b ∈ B c, b < c) {s : Nat → Nat} : ∀ (c : Nat) {l : List Nat}, mroB B c = some l →
    (∀ x ∈ l, B (s x) = x :: (B x).map s) → (∀ x ∈ l, ∀ y ∈ l, s x ≠ y) → (∀ x ∈ l, ∀ y ∈ l, s x = s y → x = y) →
    mroB B (s c) = some (twice s l) := by
  intro c
  induction c using Nat.strong_induction_on with
  | _ c ih =>
    intro l hl hb hs hinj
    obtain ⟨ls, h1, h2⟩ := merge_twice hB hl hs hinj fun b hbc lb hlb => by
      obtain ⟨lb', e1, e2⟩ := mroB_base hB hl hbc
      rw [hlb] at e1; cases e1
      exact ih b (hB c b hbc) hlb (fun x hx => hb x (e2 hx)) (fun x hx y hy => hs x (e2 hx) y (e2 hy))
        (fun x hx y hy => hinj x (e2 hx) y (e2 hy))
    obtain ⟨r, rfl⟩ := mroB_head hB hl
    have hbc := hb c (by simp)
    exact (mroB_iff hB).2 ⟨ls, _, by rw [hbc]; exact h1, by rw [hbc]; exact h2, rfl⟩

end HW.Cls
