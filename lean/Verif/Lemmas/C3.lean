import Verif.Model.C3
import Verif.Lemmas.ClassHeap
import Mathlib.Data.List.Nodup
import Mathlib.Data.List.Perm.Subperm

/-! # C3 merges -/

namespace HW.Cls

/-- The merge of some lists. -/
inductive Merge : List (List Nat) → List Nat → Prop
  | nil {ls} : (∀ l ∈ ls, l = []) → Merge ls []
  | cons {ls x r} : pick ls = some x → Merge (unhead x ls) r → Merge ls (x :: r)

theorem free_iff {ls : List (List Nat)} {x : Nat} : free ls x = true ↔ ∀ l ∈ ls, x ∉ l.tail := by
  simp [free]

theorem pick_spec {ls : List (List Nat)} {x : Nat} (h : pick ls = some x) :
    free ls x = true ∧ ∃ l ∈ ls, l.head? = some x := by
  refine ⟨List.find?_some h, ?_⟩
  have := List.mem_of_find?_eq_some h
  simpa using this

theorem pick_empty {ls : List (List Nat)} (h : ∀ l ∈ ls, l = []) : pick ls = none := by
  unfold pick
  have : ls.filterMap List.head? = [] := by
    simp only [List.filterMap_eq_nil_iff]
    intro l hl; rw [h l hl]; rfl
  rw [this]; rfl

/-- A list without its head `x`. -/
theorem mem_unhead {x : Nat} {ls : List (List Nat)} {l' : List Nat} (h : l' ∈ unhead x ls) :
    ∃ l ∈ ls, (l = x :: l') ∨ (l = l' ∧ l.head? ≠ some x) := by
  simp only [unhead, List.mem_map] at h
  obtain ⟨l, hl, rfl⟩ := h
  refine ⟨l, hl, ?_⟩
  cases l with
  | nil => right; simp
  | cons a t =>
    by_cases ha : a = x
    · subst ha; left; simp
    · right; simp [ha]

/-- What was picked is gone. -/
theorem unhead_not_mem {x : Nat} {ls : List (List Nat)} (hf : free ls x = true) {l' : List Nat} (h : l' ∈ unhead x ls) :
    x ∉ l' := by
  obtain ⟨l, hl, rfl | ⟨rfl, hne⟩⟩ := mem_unhead h
  · exact free_iff.1 hf _ hl
  · have := free_iff.1 hf _ hl
    cases l with
    | nil => simp
    | cons a t =>
      simp only [List.head?_cons, ne_eq, Option.some.injEq] at hne
      simp only [List.mem_cons, not_or]
      exact ⟨fun e => hne e.symm, this⟩

theorem Merge.mem {ls : List (List Nat)} {r : List Nat} (h : Merge ls r) (y : Nat) : y ∈ r ↔ ∃ l ∈ ls, y ∈ l := by
  induction h with
  | nil h =>
    simp only [List.not_mem_nil, false_iff, not_exists, not_and]
    intro l hl; rw [h l hl]; simp
  | @cons ls x r hp _ ih =>
    obtain ⟨hf, l0, hl0, hh0⟩ := pick_spec hp
    rw [List.mem_cons, ih]
    constructor
    · rintro (rfl | ⟨l', hl', hy⟩)
      · exact ⟨l0, hl0, List.mem_of_mem_head? hh0⟩
      · obtain ⟨l, hl, rfl | ⟨rfl, -⟩⟩ := mem_unhead hl'
        · exact ⟨_, hl, by simp [hy]⟩
        · exact ⟨_, hl, hy⟩
    · rintro ⟨l, hl, hy⟩
      by_cases hyx : y = x
      · exact .inl hyx
      · refine .inr ⟨_, List.mem_map.2 ⟨l, hl, rfl⟩, ?_⟩
        cases l with
        | nil => cases hy
        | cons a t =>
          by_cases ha : a = x
          · subst ha
            simp only [List.head?_cons, if_true, List.tail_cons]
            exact (List.mem_cons.1 hy).resolve_left hyx
          · simpa [ha] using hy

theorem Merge.nodup {ls : List (List Nat)} {r : List Nat} (h : Merge ls r) : r.Nodup := by
  induction h with
  | nil => simp
  | @cons ls x r hp hm ih =>
    refine List.nodup_cons.2 ⟨fun hx => ?_, ih⟩
    obtain ⟨l, hl, hx⟩ := (hm.mem x).1 hx
    exact unhead_not_mem (pick_spec hp).1 hl hx

theorem Merge.sublist {ls : List (List Nat)} {r : List Nat} (h : Merge ls r) : ∀ l ∈ ls, l.Sublist r := by
  induction h with
  | nil h => intro l hl; rw [h l hl]
  | @cons ls x r hp hm ih =>
    intro l hl
    have := ih _ (List.mem_map.2 ⟨l, hl, rfl⟩)
    cases l with
    | nil => simp
    | cons a t =>
      by_cases ha : a = x
      · subst ha
        simp only [List.head?_cons, if_true, List.tail_cons] at this
        exact this.cons_cons _
      · simp only [List.head?_cons, Option.some.injEq, ha, if_false] at this
        exact this.cons _

theorem total_unhead {x : Nat} : ∀ {ls : List (List Nat)}, total (unhead x ls) ≤ total ls ∧
    ((∃ l ∈ ls, l.head? = some x) → total (unhead x ls) < total ls)
  | [] => by simp [total, unhead]
  | l :: ls => by
      obtain ⟨h1, h2⟩ := total_unhead (x := x) (ls := ls)
      have e : total (unhead x (l :: ls)) = (if l.head? = some x then l.tail else l).length + total (unhead x ls) := by
        simp [total, unhead]
      have e' : total (l :: ls) = l.length + total ls := by simp [total]
      rw [e, e']
      cases l with
      | nil => simp only [List.head?_nil, reduceCtorEq, if_false, List.length_nil]; refine ⟨by omega, ?_⟩
               rintro ⟨l, hl, hx⟩
               rcases List.mem_cons.1 hl with rfl | hl
               · cases hx
               · have := h2 ⟨l, hl, hx⟩; omega
      | cons a t =>
        by_cases ha : a = x
        · subst ha
          simp only [List.head?_cons, if_true, List.tail_cons, List.length_cons]
          exact ⟨by omega, fun _ => by omega⟩
        · simp only [List.head?_cons, Option.some.injEq, ha, if_false, List.length_cons]
          refine ⟨by omega, ?_⟩
          rintro ⟨l, hl, hx⟩
          rcases List.mem_cons.1 hl with rfl | hl
          · exact absurd (Option.some.inj hx) ha
          · have := h2 ⟨l, hl, hx⟩; omega

theorem all_empty {ls : List (List Nat)} : ls.all List.isEmpty = true ↔ ∀ l ∈ ls, l = [] := by
  simp [List.all_eq_true, List.isEmpty_iff]

theorem pmerge_sound : ∀ {fuel : Nat} {ls : List (List Nat)} {r : List Nat}, pmerge fuel ls = some r → Merge ls r
  | 0, ls, r, h => by
      rw [pmerge] at h
      split at h
      · rename_i he; cases h; exact .nil (all_empty.1 he)
      · cases h
  | fuel + 1, ls, r, h => by
      rw [pmerge] at h
      split at h
      · rename_i he; cases h; exact .nil (all_empty.1 he)
      · cases hp : pick ls with
        | none => rw [hp] at h; cases h
        | some x =>
          rw [hp] at h
          obtain ⟨r', hr, rfl⟩ := Option.map_eq_some_iff.1 h
          exact .cons hp (pmerge_sound hr)

theorem pmerge_complete {ls : List (List Nat)} {r : List Nat} (h : Merge ls r) :
    ∀ {fuel : Nat}, total ls ≤ fuel → pmerge fuel ls = some r := by
  induction h with
  | nil h => intro fuel _; cases fuel <;> rw [pmerge, if_pos (all_empty.2 h)]
  | @cons ls x r hp hm ih =>
    intro fuel hf
    have ht := (total_unhead (x := x) (ls := ls)).2 (pick_spec hp).2
    have hne : ¬ ls.all List.isEmpty = true := fun he => by
      rw [pick_empty (all_empty.1 he)] at hp; cases hp
    cases fuel with
    | zero => omega
    | succ fuel => rw [pmerge, if_neg hne, hp]; dsimp only; rw [ih (fuel := fuel) (by omega)]; rfl

theorem merge_iff {ls : List (List Nat)} {r : List Nat} : pmerge (total ls) ls = some r ↔ Merge ls r :=
  ⟨pmerge_sound, fun h => pmerge_complete h (Nat.le_refl _)⟩

/-! ## The merge for a sized class -/

section
variable (v : Nat → Bool) (s : Nat → Nat)

/-- A vector class goes after its sized version. -/
def withSized (x : Nat) : List Nat := if v x then [s x, x] else [x]

/-- The lists to merge for the sized class, but for the first: those of the vector classes among the bases (marked), then
the sized bases. -/
def images (tl : List (Bool × List Nat)) : List (List Nat) :=
  (tl.filter (·.1)).map fun e => e.2.flatMap (withSized v s)

def baseImage (bl : List Nat) : List Nat := (bl.filter v).map s

/-- Takes off the head, keeping the marks. -/
def unheadT (x : Nat) (tl : List (Bool × List Nat)) : List (Bool × List Nat) :=
  tl.map fun e => (e.1, if e.2.head? = some x then e.2.tail else e.2)

def untop (x : Nat) (l : List Nat) : List Nat := if l.head? = some x then l.tail else l

/-- Vector classes first; or plain classes, then vector classes and as long as there are plain ones in front, no vector
base has been taken. -/
def BaseInv (tl : List (Bool × List Nat)) (bl : List Nat) : Prop :=
  (∃ V Q, bl = V ++ Q ∧ (∀ y ∈ V, v y = true) ∧ ∀ y ∈ Q, v y = false) ∨
  ∃ a p V Q, bl = a :: p ++ (V ++ Q) ∧ v a = false ∧ (∀ y ∈ p, v y = false) ∧ (∀ y ∈ V, v y = true) ∧
    (∀ y ∈ Q, v y = false) ∧ ∀ e ∈ tl, e.1 = true → ∃ y ∈ V, e.2.head? = some y

structure StateInv (D : Nat → Prop) (tl : List (Bool × List Nat)) (bl : List Nat) : Prop where
  dom : ∀ e ∈ tl, ∀ y ∈ e.2, D y
  domB : ∀ y ∈ bl, D y
  plain : ∀ e ∈ tl, e.1 = false → ∀ y ∈ e.2, v y = false
  full : ∀ e ∈ tl, ∀ y ∈ e.2, v y = true → ∃ e' ∈ tl, e'.1 = true ∧ y ∈ e'.2
  fullB : ∀ y ∈ bl, v y = true → ∃ e' ∈ tl, e'.1 = true ∧ y ∈ e'.2
  base : BaseInv v tl bl

variable {v s}

theorem withSized_vec {x : Nat} (h : v x = true) : withSized v s x = [s x, x] := if_pos h
theorem withSized_plain {x : Nat} (h : v x = false) : withSized v s x = [x] := by simp [withSized, h]

theorem mem_flat {l : List Nat} {z : Nat} : z ∈ l.flatMap (withSized v s) ↔ z ∈ l ∨ ∃ y ∈ l, v y = true ∧ z = s y := by
  simp only [List.mem_flatMap, withSized]
  constructor
  · rintro ⟨y, hy, hz⟩
    split at hz
    · rename_i hv
      simp only [List.mem_cons, List.not_mem_nil, or_false] at hz
      rcases hz with rfl | rfl
      · exact .inr ⟨y, hy, hv, rfl⟩
      · exact .inl hy
    · simp only [List.mem_cons, List.not_mem_nil, or_false] at hz
      subst hz; exact .inl hy
  · rintro (h | ⟨y, hy, hv, rfl⟩)
    · exact ⟨z, h, by split <;> simp⟩
    · exact ⟨y, hy, by simp [hv]⟩

theorem head_or_not_mem {ls : List (List Nat)} {x : Nat} (hf : free ls x = true) {l : List Nat} (hl : l ∈ ls) :
    (∃ t, l = x :: t ∧ x ∉ t) ∨ x ∉ l := by
  have := free_iff.1 hf l hl
  cases l with
  | nil => right; simp
  | cons a t =>
    by_cases ha : a = x
    · subst ha; exact .inl ⟨t, rfl, this⟩
    · right; simp only [List.mem_cons, not_or]; exact ⟨fun e => ha e.symm, this⟩

theorem untop_ne {x : Nat} {l : List Nat} (h : x ∉ l) : untop x l = l := by
  unfold untop
  rw [if_neg]
  intro e; exact h (List.mem_of_mem_head? e)

theorem untop_cons {x : Nat} {t : List Nat} : untop x (x :: t) = t := by simp [untop]

theorem unhead_eq (x : Nat) (ls : List (List Nat)) : unhead x ls = ls.map (untop x) := rfl

theorem unheadT_snd (x : Nat) (tl : List (Bool × List Nat)) (bl : List Nat) :
    (unheadT x tl).map (·.2) ++ [untop x bl] = unhead x (tl.map (·.2) ++ [bl]) := by
  simp [unheadT, unhead, untop, Function.comp_def]

theorem images_unhead {x : Nat} {tl : List (Bool × List Nat)} : images v s (unheadT x tl) =
    (tl.filter (·.1)).map fun e => (untop x e.2).flatMap (withSized v s) := by
  simp [images, unheadT, List.filter_map, Function.comp_def, untop]

theorem mem_unheadT {x : Nat} {tl : List (Bool × List Nat)} {e : Bool × List Nat} (h : e ∈ unheadT x tl) :
    ∃ e' ∈ tl, e'.1 = e.1 ∧ e.2 = untop x e'.2 := by
  simp only [unheadT, List.mem_map] at h
  obtain ⟨e', he', rfl⟩ := h
  exact ⟨e', he', rfl, rfl⟩

theorem untop_sub {x y : Nat} {l : List Nat} (h : y ∈ untop x l) : y ∈ l := by
  unfold untop at h
  split at h
  · exact List.mem_of_mem_tail h
  · exact h

theorem mem_untop {x y : Nat} {l : List Nat} (h : y ∈ l) (hne : y ≠ x) : y ∈ untop x l := by
  unfold untop
  split
  · cases l with
    | nil => cases h
    | cons a t =>
      rename_i ha
      simp only [List.head?_cons, Option.some.injEq] at ha
      subst ha
      exact (List.mem_cons.1 h).resolve_left hne
  · exact h

theorem mem_snd {tl : List (Bool × List Nat)} {e : Bool × List Nat} (h : e ∈ tl) (bl : List Nat) :
    e.2 ∈ tl.map (·.2) ++ [bl] := List.mem_append_left _ (List.mem_map.2 ⟨e, h, rfl⟩)

theorem StateInv.step {D : Nat → Prop} {tl : List (Bool × List Nat)} {bl : List Nat} (hi : StateInv v D tl bl) {x : Nat}
    (hp : pick (tl.map (·.2) ++ [bl]) = some x) : StateInv v D (unheadT x tl) (untop x bl) := by
  obtain ⟨hf, l0, hl0, hh0⟩ := pick_spec hp
  have hgone : ∀ {l'}, l' ∈ (unheadT x tl).map (·.2) ++ [untop x bl] → x ∉ l' := fun h =>
    unhead_not_mem hf (by rw [← unheadT_snd]; exact h)
  have keep : ∀ {y}, y ≠ x → (∃ e' ∈ tl, e'.1 = true ∧ y ∈ e'.2) → ∃ e' ∈ unheadT x tl, e'.1 = true ∧ y ∈ e'.2 := by
    rintro y hy ⟨e', he', h1, h2⟩
    exact ⟨_, List.mem_map.2 ⟨e', he', rfl⟩, h1, mem_untop h2 hy⟩
  refine ⟨fun e he y hy => ?_, fun y hy => hi.domB y (untop_sub hy), fun e he h1 y hy => ?_, fun e he y hy hv => ?_,
    fun y hy hv => ?_, ?_⟩
  · obtain ⟨e', he', -, h2⟩ := mem_unheadT he
    exact hi.dom e' he' y (untop_sub (h2 ▸ hy))
  · obtain ⟨e', he', h3, h2⟩ := mem_unheadT he
    exact hi.plain e' he' (h3.trans h1) y (untop_sub (h2 ▸ hy))
  · have hne : y ≠ x := fun e' => hgone (l' := e.2) (mem_snd he _) (e' ▸ hy)
    obtain ⟨e', he', -, h2⟩ := mem_unheadT he
    exact keep hne (hi.full e' he' y (untop_sub (h2 ▸ hy)) hv)
  · have hne : y ≠ x := fun e' => hgone (l' := untop x bl) (by simp) (e' ▸ hy)
    exact keep hne (hi.fullB y (untop_sub hy) hv)
  · rcases hi.base with ⟨V, Q, rfl, hV, hQ⟩ | ⟨a, p, V, Q, rfl, ha, hpl, hV, hQ, hh⟩
    · left
      unfold untop
      split
      · cases V with
        | nil => exact ⟨[], Q.tail, rfl, nofun, fun y hy => hQ y (List.mem_of_mem_tail hy)⟩
        | cons b V => exact ⟨V, Q, rfl, fun y hy => hV y (by simp [hy]), hQ⟩
      · exact ⟨V, Q, rfl, hV, hQ⟩
    · have heads : ∀ e ∈ unheadT x tl, e.1 = true → ∃ y ∈ V, e.2.head? = some y := by
        intro e he h1
        obtain ⟨e', he', h3, h2⟩ := mem_unheadT he
        obtain ⟨y, hy, hyh⟩ := hh e' he' (h3.trans h1)
        have hyx : y ≠ x := by
          rintro rfl
          have := free_iff.1 hf _ (List.mem_append_right _ (List.mem_singleton_self _))
          exact this (by simp [hy])
        refine ⟨y, hy, ?_⟩
        rw [h2, untop, if_neg (by rw [hyh]; simpa using hyx), hyh]
      unfold untop
      split
      · cases p with
        | nil => exact .inl ⟨V, Q, rfl, hV, hQ⟩
        | cons b p => exact .inr ⟨b, p, V, Q, rfl, hpl b (by simp), fun y hy => hpl y (by simp [hy]), hV, hQ, heads⟩
      · exact .inr ⟨a, p, V, Q, rfl, ha, hpl, hV, hQ, heads⟩

theorem findHead_nil {P : Nat → Bool} {ls : List (List Nat)} :
    (([] :: ls).filterMap List.head?).find? P = (ls.filterMap List.head?).find? P := rfl

theorem findHead_cons {P : Nat → Bool} {a : Nat} {t : List Nat} {ls : List (List Nat)} :
    (((a :: t) :: ls).filterMap List.head?).find? P = if P a then some a else (ls.filterMap List.head?).find? P := by
  rw [List.filterMap_cons]
  simp only [List.head?_cons]
  rw [List.find?_cons]
  cases P a <;> rfl

/-- Following the search for the next head. -/
theorem find_image {P Q : Nat → Bool} {x : Nat} (hx : v x = true) (hQ : Q (s x) = true) {bl : List Nat} :
    ∀ {tl : List (Bool × List Nat)}, (∀ e ∈ tl, e.1 = false → ∀ y ∈ e.2, v y = false) →
    (∀ e ∈ tl, e.1 = true → ∀ y, e.2.head? = some y → y ≠ x → (v y = false → Q y = false) ∧
      (v y = true → P y = false → Q (s y) = false)) →
    ((tl.map (·.2) ++ [bl]).filterMap List.head?).find? P = some x →
    ((images v s tl ++ [baseImage v s bl]).filterMap List.head?).find? Q = some (s x)
  | [], _, _, h => by
      cases bl with
      | nil => cases h
      | cons a t =>
        have ha : a = x := by
          simp only [List.map_nil, List.nil_append, List.filterMap_cons, List.head?_cons, List.filterMap_nil,
            List.find?_cons, List.find?_nil] at h
          split at h
          · exact Option.some.inj h
          · cases h
        subst ha
        simp [images, baseImage, hx, hQ]
  | (b, l) :: tl, h1, h2, h => by
      have ih := find_image (P := P) (Q := Q) hx hQ (bl := bl) (tl := tl) (fun e he => h1 e (by simp [he]))
        (fun e he => h2 e (by simp [he]))
      have cut : ∀ {y}, l.head? = some y → y ≠ x → P y = false ∧
          ((tl.map (·.2) ++ [bl]).filterMap List.head?).find? P = some x := by
        intro y hy hne
        simp only [List.map_cons, List.cons_append, List.filterMap_cons, hy, List.find?_cons] at h
        split at h
        · exact absurd (Option.some.inj h) hne
        · rename_i hP; exact ⟨hP, h⟩
      cases b with
      | false =>
        have e1 : images v s ((false, l) :: tl) = images v s tl := by simp [images]
        rw [e1]
        cases l with
        | nil => exact ih h
        | cons y t =>
          have hy := h1 (false, y :: t) (by simp) rfl y (by simp)
          exact ih (cut rfl (by rintro rfl; rw [hx] at hy; cases hy)).2
      | true =>
        have e1 : images v s ((true, l) :: tl) = l.flatMap (withSized v s) :: images v s tl := by simp [images]
        rw [e1]
        cases l with
        | nil => exact ih h
        | cons y t =>
          by_cases hne : y = x
          · subst hne
            rw [List.flatMap_cons, withSized_vec hx]
            simp only [List.cons_append]
            rw [findHead_cons, if_pos hQ]
          · obtain ⟨hP, h'⟩ := cut rfl hne
            obtain ⟨q1, q2⟩ := h2 (true, y :: t) (by simp) rfl y rfl hne
            have := ih h'
            by_cases hv : v y = true
            · rw [List.flatMap_cons, withSized_vec hv]
              simp only [List.cons_append]
              rw [findHead_cons, q2 hv hP]; exact this
            · have hv : v y = false := by simpa using hv
              rw [List.flatMap_cons, withSized_plain hv]
              simp only [List.cons_append]
              rw [findHead_cons, q1 hv]; exact this

/-- **Key step**: the merge for the sized class follows that for the class. -/
theorem merge_images {D : Nat → Prop} (hs : ∀ x y, D x → D y → v x = true → s x ≠ y)
    (hinj : ∀ x y, D x → D y → v x = true → v y = true → s x = s y → x = y) :
    ∀ {r : List Nat} {tl : List (Bool × List Nat)} {bl : List Nat}, Merge (tl.map (·.2) ++ [bl]) r →
    StateInv v D tl bl → Merge (r :: (images v s tl ++ [baseImage v s bl])) (r.flatMap (withSized v s))
  | [], tl, bl, h, hi => by
      have : ∀ l ∈ tl.map (·.2) ++ [bl], l = [] := by
        intro l hl
        rw [List.eq_nil_iff_forall_not_mem]
        intro y hy
        exact absurd ((h.mem y).2 ⟨l, hl, hy⟩) (by simp)
      refine .nil fun l hl => ?_
      simp only [List.mem_cons, List.mem_append, images, List.mem_map, List.mem_filter, List.not_mem_nil, or_false] at hl
      rcases hl with rfl | ⟨e, ⟨he, -⟩, rfl⟩ | rfl
      · rfl
      · rw [this e.2 (mem_snd he _)]; rfl
      · rw [this bl (by simp)]; rfl
  | x :: r, tl, bl, h, hi => by
      have hnd := h.nodup
      have hmem := h.mem
      cases h with
      | cons hp hm =>
      rw [← unheadT_snd] at hm
      have ih := merge_images hs hinj hm (hi.step hp)
      rw [images_unhead] at ih
      obtain ⟨hf, l0, hl0, hh0⟩ := pick_spec hp
      have hxr : x ∉ r := (List.nodup_cons.1 hnd).1
      have hD : ∀ y ∈ x :: r, D y := by
        intro y hy
        obtain ⟨l, hl, hy⟩ := (hmem y).1 hy
        simp only [List.mem_append, List.mem_map, List.mem_singleton] at hl
        rcases hl with ⟨e, he, rfl⟩ | rfl
        · exact hi.dom e he y hy
        · exact hi.domB y hy
      have hDx := hD x (by simp)
      have inT : ∀ e ∈ tl, e.2 ∈ tl.map (·.2) ++ [bl] := fun e he => mem_snd he _
      have hT : ∀ e ∈ tl, (∃ t, e.2 = x :: t ∧ x ∉ t) ∨ x ∉ e.2 := fun e he => head_or_not_mem hf (inT e he)
      have hB : (∃ t, bl = x :: t ∧ x ∉ t) ∨ x ∉ bl := head_or_not_mem hf (by simp)
      have xnotB : x ∉ baseImage v s bl := by
        simp only [baseImage, List.mem_map, List.mem_filter, not_exists, not_and, and_imp]
        intro y hy hv; exact hs y x (hi.domB y hy) hDx hv
      have xIn : ∀ e ∈ tl, x ∈ e.2.flatMap (withSized v s) → x ∈ e.2 := by
        intro e he hx
        rcases mem_flat.1 hx with hx | ⟨y, hy, hv, e'⟩
        · exact hx
        · exact absurd e'.symm (hs y x (hi.dom e he y hy) hDx hv)
      by_cases hv : v x = true
      · -- a vector class: first its sized version
        have sxIn : ∀ e ∈ tl, s x ∈ e.2.flatMap (withSized v s) → x ∈ e.2 := by
          intro e he hx
          rcases mem_flat.1 hx with hx | ⟨y, hy, hv', e'⟩
          · exact absurd rfl (hs x _ hDx (hi.dom e he _ hx) hv)
          · exact hinj x y hDx (hi.dom e he y hy) hv hv' e' ▸ hy
        have sxB : s x ∈ baseImage v s bl → x ∈ bl := by
          simp only [baseImage, List.mem_map, List.mem_filter]
          rintro ⟨y, ⟨hy, hv'⟩, e⟩
          exact hinj y x (hi.domB y hy) hDx hv' hv e ▸ hy
        obtain ⟨ef, hef, hef1, hef2⟩ : ∃ e ∈ tl, e.1 = true ∧ x ∈ e.2 := by
          simp only [List.mem_append, List.mem_map, List.mem_singleton] at hl0
          rcases hl0 with ⟨e, he, rfl⟩ | rfl
          · exact hi.full e he x (List.mem_of_mem_head? hh0) hv
          · exact hi.fullB x (List.mem_of_mem_head? hh0) hv
        have imgx : ∀ {t}, (x :: t).flatMap (withSized v s) = s x :: x :: t.flatMap (withSized v s) := by
          intro t; simp [withSized, hv]
        have sxr : s x ∉ x :: r := fun h => hs x _ hDx (hD _ h) hv rfl
        have sxt : ∀ e ∈ tl, ∀ {t}, e.2 = x :: t → x ∉ t → s x ∉ x :: t.flatMap (withSized v s) := by
          intro e he t ht hx h
          rcases List.mem_cons.1 h with h | h
          · exact hs x x hDx hDx hv h
          · rcases mem_flat.1 h with h | ⟨y, hy, hv', e'⟩
            · exact hs x _ hDx (hi.dom e he _ (by rw [ht]; simp [h])) hv rfl
            · exact hx (hinj x y hDx (hi.dom e he y (by rw [ht]; simp [hy])) hv hv' e' ▸ hy)
        have nfree : free ((x :: r) :: (images v s tl ++ [baseImage v s bl])) x = false := by
          rw [Bool.eq_false_iff, Ne, free_iff]
          intro h
          have := h (ef.2.flatMap (withSized v s)) (by
            simp only [List.mem_cons, List.mem_append, images, List.mem_map, List.mem_filter]
            exact .inr (.inl ⟨ef, ⟨hef, hef1⟩, rfl⟩))
          rcases hT ef hef with ⟨t, ht, -⟩ | h'
          · rw [ht, imgx] at this; simp at this
          · exact h' hef2
        have sfree : free ((x :: r) :: (images v s tl ++ [baseImage v s bl])) (s x) = true := by
          rw [free_iff]
          intro l hl
          simp only [List.mem_cons, List.mem_append, images, List.mem_map, List.mem_filter, List.not_mem_nil, or_false] at hl
          rcases hl with rfl | ⟨e, ⟨he, -⟩, rfl⟩ | rfl
          · exact fun h => sxr (List.mem_of_mem_tail h)
          · rcases hT e he with ⟨t, ht, hx⟩ | h'
            · have := sxt e he ht hx
              rw [ht, imgx]; exact this
            · exact fun h => h' (sxIn e he (List.mem_of_mem_tail h))
          · rcases hB with ⟨t, ht, hx⟩ | h'
            · subst ht
              simp only [baseImage, List.filter_cons, hv, if_true, List.map_cons, List.tail_cons]
              intro h
              simp only [List.mem_map, List.mem_filter] at h
              obtain ⟨y, ⟨hy, hv'⟩, e⟩ := h
              exact hx (hinj y x (hi.domB y (by simp [hy])) hDx hv' hv e ▸ hy)
            · exact fun h => h' (sxB (List.mem_of_mem_tail h))
        have hpick : pick ((x :: r) :: (images v s tl ++ [baseImage v s bl])) = some (s x) := by
          unfold pick
          simp only [List.filterMap_cons, List.head?_cons, List.find?_cons, nfree]
          refine find_image (P := free (tl.map (·.2) ++ [bl])) hv sfree hi.plain ?_ hp
          intro e he h1 y hy hne
          have hyr : y ∈ r := by
            have : y ∈ x :: r := (hmem y).2 ⟨e.2, inT e he, List.mem_of_mem_head? hy⟩
            exact (List.mem_cons.1 this).resolve_left hne
          refine ⟨fun _ => ?_, fun hvy hPy => ?_⟩
          · rw [Bool.eq_false_iff, Ne, free_iff]
            intro h; exact h (x :: r) (by simp) hyr
          · rw [Bool.eq_false_iff, Ne, free_iff] at hPy ⊢
            intro h
            apply hPy
            intro l hl hyl
            simp only [List.mem_append, List.mem_map, List.mem_singleton] at hl
            rcases hl with ⟨e', he', rfl⟩ | rfl
            · cases he1 : e'.1 with
              | false => rw [hi.plain e' he' he1 y (List.mem_of_mem_tail hyl)] at hvy; cases hvy
              | true =>
                have := h (e'.2.flatMap (withSized v s)) (by
                  simp only [List.mem_cons, List.mem_append, images, List.mem_map, List.mem_filter]
                  exact .inr (.inl ⟨e', ⟨he', he1⟩, rfl⟩))
                cases hl2 : e'.2 with
                | nil => rw [hl2] at hyl; cases hyl
                | cons a t =>
                  rw [hl2] at hyl this
                  have hin : s y ∈ t.flatMap (withSized v s) := mem_flat.2 (.inr ⟨y, hyl, hvy, rfl⟩)
                  apply this
                  rw [List.flatMap_cons]
                  by_cases hva : v a = true
                  · rw [withSized_vec hva]
                    simp only [List.cons_append, List.nil_append, List.tail_cons, List.mem_cons]; exact .inr hin
                  · rw [withSized_plain (by simpa using hva)]
                    simp only [List.cons_append, List.nil_append, List.tail_cons]; exact hin
            · have := h (baseImage v s l) (by simp)
              cases l with
              | nil => cases hyl
              | cons a t =>
                by_cases ha : v a = true
                · apply this
                  simp only [baseImage, List.filter_cons, ha, if_true, List.map_cons, List.tail_cons, List.mem_map,
                    List.mem_filter]
                  exact ⟨y, ⟨hyl, hvy⟩, rfl⟩
                · have ha : v a = false := by simpa using ha
                  rcases hi.base with ⟨V, Q, e', hV, hQ⟩ | ⟨a', p, V, Q, e', ha', hpl, hV, hQ, hh⟩
                  · cases V with
                    | nil =>
                      simp only [List.nil_append] at e'
                      rw [hQ y (by rw [← e']; exact List.mem_cons_of_mem _ hyl)] at hvy; cases hvy
                    | cons b V =>
                      simp only [List.cons_append, List.cons.injEq] at e'
                      rw [e'.1, hV b (by simp)] at ha; cases ha
                  · simp only [List.cons_append, List.cons.injEq] at e'
                    obtain ⟨rfl, rfl⟩ := e'
                    have bad : x ∉ V := fun hxV => by
                      have := free_iff.1 hf (a :: (p ++ (V ++ Q))) (by simp)
                      exact this (by simp [hxV])
                    obtain ⟨z, hz, hzh⟩ := hh ef hef hef1
                    rcases hT ef hef with ⟨t', ht', -⟩ | h'
                    · rw [ht'] at hzh
                      simp only [List.head?_cons, Option.some.injEq] at hzh
                      exact bad (hzh ▸ hz)
                    · exact h' hef2
        refine (?_ : Merge _ (s x :: x :: r.flatMap (withSized v s))) |> fun h => by
          rw [imgx]; exact h
        refine .cons hpick ?_
        -- the state in between
        have mid : unhead (s x) ((x :: r) :: (images v s tl ++ [baseImage v s bl])) =
            (x :: r) :: (((tl.filter (·.1)).map fun e => untop (s x) (e.2.flatMap (withSized v s))) ++
              [baseImage v s (untop x bl)]) := by
          rw [unhead_eq]
          simp only [List.map_cons, List.map_append, List.map_nil, images, List.map_map, Function.comp_def]
          rw [untop_ne sxr]
          congr 2
          congr 1
          rcases hB with ⟨t, rfl, -⟩ | h'
          · rw [untop_cons]; simp [baseImage, hv, untop_cons]
          · rw [untop_ne (fun h => h' (sxB h)), untop_ne h']
        rw [mid]
        have himg : ∀ e ∈ tl, untop x (untop (s x) (e.2.flatMap (withSized v s))) =
            (untop x e.2).flatMap (withSized v s) ∧ x ∉ (untop (s x) (e.2.flatMap (withSized v s))).tail := by
          intro e he
          rcases hT e he with ⟨t, ht, hx⟩ | h'
          · rw [ht, imgx, untop_cons, untop_cons, untop_cons]
            refine ⟨rfl, fun h => ?_⟩
            rcases mem_flat.1 h with h | ⟨y, hy, hv', e'⟩
            · exact hx h
            · exact hs y x (hi.dom e he y (by rw [ht]; simp [hy])) hDx hv' e'.symm
          · have h1 : x ∉ e.2.flatMap (withSized v s) := fun h => h' (xIn e he h)
            rw [untop_ne (fun h => h' (sxIn e he h)), untop_ne h1, untop_ne h']
            exact ⟨rfl, fun h => h1 (List.mem_of_mem_tail h)⟩
        have xB2 : x ∉ baseImage v s (untop x bl) := by
          intro h
          simp only [baseImage, List.mem_map, List.mem_filter] at h
          obtain ⟨y, ⟨hy, hv'⟩, e⟩ := h
          exact hs y x (hi.domB y (untop_sub hy)) hDx hv' e
        refine .cons (x := x) ?_ ?_
        · unfold pick
          rw [List.filterMap_cons]
          simp only [List.head?_cons]
          rw [List.find?_cons_of_pos]
          rw [free_iff]
          intro l hl
          simp only [List.mem_cons, List.mem_append, List.mem_map, List.mem_filter, List.not_mem_nil, or_false] at hl
          rcases hl with rfl | ⟨e, ⟨he, -⟩, rfl⟩ | rfl
          · exact hxr
          · exact (himg e he).2
          · exact fun h => xB2 (List.mem_of_mem_tail h)
        · rw [unhead_eq]
          simp only [List.map_cons, List.map_append, List.map_nil, List.map_map, Function.comp_def]
          rw [untop_cons, untop_ne xB2]
          have : (tl.filter (·.1)).map (fun e => untop x (untop (s x) (e.2.flatMap (withSized v s)))) =
              (tl.filter (·.1)).map fun e => (untop x e.2).flatMap (withSized v s) :=
            List.map_congr_left fun e he => (himg e (List.mem_filter.1 he).1).1
          rw [this]; exact ih
      · -- a plain class
        have hv : v x = false := by simpa using hv
        have imgx : ∀ {t}, (x :: t).flatMap (withSized v s) = x :: t.flatMap (withSized v s) := by
          intro t; simp [withSized, hv]
        rw [imgx]
        have himg : ∀ e ∈ tl, untop x (e.2.flatMap (withSized v s)) = (untop x e.2).flatMap (withSized v s) ∧
            x ∉ (e.2.flatMap (withSized v s)).tail := by
          intro e he
          rcases hT e he with ⟨t, ht, hx⟩ | h'
          · rw [ht, imgx, untop_cons, untop_cons]
            refine ⟨rfl, fun h => ?_⟩
            rcases mem_flat.1 h with h | ⟨y, hy, hv', e'⟩
            · exact hx h
            · exact hs y x (hi.dom e he y (by rw [ht]; simp [hy])) hDx hv' e'.symm
          · have h1 : x ∉ e.2.flatMap (withSized v s) := fun h => h' (xIn e he h)
            rw [untop_ne h1, untop_ne h']
            exact ⟨rfl, fun h => h1 (List.mem_of_mem_tail h)⟩
        have hbl : baseImage v s (untop x bl) = baseImage v s bl := by
          rcases hB with ⟨t, rfl, -⟩ | h'
          · rw [untop_cons]; simp [baseImage, hv]
          · rw [untop_ne h']
        refine .cons ?_ ?_
        · unfold pick
          rw [List.filterMap_cons]
          simp only [List.head?_cons]
          rw [List.find?_cons_of_pos]
          rw [free_iff]
          intro l hl
          simp only [List.mem_cons, List.mem_append, images, List.mem_map, List.mem_filter, List.not_mem_nil, or_false] at hl
          rcases hl with rfl | ⟨e, ⟨he, -⟩, rfl⟩ | rfl
          · exact hxr
          · exact (himg e he).2
          · exact fun h => xnotB (List.mem_of_mem_tail h)
        · rw [unhead_eq]
          simp only [List.map_cons, List.map_append, List.map_nil, images, List.map_map, Function.comp_def]
          rw [untop_cons, untop_ne xnotB]
          have : (tl.filter (·.1)).map (fun e => untop x (e.2.flatMap (withSized v s))) =
              (tl.filter (·.1)).map fun e => (untop x e.2).flatMap (withSized v s) :=
            List.map_congr_left fun e he => (himg e (List.mem_filter.1 he).1).1
          rw [this, ← hbl]; exact ih

end

end HW.Cls
