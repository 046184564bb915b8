import Verif.Props.AdtHierarchy

/-! # Property C62: modifiers are interned, recoverable and hierarchy-preserving -/

namespace HW

open Adt Adt.Cache Adt.Cache.Heap Adt.Cache.Spec

namespace Adt.Cache
namespace Heap

variable {E : Env} {h h' h1 h2 h3 : Heap}

theorem Inv.mod_shape (hi : h.Inv) {d c : Nat} {m : ModId} (ho : ModOf h.classes d m c) :
    ∃ k ds, h.classes[d]? = some k ∧ k.bases = c :: ds ∧ k.bases.Nodup ∧
      List.Forall₂ (fun b d => ModOf h.classes d m b) (basesOf h.classes c) ds := by
  obtain ⟨k, hk, hko⟩ : ∃ k, h.classes[d]? = some k ∧ k.origin = .modified m c := by
    unfold ModOf originOf at ho
    cases hk : h.classes[d]? with
    | none => rw [hk] at ho; cases ho
    | some k => rw [hk] at ho; exact ⟨k, rfl, Option.some.inj ho⟩
  have hg := hi.good d k hk
  obtain ⟨ds, h1, h2⟩ := hg.modif m c hko
  exact ⟨k, ds, hk, h1, hg.nodup, h2⟩

theorem Inv.applyMod_live (hi : h.Inv) {d c : Nat} {m : ModId} (hd : h.Alive d) (ho : ModOf h.classes d m c) :
    h.applyMod E m c = .ok (h, d) := by
  have := hi.mcomplete d m c hd.2 ho
  simp only [applyMod, applyModF, this]

theorem Inv.mod_sub (hi : h.Inv) {c B : Nat} {m : ModId} (hs : Sub h c B) :
    ∀ {d : Nat}, ModOf h.classes d m c → ∃ e, ModOf h.classes e m B ∧ Sub h d e := by
  induction hs with
  | refl => intro d hd; exact ⟨d, hd, .refl _⟩
  | @step c b B hb hsub ih =>
    intro d hd
    obtain ⟨k, ds, hk, hkb, _, hf⟩ := hi.mod_shape hd
    obtain ⟨d', hd', hm⟩ := forall₂_left hf hb
    obtain ⟨e, he, hse⟩ := ih hm
    refine ⟨e, he, .step (b := d') ?_ hse⟩
    rw [bases_eq]; simp only [basesOf, hk, hkb]; simp [hd']

theorem mod_made (hist : Steps E init h) {T d : Nat} {m : ModId} (hT : h.Alive T)
    (he : h.applyMod E m T = .ok (h1, d)) (later : Steps E (h1.hold d) h2) :
    h1.Inv ∧ h1.Alive d ∧ h2.Inv ∧ ModOf h1.classes d m T ∧ ModOf h2.classes d m T ∧ (h1.hold d).Inv ∧
      ∃ N, h2.classes = h.classes ++ N := by
  obtain ⟨hi, _⟩ := inv_init.steps hist
  obtain ⟨i1, x1, l1, r1⟩ := applyMod_ok hi (Nat.lt_succ_self T) hT he
  have i1' := i1.hold l1
  obtain ⟨i2, M, hM⟩ := i1'.steps later
  obtain ⟨N, hN⟩ := x1.classes
  exact ⟨i1, l1, i2, r1, i1'.origin_later later r1, i1', N ++ M, by
    rw [hM]; show h1.classes ++ M = _; rw [hN, List.append_assoc]⟩

/-- Modified means made by a modifier. -/
theorem Inv.isModified_iff (hi : h.Inv) {c : Nat} (hc : h.Alive c) :
    h.isModified c = true ↔ ∃ m u, ModOf h.classes c m u := by
  unfold isModified
  rw [Option.isSome_iff_exists]
  constructor
  · rintro ⟨m, hm⟩
    obtain ⟨_, u, hu⟩ := (hi.look c m).1 hm
    exact ⟨m, u, hu⟩
  · rintro ⟨m, u, hu⟩
    exact ⟨m, (hi.look c m).2 ⟨hc.2, u, hu⟩⟩

end Heap
end Adt.Cache

/-- **C62** (`M(T) is M(T)`).  In any history, once `M(T)` has been made, applying `M` to `T` again returns the
same class and makes nothing, for as long as the program holds it. -/
theorem C62_interned {E : Env} {h h1 h2 : Heap} (hist : Steps E init h) {T d : Nat} {m : ModId} (hT : h.Alive T)
    (he : h.applyMod E m T = .ok (h1, d)) (later : Steps E (h1.hold d) h2) (held : d ∈ h2.roots) :
    h2.applyMod E m T = .ok (h2, d) := by
  obtain ⟨_, _, i2, _, r2, _⟩ := mod_made hist hT he later
  exact i2.applyMod_live (i2.roots d held) r2

/-- **C62** (`M(T) is M'(T')` only for the same modifier and type). -/
theorem C62_injective {E : Env} {h h1 h2 h3 : Heap} (hist : Steps E init h) {T T' d : Nat} {m m' : ModId}
    (hT : h.Alive T) (he : h.applyMod E m T = .ok (h1, d)) (later : Steps E (h1.hold d) h2) (hT' : h2.Alive T')
    (he' : h2.applyMod E m' T' = .ok (h3, d)) : m = m' ∧ T = T' := by
  obtain ⟨_, _, i2, _, r2, _⟩ := mod_made hist hT he later
  obtain ⟨_, x3, _, r3⟩ := applyMod_ok i2 (Nat.lt_succ_self T') hT' he'
  obtain ⟨N, hN⟩ := x3.classes
  have := originOf_app r2 N
  rw [← hN] at this
  rw [r3] at this
  cases this
  exact ⟨rfl, rfl⟩

/-- **C62** (recoverable).  `is_modified`, `get_modifier` and `get_unmodified` on `M(T)` give `True`, `M` and `T`,
and `issubclass(M(T), M')` holds exactly for `M' = M`, as long as the program holds `M(T)`. -/
theorem C62_recover {E : Env} {h h1 h2 : Heap} (hist : Steps E init h) {T d : Nat} {m : ModId} (hT : h.Alive T)
    (he : h.applyMod E m T = .ok (h1, d)) (later : Steps E (h1.hold d) h2) (held : d ∈ h2.roots) :
    h2.isModified d = true ∧ h2.getModifier d = .ok m ∧ h2.getUnmodified d = .ok T ∧
      ∀ m', h2.subOfMod d m' = true ↔ m' = m := by
  obtain ⟨_, _, i2, _, r2, _⟩ := mod_made hist hT he later
  have hal := i2.roots d held
  have hl : find h2.lookup d = some m := (i2.look d m).2 ⟨hal.2, T, r2⟩
  obtain ⟨k, ds, hk, hkb, _⟩ := i2.mod_shape r2
  have hb : h2.bases d = T :: ds := by rw [bases_eq]; simp only [basesOf, hk, hkb]
  have h1 : h2.isModified d = true := by simp only [isModified, hl, Option.isSome_some]
  refine ⟨h1, by simp only [getModifier, hl], by simp only [getUnmodified, h1, if_true, hb], fun m' => ?_⟩
  unfold subOfMod
  rw [List.contains_iff_mem, i2.subs]
  constructor
  · rintro ⟨_, c, hc⟩
    rw [ModOf, r2] at hc
    cases hc; rfl
  · rintro rfl; exact ⟨hal.2, T, r2⟩

/-- **C62** (hierarchy).  `M(T)` is a subclass of `T`, and for every superclass `B` of `T`, of the class that
`M(B)` is - which exists already. -/
theorem C62_subclass {E : Env} {h h1 h2 : Heap} (hist : Steps E init h) {T d : Nat} {m : ModId} (hT : h.Alive T)
    (he : h.applyMod E m T = .ok (h1, d)) (later : Steps E (h1.hold d) h2) (held : d ∈ h2.roots) :
    Sub h2 d T ∧ ∀ B, Sub h T B → ∃ e, h2.applyMod E m B = .ok (h2, e) ∧ Sub h2 d e := by
  obtain ⟨hi, _⟩ := inv_init.steps hist
  obtain ⟨_, _, i2, r1, r2, _, N, hN⟩ := mod_made hist hT he later
  refine ⟨?_, fun B hB => ?_⟩
  · obtain ⟨k, ds, hk, hkb, _⟩ := i2.mod_shape r2
    exact .step (b := T) (by rw [bases_eq]; simp only [basesOf, hk, hkb]; simp) (.refl _)
  · have hB2 : Sub h2 T B := by
      clear he later held r1 r2 hT
      induction hB with
      | refl => exact .refl _
      | @step c b d hb _ ih =>
        obtain ⟨k, hk, _⟩ := get_basesOf hb
        exact .step (b := b) (by rw [bases_eq, hN, basesOf_app (lt_of_get hk)]; exact hb) ih
    obtain ⟨e, he, hse⟩ := i2.mod_sub hB2 r2
    exact ⟨e, i2.applyMod_live (i2.alive_sub (i2.roots d held) hse) he, hse⟩

/-- **C62** (nothing else is modified).  The result of a class statement or of `T[...]`, in any history and at any
later time, is not modified: `is_modified` is false, `get_modifier` and `get_unmodified` raise `TypeError`, and it
is a subclass of no modifier. -/
theorem C62_unmodified {E : Env} {h h1 h2 : Heap} (hist : Steps E init h) {d : Nat}
    (he : (∃ s : Stmt, (∀ b ∈ s.bases, h.Alive b) ∧ h.classStmt E s = .ok (h1, d)) ∨
      (∃ c a, h.Alive c ∧ h.getitem E c a = .ok (h1, d))) (later : Steps E (h1.hold d) h2) :
    h2.isModified d = false ∧ h2.getModifier d = .error .typeError ∧ h2.getUnmodified d = .error .typeError ∧
      ∀ m, h2.subOfMod d m = false := by
  obtain ⟨hi, _⟩ := inv_init.steps hist
  have aux : ∃ o, (∀ m c, o ≠ .modified m c) ∧ (h1.hold d).Inv ∧ originOf h1.classes d = some o := by
    rcases he with ⟨s, hal, he⟩ | ⟨c, a, hc, he⟩
    · obtain ⟨m, e, ⟨hf, made⟩ | ⟨hf, i1, x1, ht, l1, k, hk, ho, _⟩⟩ := classStmt_ok hi hal he
      · refine ⟨_, ?_, made.inv.hold made.alive, made.origin⟩
        intro m c; split <;> nofun
      · exact ⟨.stmt, nofun, i1.hold l1, by simp only [originOf, hk, ho]⟩
    · obtain ⟨idx, e1, i1, x1, l1, r1⟩ := getitem_item hi hc he
      exact ⟨_, (by nofun), i1.hold l1, r1⟩
  obtain ⟨o, ho, i1', r1⟩ := aux
  obtain ⟨i2, _⟩ := i1'.steps later
  have r2 := i1'.origin_later later r1
  have no : ∀ m c, ¬ ModOf h2.classes d m c := by
    intro m c hm
    rw [ModOf, r2] at hm
    exact ho m c (Option.some.inj hm)
  have hl : find h2.lookup d = none := by
    cases hf : find h2.lookup d with
    | none => rfl
    | some m =>
      obtain ⟨_, c, hc⟩ := (i2.look d m).1 hf
      exact absurd hc (no m c)
  have h1 : h2.isModified d = false := by simp only [isModified, hl, Option.isSome_none]
  refine ⟨h1, by simp only [getModifier, hl], by simp [getUnmodified, h1], fun m => ?_⟩
  unfold subOfMod
  rw [Bool.eq_false_iff, Ne, List.contains_iff_mem, i2.subs]
  rintro ⟨_, c, hc⟩; exact no m c hc

/-- **C62** (`M(M(T))` is always an error).  The bases of `M(M(T))` would start with `M(T), M(T)`, and
`type()` rejects a repeated base. -/
theorem C62_twice_error {E : Env} {h h1 h2 h3 : Heap} (hist : Steps E init h) {T d : Nat} {m : ModId}
    (hT : h.Alive T) (he : h.applyMod E m T = .ok (h1, d)) (later : Steps E (h1.hold d) h2) (held : d ∈ h2.roots)
    (e : Nat) : h2.applyMod E m d ≠ .ok (h3, e) := by
  intro h
  obtain ⟨_, _, i2, _, r2, _⟩ := mod_made hist hT he later
  obtain ⟨i3, x3, l3, r3⟩ := applyMod_ok i2 (Nat.lt_succ_self d) (i2.roots d held) h
  obtain ⟨N, hN⟩ := x3.classes
  have r2' : ModOf h3.classes d m T := by
    rw [hN]; exact originOf_app r2 N
  obtain ⟨k, ds, hk, hkb, hnd, hf⟩ := i3.mod_shape r3
  obtain ⟨k', ds', hk', hkb', _⟩ := i3.mod_shape r2'
  have hb : basesOf h3.classes d = T :: ds' := by simp only [basesOf, hk', hkb']
  rw [hb] at hf
  cases hf with
  | @cons _ x _ xs hx hxs =>
    have hxd : x = d := by
      have l := (l3.2)
      have hal : x ∉ h3.dead := (i3.base_alive (c := e) l3 (by
        simp only [basesOf, hk, hkb]; simp)).1.2
      have e1 := i3.mcomplete x m T hal hx
      have e2 := i3.mcomplete d m T (by rw [x3.dead]; exact (i2.roots d held).2) r2'
      rw [e1] at e2; exact Option.some.inj e2
    rw [hkb, hxd] at hnd
    simp at hnd


/-- **C62** (negation: `issubclass` with a modifier is not transitive).  A class below `M(T)` that a class statement
makes is no subclass of `M`, although `M(T)` is. -/
theorem C62_derived_negation : ∃ (h : Heap) (m : ModId) (T d X : Nat), Steps demoEnv init h ∧
    h.applyMod demoEnv m T = .ok (h, d) ∧ Sub h X d ∧ h.subOfMod d m = true ∧ h.subOfMod X m = false ∧
    h.isModified X = false := by
  have s1 : Steps demoEnv init ((after (demoHeap.applyMod demoEnv 0 7)).hold 10) :=
    .tail demoHeap_reachable (Step.modify (m := 0) (c := 7) (by simp [Alive, demoHeap, init, initClasses]) rfl)
  have s2 := Steps.tail s1 (Step.stmt (s := { fields := .types [], name := 3, bases := [10] })
    (h' := after (((after (demoHeap.applyMod demoEnv 0 7)).hold 10).classStmt demoEnv
      { fields := .types [], name := 3, bases := [10] })) (t := 11) (by simp)
    (by intro b hb; simp only [List.mem_cons, List.not_mem_nil, or_false] at hb; subst hb; exact ⟨by decide, by decide⟩)
    (by simp [FArg.ids]) rfl)
  exact ⟨_, 0, 7, 10, 11, s2, rfl, .step (b := 10) (by decide) (.refl _), by decide, by decide, by decide⟩

/-! ### Examples -/

/-- `M(A)` (class 10) makes `M(object)` (class 9) first. -/
example : ∃ h1, demoHeap.applyMod demoEnv 0 7 = .ok (h1, 10) ∧ h1.bases 10 = [7, 9] ∧ h1.bases 9 = [0] ∧
    h1.getUnmodified 10 = .ok 7 ∧ h1.getModifier 10 = .ok 0 ∧ h1.subOfMod 10 1 = false ∧
    h1.applyMod demoEnv 0 7 = .ok (h1, 10) ∧ result (h1.applyMod demoEnv 1 7) = some 12 ∧
    h1.applyMod demoEnv 0 10 = .error .typeError :=
  ⟨_, rfl, rfl, rfl, rfl, rfl, by decide, rfl, by decide, rfl⟩

/-- Two modifiers on one class. -/
example : result ((after (demoHeap.applyMod demoEnv 0 7)).applyMod demoEnv 1 10) = some 14 ∧
    (after ((after (demoHeap.applyMod demoEnv 0 7)).applyMod demoEnv 1 10)).bases 14 = [10, 12, 13] := by
  decide

example : (after (demoHeap.classStmt demoEnv demoStmt)).isModified 11 = false := by decide

end HW
