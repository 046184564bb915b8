import Verif.Model.Adt.AllModifiers
import Verif.Props.AdtModCache

/-! # Property C132: the modifiers of a type -/

namespace HW
open Adt Adt.Cache Adt.Cache.Heap Adt.Cache.Spec

namespace Adt.Cache
namespace Heap

variable {E : Env} {h h' h1 h2 h3 : Heap}

/-- Unmodified: not made by a modifier. -/
theorem Inv.recover (hi : h.Inv) {d u : Nat} {m : ModId} (hd : h.Alive d) (ho : ModOf h.classes d m u) :
    h.isModified d = true ∧ h.getModifier d = .ok m ∧ h.getUnmodified d = .ok u ∧ h.Alive u ∧ u < d := by
  have hl : find h.lookup d = some m := (hi.look d m).2 ⟨hd.2, u, ho⟩
  obtain ⟨k, ds, hk, hkb, _⟩ := hi.mod_shape ho
  have hb : h.bases d = u :: ds := by rw [bases_eq]; simp only [basesOf, hk, hkb]
  have hm : h.isModified d = true := by simp only [isModified, hl, Option.isSome_some]
  have hu : u ∈ basesOf h.classes d := by rw [← bases_eq, hb]; simp
  refine ⟨hm, by simp only [getModifier, hl], by simp only [getUnmodified, hm, if_true, hb],
    (hi.base_alive hd hu).1, ?_⟩
  exact (hi.good d k hk).lt u (by rw [hkb]; simp)

theorem Inv.cases_mod (hi : h.Inv) {c : Nat} (hc : h.Alive c) :
    h.isModified c = false ∨ ∃ m u, ModOf h.classes c m u := by
  cases hm : h.isModified c
  · exact .inl rfl
  · exact .inr ((hi.isModified_iff hc).1 hm)

theorem Inv.allModsF_fuel (hi : h.Inv) : ∀ (n : Nat) {c : Nat}, h.Alive c → c < n →
    allModsF n h c = allMods h c ∧ unwrapF n h c = unwrap h c := by
  intro n
  induction n using Nat.strong_induction_on with
  | _ n ih =>
    intro c hc hn
    cases n with
    | zero => omega
    | succ n =>
      rcases hi.cases_mod hc with hm | ⟨m, u, ho⟩
      · simp [allModsF, allMods, unwrapF, unwrap, hm]
      · obtain ⟨h1, h2, h3, h4, h5⟩ := hi.recover hc ho
        have e1 := ih n (by omega) h4 (by omega)
        have e2 := ih c (by omega) h4 h5
        constructor
        · simp only [allModsF, allMods, h1, if_true, h2, h3, bind, Except.bind]
          rw [e1.1, e2.1]
        · simp only [unwrapF, unwrap, h1, h2, h3, bind, Except.bind]
          rw [e1.2, e2.2]

theorem Inv.allMods_mod (hi : h.Inv) {d u : Nat} {m : ModId} (hd : h.Alive d) (ho : ModOf h.classes d m u) :
    (h.allMods d = do return (← h.allMods u) ++ [m]) ∧
    (h.unwrap d = do
      let (c, l) ← h.unwrap u
      return (c, l ++ [m])) := by
  obtain ⟨h1, h2, h3, h4, h5⟩ := hi.recover hd ho
  obtain ⟨e1, e2⟩ := hi.allModsF_fuel d h4 h5
  constructor
  · simp only [allMods, allModsF, h1, if_true, h2, h3, bind, Except.bind] at e1 ⊢
    rw [e1]
  · simp only [unwrap, unwrapF, h1, h2, h3, bind, Except.bind] at e2 ⊢
    rw [e2]; rfl

theorem allMods_plain {c : Nat} (hm : h.isModified c = false) : h.allMods c = .ok [] ∧ h.unwrap c = .ok (c, []) := by
  simp [allMods, allModsF, unwrap, unwrapF, hm]

/-- Every live class has a list of modifiers; `unwrap_modifier` finds the same list. -/
theorem Inv.unwrap_ok (hi : h.Inv) : ∀ (c : Nat), h.Alive c →
    ∃ b l, h.allMods c = .ok l ∧ h.unwrap c = .ok (b, l) ∧ h.Alive b ∧ h.isModified b = false := by
  intro c
  induction c using Nat.strong_induction_on with
  | _ c ih =>
    intro hc
    rcases hi.cases_mod hc with hm | ⟨m, u, ho⟩
    · exact ⟨c, [], (allMods_plain hm).1, (allMods_plain hm).2, hc, hm⟩
    · obtain ⟨_, _, _, h4, h5⟩ := hi.recover hc ho
      obtain ⟨b, l, e1, e2, e3, e4⟩ := ih u h5 h4
      obtain ⟨f1, f2⟩ := hi.allMods_mod hc ho
      exact ⟨b, l ++ [m], by rw [f1, e1]; rfl, by rw [f2, e2]; rfl, e3, e4⟩

/-- The classes along the chain are superclasses. -/
theorem Inv.chain (hi : h.Inv) : ∀ (c : Nat), h.Alive c → ∀ l, h.allMods c = .ok l → ∀ m ∈ l,
    ∃ d u, ModOf h.classes d m u ∧ Sub h c d := by
  intro c
  induction c using Nat.strong_induction_on with
  | _ c ih =>
    intro hc l hl m hm
    rcases hi.cases_mod hc with hm' | ⟨m', u, ho⟩
    · rw [(allMods_plain hm').1] at hl; cases hl; cases hm
    · obtain ⟨_, _, _, h4, h5⟩ := hi.recover hc ho
      obtain ⟨b, l', e1, _⟩ := hi.unwrap_ok u h4
      rw [(hi.allMods_mod hc ho).1, e1] at hl
      cases hl
      rcases List.mem_append.1 hm with h | h
      · obtain ⟨d, v, hd, hs⟩ := ih u h5 h4 l' e1 m h
        obtain ⟨k, ds, hk, hkb, _⟩ := hi.mod_shape ho
        exact ⟨d, v, hd, .step (b := u) (by rw [bases_eq]; simp only [basesOf, hk, hkb]; simp) hs⟩
      · rw [List.mem_singleton] at h
        subst h
        exact ⟨c, u, ho, .refl _⟩

/-- `M(T)` where `M` is among the modifiers of `T` does not exist. -/
theorem Inv.no_repeat (hi : h.Inv) {d c : Nat} {m : ModId} (hd : h.Alive d) (ho : ModOf h.classes d m c)
    {l : List ModId} (hl : h.allMods c = .ok l) : m ∉ l := by
  intro hm
  obtain ⟨_, _, _, h4, _⟩ := hi.recover hd ho
  obtain ⟨e, u, he, hs⟩ := hi.chain c h4 l hl m hm
  obtain ⟨f, hf, hsf⟩ := hi.mod_sub hs ho
  have hfa := hi.alive_sub hd hsf
  obtain ⟨k, ds, hk, hkb, hnd, hfa2⟩ := hi.mod_shape hf
  obtain ⟨k', ds', hk', hkb', _⟩ := hi.mod_shape he
  have hb : basesOf h.classes e = u :: ds' := by simp only [basesOf, hk', hkb']
  rw [hb] at hfa2
  cases hfa2 with
  | @cons _ x _ xs hx hxs =>
    have hal : x ∉ h.dead := (hi.base_alive (c := f) hfa (by simp only [basesOf, hk, hkb]; simp)).1.2
    have hea : e ∉ h.dead := (hi.alive_sub h4 hs).2
    have e1 := hi.mcomplete x m u hal hx
    have e2 := hi.mcomplete e m u hea he
    rw [e1] at e2
    cases e2
    rw [hkb] at hnd
    simp at hnd

/-- The list does not change as long as the class lives. -/
theorem Inv.allMods_later (hi : h.Inv) (hi2 : h2.Inv) {N : List Class} (hN : h2.classes = h.classes ++ N) :
    ∀ (c : Nat), h.Alive c → h2.Alive c → h2.allMods c = h.allMods c := by
  intro c
  induction c using Nat.strong_induction_on with
  | _ c ih =>
    intro hc hc2
    rcases hi.cases_mod hc with hm | ⟨m, u, ho⟩
    · have hm2 : h2.isModified c = false := by
        rcases hi2.cases_mod hc2 with h | ⟨m, u, ho⟩
        · exact h
        · rw [ModOf, hN, originOf_app' hc.1] at ho
          have := (hi.isModified_iff hc).2 ⟨m, u, ho⟩
          rw [hm] at this; cases this
      rw [(allMods_plain hm).1, (allMods_plain hm2).1]
    · have ho2 : ModOf h2.classes c m u := by rw [ModOf, hN]; exact originOf_app ho N
      obtain ⟨_, _, _, h4, h5⟩ := hi.recover hc ho
      obtain ⟨_, _, _, g4, _⟩ := hi2.recover hc2 ho2
      rw [(hi.allMods_mod hc ho).1, (hi2.allMods_mod hc2 ho2).1, ih u h5 h4 g4]

theorem wrapLoop_append (E : Env) : ∀ (l : List ModId) (h : Heap) (c : Nat) (m : ModId),
    wrapLoop E h c (l ++ [m]) = do
      let (h1, d) ← wrapLoop E h c l
      h1.applyMod E m d
  | [], h, c, m => by
      simp only [List.nil_append, wrapLoop, bind, Except.bind]
      cases h.applyMod E m c with
      | error e => rfl
      | ok p => rfl
  | x :: l, h, c, m => by
      simp only [List.cons_append, wrapLoop, bind, Except.bind]
      cases h.applyMod E x c with
      | error e => rfl
      | ok p => exact wrapLoop_append E l p.1 p.2 m

theorem Inv.nodup (hi : h.Inv) : ∀ (c : Nat), h.Alive c → ∀ l, h.allMods c = .ok l → l.Nodup := by
  intro c
  induction c using Nat.strong_induction_on with
  | _ c ih =>
    intro hc l hl
    rcases hi.cases_mod hc with hm' | ⟨m', u, ho⟩
    · rw [(allMods_plain hm').1] at hl; cases hl; exact List.nodup_nil
    · obtain ⟨_, _, _, h4, h5⟩ := hi.recover hc ho
      obtain ⟨b, l', e1, _⟩ := hi.unwrap_ok u h4
      rw [(hi.allMods_mod hc ho).1, e1] at hl
      cases hl
      have h1 := ih u h5 h4 l' e1
      have h2 := hi.no_repeat hc ho e1
      rw [List.nodup_append]
      refine ⟨h1, by simp, ?_⟩
      intro a ha b hb
      rw [List.mem_singleton] at hb
      subst hb
      rintro rfl; exact h2 ha

theorem Inv.rebuild (hi : h.Inv) : ∀ (c : Nat), h.Alive c → ∀ b l, h.unwrap c = .ok (b, l) →
    wrapLoop E h b l = .ok (h, c) := by
  intro c
  induction c using Nat.strong_induction_on with
  | _ c ih =>
    intro hc b l hl
    rcases hi.cases_mod hc with hm' | ⟨m', u, ho⟩
    · rw [(allMods_plain hm').2] at hl; cases hl; rfl
    · obtain ⟨_, _, _, h4, h5⟩ := hi.recover hc ho
      obtain ⟨b', l', _, e2, _⟩ := hi.unwrap_ok u h4
      rw [(hi.allMods_mod hc ho).2, e2] at hl
      cases hl
      rw [wrapLoop_append, ih u h5 h4 b l' e2]
      exact hi.applyMod_live hc ho

end Heap
end Adt.Cache

/-- **C132** (order).  In any history, the modifiers of `M(T)`, as long as the program holds it, are those `T` had
when `M` was applied, followed by `M`, and `M` was not one of them. -/
theorem C132_applied {E : Env} {h h1 h2 : Heap} (hist : Steps E init h) {T d : Nat} {m : ModId} (hT : h.Alive T)
    (he : h.applyMod E m T = .ok (h1, d)) (later : Steps E (h1.hold d) h2) (held : d ∈ h2.roots) :
    ∃ l, h.allMods T = .ok l ∧ m ∉ l ∧ h2.allMods d = .ok (l ++ [m]) := by
  obtain ⟨hi, _⟩ := inv_init.steps hist
  obtain ⟨_, _, i2, _, r2, _, N, hN⟩ := mod_made hist hT he later
  have hd := i2.roots d held
  obtain ⟨_, _, _, g4, _⟩ := i2.recover hd r2
  obtain ⟨b, l, e1, _⟩ := hi.unwrap_ok T hT
  have e2 := hi.allMods_later i2 hN T hT g4
  rw [e1] at e2
  exact ⟨l, e1, i2.no_repeat hd r2 e2, by rw [(i2.allMods_mod hd r2).1, e2]; rfl⟩

/-- **C132** (no repetition).  No type carries a modifier twice, however it was made. -/
theorem C132_nodup {E : Env} {h : Heap} (hist : Steps E init h) {T : Nat} (hT : h.Alive T) :
    ∃ l, h.allMods T = .ok l ∧ l.Nodup := by
  obtain ⟨hi, _⟩ := inv_init.steps hist
  obtain ⟨b, l, e1, _⟩ := hi.unwrap_ok T hT
  exact ⟨l, e1, hi.nodup T hT l e1⟩

/-- **C132** (`unwrap_modifier` and `wrap_modifier`).  `unwrap_modifier(T)` returns an unmodified type and the list
of `get_all_modifiers(T)`; `wrap_modifier` makes `T` itself of them again, creating nothing. -/
theorem C132_unwrap {E : Env} {h : Heap} (hist : Steps E init h) {T : Nat} (hT : h.Alive T) :
    ∃ b l, h.unwrap T = .ok (b, l) ∧ h.allMods T = .ok l ∧ h.isModified b = false ∧ h.wrap E b l = .ok (h, T) := by
  obtain ⟨hi, _⟩ := inv_init.steps hist
  obtain ⟨b, l, e1, e2, _, e3⟩ := hi.unwrap_ok T hT
  exact ⟨b, l, e2, e1, e3, by rw [Heap.wrap, if_pos (hi.nodup T hT l e1)]; exact hi.rebuild T hT b l e2⟩

/-- **C132** (nothing else).  A type is determined by its unmodified type and the list of its modifiers. -/
theorem C132_determined {E : Env} {h : Heap} (hist : Steps E init h) {T T' : Nat} (hT : h.Alive T) (hT' : h.Alive T')
    (he : h.unwrap T = h.unwrap T') : T = T' := by
  obtain ⟨b, l, e1, _, _, e2⟩ := C132_unwrap hist hT
  obtain ⟨b', l', e1', _, _, e2'⟩ := C132_unwrap hist hT'
  rw [e1, e1'] at he
  cases he
  rw [e2] at e2'
  exact congrArg Prod.snd (Except.ok.inj e2')

/-- **C132** (partial: only the last modifier is seen).  `issubclass(T, M)`, and `isinstance(x, M)` for `x` of type
`T`, tell whether `M` was the last modifier applied. -/
theorem C132_issubclass_partial {E : Env} {h : Heap} (hist : Steps E init h) {T : Nat} (hT : h.Alive T) (m : ModId) :
    ∃ l, h.allMods T = .ok l ∧ (h.subOfMod T m = true ↔ l.getLast? = some m) ∧
      (h.instOfMod T m = true ↔ l.getLast? = some m) := by
  obtain ⟨hi, _⟩ := inv_init.steps hist
  have key : ∃ l, h.allMods T = .ok l ∧ (h.subOfMod T m = true ↔ l.getLast? = some m) := by
    unfold subOfMod
    rw [List.contains_iff_mem, hi.subs]
    rcases hi.cases_mod hT with hm | ⟨m', u, ho⟩
    · refine ⟨[], (allMods_plain hm).1, ?_, nofun⟩
      rintro ⟨_, c, hc⟩
      rw [(hi.isModified_iff hT).2 ⟨m, c, hc⟩] at hm; cases hm
    · obtain ⟨_, _, _, h4, _⟩ := hi.recover hT ho
      obtain ⟨b, l', e1, _⟩ := hi.unwrap_ok u h4
      refine ⟨l' ++ [m'], by rw [(hi.allMods_mod hT ho).1, e1]; rfl, ?_⟩
      rw [List.getLast?_concat]
      constructor
      · rintro ⟨_, c, hc⟩
        rw [ModOf, ho] at hc
        cases hc; rfl
      · intro e; cases e; exact ⟨hT.2, u, ho⟩
  obtain ⟨l, e1, e2⟩ := key
  exact ⟨l, e1, e2, e2⟩

theorem two_mods : ∃ (h : Heap) (T : Nat), Steps demoEnv init h ∧ h.Alive T ∧ h.allMods T = .ok [0, 1] ∧
    h.subOfMod T 0 = false := by
  have s1 : Steps demoEnv init ((after (demoHeap.applyMod demoEnv 0 7)).hold 10) :=
    .tail demoHeap_reachable (Step.modify (m := 0) (c := 7) (by simp [Alive, demoHeap, init, initClasses]) rfl)
  have s2 := Steps.tail s1 (Step.modify (m := 1) (c := 10)
    (h' := after (((after (demoHeap.applyMod demoEnv 0 7)).hold 10).applyMod demoEnv 1 10)) (t := 14)
    ⟨by decide, by decide⟩ rfl)
  exact ⟨_, 14, s2, ⟨by decide, by decide⟩, by decide, by decide⟩

/-- **C132 refuted** (witness): `B(A(T))` has the modifiers `A` and `B`, but `issubclass(B(A(T)), A)` is false. -/
theorem C132_refuted :
    ¬ ∀ (E : Env) (h : Heap), Steps E init h → ∀ T, h.Alive T → ∀ m l, h.allMods T = .ok l → m ∈ l →
      h.subOfMod T m = true := by
  intro hyp
  obtain ⟨h, T, hs, hT, hl, hm⟩ := two_mods
  have := hyp demoEnv h hs T hT 0 [0, 1] hl (by simp)
  rw [hm] at this; cases this

/-! ### Examples -/

example := C132_applied demoHeap_reachable (T := 7) (m := 0) (by simp [Alive, demoHeap, init, initClasses])
  (h1 := after (demoHeap.applyMod demoEnv 0 7)) (d := 10) rfl (.refl _) (by simp [hold])

example : ∃ h T, Steps demoEnv init h ∧ (∃ l, h.allMods T = .ok l ∧ l.Nodup ∧ l.length = 2) := by
  obtain ⟨h, T, hs, hT, hl, _⟩ := two_mods
  exact ⟨h, T, hs, [0, 1], hl, by decide, rfl⟩

end HW
