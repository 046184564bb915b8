import Verif.Model.Adt.Modifier
import Verif.Props.AdtModCache

/-! # Property C116: modifiers made by name (modifiers.py:103-117) -/

namespace HW
open Adt Adt.Cache

namespace Adt.Cache
namespace Heap
variable {E : Env} {h h' : Heap}

theorem dead_step (hi : h.Inv) (hs : Step E h h') {d : Nat} (hd : d ∈ h.dead) : d ∈ h'.dead := by
  cases hs with
  | @stmt h1 s t hne hal hal' e =>
    obtain ⟨m, _, ⟨_, hm⟩ | ⟨_, h1, h2, _, h3, _⟩⟩ := classStmt_ok hi hal e
    · exact hm.ext.dead ▸ hd
    · exact h2.dead ▸ hd
  | @fromFields h1 c n f b t hc hal e =>
    obtain ⟨m, _, ⟨_, hm⟩ | ⟨_, h1, h2, _, h3, _⟩⟩ := classStmt_ok hi (by simpa using hc) (fromFieldsCall_eq e)
    · exact hm.ext.dead ▸ hd
    · exact h2.dead ▸ hd
  | @getitem h1 c t a hc hal e =>
    obtain ⟨idx, _, h1, h2, h3, _⟩ := getitem_item hi hc e
    exact h2.dead ▸ hd
  | @modify h1 m c t hc e =>
    obtain ⟨h1, h2, h3, _⟩ := applyMod_ok hi (Nat.lt_succ_self _) hc e
    exact h2.dead ▸ hd
  | reach ht => exact hd
  | release hr => exact hd
  | gc h1 h2 h3 => exact List.mem_append_right _ hd

/-- `M(T)` makes only classes modified by `M`. -/
theorem applyMod_only (hi : h.Inv) {m m' : ModId} {c d t u : Nat} (hc : h.Alive c) (e : h.applyMod E m c = .ok (h', t))
    (hd : h.classes.length ≤ d) (ho : ModOf h'.classes d m' u) : m' = m := by
  obtain ⟨i1, x, _, _⟩ := applyMod_ok hi (Nat.lt_succ_self _) hc e
  by_contra hne
  have hnd : d ∉ h'.dead := by
    rw [x.dead]; intro hx; have := hi.dead_lt d hx; omega
  have h1 := i1.mcomplete d m' u hnd ho
  rw [x.monly _ (fun hq => hne hq.1)] at h1
  have := originOf_lt (hi.msound _ (find_mem h1)).2
  dsimp only at this
  omega

end Heap

namespace MHeap
variable {E : Env} {s s' : MHeap}

theorem origin_eq (h : Heap) (d : Nat) : origin h d = originOf h.classes d := by
  unfold origin originOf; cases h.classes[d]? <;> rfl

/-- What the tables contain in every history. -/
structure Inv (s : MHeap) : Prop where
  types : s.types.Inv
  live : ∀ d m c, d ∉ s.types.dead → ModOf s.types.classes d m c → s.LiveMod m
  cache : ∀ n m, find s.modCache n = some m ↔ m ∉ s.deadMods ∧ s.mods[m]? = some (n, true)
  sound : ∀ e ∈ s.modCache, e.2 ∉ s.deadMods ∧ s.mods[e.2]? = some (e.1, true)
  roots : ∀ m ∈ s.modRoots, s.LiveMod m
  dead_lt : ∀ m ∈ s.deadMods, m < s.mods.length

theorem inv_init : (init : MHeap).Inv := by
  refine ⟨Heap.inv_init, ?_, ?_, by simp [init], by simp [init], by simp [init]⟩
  · intro d m c hd ho
    have : find Cache.init.lookup d = some m := (Heap.inv_init.look d m).2 ⟨hd, c, ho⟩
    cases this
  · intro n m; simp [init, find_nil]

theorem Inv.newMod (hi : s.Inv) (n : Name) : (s.newMod n false).1.Inv ∧ (s.newMod n false).1.LiveMod s.mods.length := by
  have hge {m : Nat} (hm : m ∈ s.deadMods) : m < s.mods.length := hi.dead_lt m hm
  have hl {m : Nat} (hm : s.LiveMod m) : (s.newMod n false).1.LiveMod m :=
    ⟨by have := hm.1; simp only [MHeap.newMod, List.length_append, List.length_singleton]; omega, hm.2⟩
  refine ⟨⟨hi.types, fun d m c h1 h2 => hl (hi.live d m c h1 h2), ?_, ?_, fun m hm => hl (hi.roots m hm), ?_⟩, ?_⟩
  · intro n' m
    show find s.modCache n' = some m ↔ m ∉ s.deadMods ∧ (s.mods ++ [(n, false)])[m]? = some (n', true)
    rw [hi.cache]
    constructor
    · rintro ⟨h1, h2⟩
      exact ⟨h1, by rw [List.getElem?_append_left (List.getElem?_eq_some_iff.1 h2).1]; exact h2⟩
    · rintro ⟨h1, h2⟩
      refine ⟨h1, ?_⟩
      by_cases hm : m < s.mods.length
      · rwa [List.getElem?_append_left hm] at h2
      · rw [List.getElem?_append_right (by omega)] at h2
        cases hmm : m - s.mods.length with
        | zero => rw [hmm] at h2; simp at h2
        | succ k => rw [hmm] at h2; simp at h2
  · intro e he
    have := hi.sound e he
    exact ⟨this.1, by
      show (s.mods ++ [(n, false)])[e.2]? = _
      rw [List.getElem?_append_left (List.getElem?_eq_some_iff.1 this.2).1]; exact this.2⟩
  · intro m hm
    have := hge hm
    simp only [MHeap.newMod, List.length_append, List.length_singleton]; omega
  · exact ⟨by simp [MHeap.newMod], fun hx => by have := hge (m := s.mods.length) hx; omega⟩

theorem Inv.holdMod (hi : s.Inv) {m : Nat} (hm : s.LiveMod m) : (s.holdMod m).Inv :=
  ⟨hi.types, hi.live, hi.cache, hi.sound, fun x hx => by
    rcases List.mem_cons.1 hx with rfl | hx
    · exact hm
    · exact hi.roots x hx, hi.dead_lt⟩

/-- A modifier that is not in the table is made, numbered next. -/
theorem make_new {n : Name} {cache : Bool} (h : s.cachedMod n cache = none) :
    s.make n cache = ({ s with mods := s.mods ++ [(n, cache)],
                               modCache := if cache then (n, s.mods.length) :: s.modCache else s.modCache }, s.mods.length) := by
  unfold make
  rw [h]
  cases cache with
  | false => rfl
  | true =>
    have : find s.modCache n = none := by simpa [cachedMod] using h
    simp only [MHeap.newMod, setdefault, this, if_true]

theorem make_old {n : Name} {cache : Bool} {m : Nat} (h : s.cachedMod n cache = some m) : s.make n cache = (s, m) := by
  unfold make; rw [h]

theorem Inv.make (hi : s.Inv) {n : Name} {cache : Bool} {m : Nat} (he : s.make n cache = (s', m)) :
    s'.Inv ∧ s'.LiveMod m ∧ s'.mods[m]? = some (n, cache) ∧ s'.types = s.types ∧ (∃ M, s'.mods = s.mods ++ M) ∧
      (cache = false → m = s.mods.length) := by
  cases hc : s.cachedMod n cache with
  | some m' =>
    rw [make_old hc] at he
    cases he
    have hct : cache = true := by
      cases cache with
      | true => rfl
      | false => simp [cachedMod] at hc
    subst hct
    have := (hi.cache n m).1 (by simpa [cachedMod] using hc)
    exact ⟨hi, ⟨(List.getElem?_eq_some_iff.1 this.2).1, this.1⟩, this.2, rfl, ⟨[], by simp⟩, by simp⟩
  | none =>
    rw [make_new hc] at he
    cases he
    cases cache with
    | false =>
      obtain ⟨h1, h2⟩ := hi.newMod n
      exact ⟨h1, h2, by simp, rfl, ⟨_, rfl⟩, fun _ => rfl⟩
    | true =>
      obtain ⟨h1, h2⟩ := hi.newMod n
      have hnone : find s.modCache n = none := by simpa [cachedMod] using hc
      have hnd : s.mods.length ∉ s.deadMods := fun hx => by have := hi.dead_lt _ hx; omega
      have hlen : (s.mods ++ [(n, true)]).length = s.mods.length + 1 := by simp
      refine ⟨⟨hi.types, ?_, ?_, ?_, ?_, ?_⟩, ⟨by simp, hnd⟩, by simp, rfl, ⟨_, rfl⟩, by simp⟩
      · intro d m c h1 h2
        have := hi.live d m c h1 h2
        exact ⟨by have := this.1; dsimp only; omega, this.2⟩
      · intro n' m
        dsimp only
        rw [if_pos rfl, find_cons]
        by_cases hn : n = n'
        · subst hn
          rw [if_pos rfl]
          constructor
          · intro e; cases e; exact ⟨hnd, by simp⟩
          · rintro ⟨a1, a2⟩
            by_cases hm : m < s.mods.length
            · rw [List.getElem?_append_left hm] at a2
              have := (hi.cache n m).2 ⟨a1, a2⟩
              rw [hnone] at this; cases this
            · have := (List.getElem?_eq_some_iff.1 a2).1
              rw [show m = s.mods.length by omega]
        · rw [if_neg hn, hi.cache]
          constructor
          · rintro ⟨a1, a2⟩
            exact ⟨a1, by rw [List.getElem?_append_left (List.getElem?_eq_some_iff.1 a2).1]; exact a2⟩
          · rintro ⟨a1, a2⟩
            refine ⟨a1, ?_⟩
            by_cases hm : m < s.mods.length
            · rwa [List.getElem?_append_left hm] at a2
            · have := (List.getElem?_eq_some_iff.1 a2).1
              rw [show m = s.mods.length by omega] at a2
              simp at a2
              exact absurd a2 hn
      · intro e he
        dsimp only at he ⊢
        rw [if_pos rfl] at he
        rcases List.mem_cons.1 he with rfl | he
        · exact ⟨hnd, by simp⟩
        · have := hi.sound e he
          exact ⟨this.1, by rw [List.getElem?_append_left (List.getElem?_eq_some_iff.1 this.2).1]; exact this.2⟩
      · intro m hm
        have := hi.roots m hm
        exact ⟨by have := this.1; dsimp only; omega, this.2⟩
      · intro m hm
        have := hi.dead_lt m hm
        dsimp only; omega

theorem Inv.step (hi : s.Inv) (hs : Step E s s') : s'.Inv ∧ ∃ M, s'.mods = s.mods ++ M := by
  cases hs with
  | @types h' st hm =>
    obtain ⟨i1, M, hM⟩ := hi.types.step st
    refine ⟨⟨i1, ?_, hi.cache, hi.sound, hi.roots, hi.dead_lt⟩, [], by simp⟩
    intro d m c hd ho
    by_cases hlt : d < s.types.classes.length
    · refine hi.live d m c (fun hx => hd (Heap.dead_step hi.types st hx)) ?_
      rw [ModOf, hM, originOf_app' hlt] at ho
      exact ho
    · exact hm d m c (by omega) (by rw [origin_eq]; exact ho)
  | make he =>
    obtain ⟨h1, h2, _, _, h3, _⟩ := hi.make he
    exact ⟨h1.holdMod h2, h3⟩
  | @stmt s1 n m he =>
    obtain ⟨h1, h2⟩ := hi.newMod n
    cases he
    exact ⟨h1.holdMod h2, _, rfl⟩
  | @reach d m hd hg =>
    unfold Heap.getModifier at hg
    split at hg
    · rename_i m' hm'
      cases hg
      obtain ⟨h1, c, hc⟩ := (hi.types.look d m).1 hm'
      exact ⟨hi.holdMod (hi.live d m c h1 hc), [], by simp [MHeap.holdMod]⟩
    · cases hg
  | release hr => exact ⟨⟨hi.types, hi.live, hi.cache, hi.sound, fun m hm => hi.roots m (hr hm), hi.dead_lt⟩, [], by simp⟩
  | @gc D h1 h2 h3 =>
    refine ⟨⟨hi.types, ?_, ?_, ?_, ?_, ?_⟩, [], by simp⟩
    · intro d m c hd ho
      obtain ⟨a1, a2⟩ := hi.live d m c hd ho
      refine ⟨a1, fun hx => ?_⟩
      rcases List.mem_append.1 hx with hx | hx
      · exact h3 (d, m) (find_mem ((hi.types.look d m).2 ⟨hd, c, ho⟩)) hx
      · exact a2 hx
    · intro n m
      dsimp only
      constructor
      · intro hf
        have hmem := find_mem hf
        rw [List.mem_filter] at hmem
        obtain ⟨b1, b2⟩ := hmem
        obtain ⟨c1, c2⟩ := hi.sound _ b1
        refine ⟨fun hx => ?_, c2⟩
        rcases List.mem_append.1 hx with hx | hx
        · simp [hx] at b2
        · exact c1 hx
      · rintro ⟨a1, a2⟩
        have hnd : m ∉ D := fun hx => a1 (List.mem_append_left _ hx)
        have := (hi.cache n m).2 ⟨fun hx => a1 (List.mem_append_right _ hx), a2⟩
        have := find_filter_val (fun b => decide (¬ D.contains b)) (by simpa using hnd) this
        simpa using this
    · intro e he
      dsimp only at he ⊢
      rw [List.mem_filter] at he
      obtain ⟨b1, b2⟩ := he
      obtain ⟨c1, c2⟩ := hi.sound _ b1
      refine ⟨fun hx => ?_, c2⟩
      rcases List.mem_append.1 hx with hx | hx
      · simp [hx] at b2
      · exact c1 hx
    · intro m hm
      obtain ⟨a1, a2⟩ := hi.roots m hm
      refine ⟨a1, fun hx => ?_⟩
      rcases List.mem_append.1 hx with hx | hx
      · exact h2 m hm hx
      · exact a2 hx
    · intro m hm
      rcases List.mem_append.1 hm with hx | hx
      · exact h1 m hx
      · exact hi.dead_lt m hx

theorem Inv.steps (hi : s.Inv) (hs : Steps E s s') : s'.Inv ∧ ∃ M, s'.mods = s.mods ++ M := by
  induction hs with
  | refl => exact ⟨hi, [], by simp⟩
  | tail _ st ih =>
    obtain ⟨i1, M, hM⟩ := ih
    obtain ⟨i2, N, hN⟩ := i1.step st
    exact ⟨i2, M ++ N, by rw [hN, hM, List.append_assoc]⟩

/-- The classes go through a history of C59, C62. -/
theorem Steps.types (hi : s.Inv) (hs : Steps E s s') : Heap.Steps E s.types s'.types := by
  induction hs with
  | refl => exact .refl _
  | @tail b c hs st ih =>
    cases st with
    | types st _ => exact .tail ih st
    | @make s1 n c m he =>
      have : s1.types = b.types := ((hi.steps hs).1.make he).2.2.2.1
      show Heap.Steps E s.types s1.types
      rw [this]; exact ih
    | stmt he => cases he; exact ih
    | reach => exact ih
    | release => exact ih
    | gc => exact ih

theorem Steps.trans {a b c : MHeap} (h1 : Steps E a b) (h2 : Steps E b c) : Steps E a c := by
  induction h2 with
  | refl => exact h1
  | tail _ st ih => exact .tail ih st

theorem make_later {s1 s2 : MHeap} {n : Name} {cache : Bool} {m : Nat} (hist : Steps E init s)
    (he : s.make n cache = (s1, m)) (later : Steps E (s1.holdMod m) s2) :
    s2.Inv ∧ s2.mods[m]? = some (n, cache) := by
  obtain ⟨hi, _⟩ := inv_init.steps hist
  obtain ⟨i1, l1, o1, _⟩ := hi.make he
  obtain ⟨i2, M, hM⟩ := (i1.holdMod l1).steps later
  refine ⟨i2, ?_⟩
  rw [hM]
  show (s1.mods ++ M)[m]? = _
  rw [List.getElem?_append_left l1.1]
  exact o1

end MHeap
end Adt.Cache

open MHeap

/-- **C116** (`make_modifier(n, cache=True)` is interned).  In any history, the modifier made under a name is returned again for
that name, and nothing is made, while the program refers to it or to any class that it modified. -/
theorem C116_interned {E : Env} {s s1 s2 : MHeap} (hist : Steps E init s) {n : Name} {m : Nat}
    (he : s.make n true = (s1, m)) (later : Steps E (s1.holdMod m) s2)
    (held : m ∈ s2.modRoots ∨ ∃ d, s2.types.Alive d ∧ s2.types.getModifier d = .ok m) : s2.make n true = (s2, m) := by
  obtain ⟨i2, o2⟩ := make_later hist he later
  have hl : s2.LiveMod m := by
    rcases held with hr | ⟨d, _, hg⟩
    · exact i2.roots m hr
    · unfold Heap.getModifier at hg
      split at hg
      · rename_i m' hm'
        cases hg
        obtain ⟨h1, c, hc⟩ := (i2.types.look d m).1 hm'
        exact i2.live d m c h1 hc
      · cases hg
  exact make_old (by simpa [cachedMod] using (i2.cache n m).2 ⟨hl.2, o2⟩)

/-- **C116** (separation).  Two calls, at any times, return the same modifier only if both have the same name and `cache=True`:
without `cache` every call returns a modifier of its own, which no other call returns. -/
theorem C116_distinct {E : Env} {s s1 s2 s3 : MHeap} (hist : Steps E init s) {n n' : Name} {cache cache' : Bool} {m m' : Nat}
    (he : s.make n cache = (s1, m)) (later : Steps E (s1.holdMod m) s2) (he' : s2.make n' cache' = (s3, m')) (heq : m = m') :
    n = n' ∧ cache = true ∧ cache' = true := by
  obtain ⟨i2, o2⟩ := make_later hist he later
  obtain ⟨_, _, o3, _, ⟨M, hM⟩, hf⟩ := i2.make he'
  subst heq
  have hlt := (List.getElem?_eq_some_iff.1 o2).1
  rw [hM, List.getElem?_append_left hlt, o2] at o3
  cases o3
  refine ⟨rfl, ?_⟩
  cases cache with
  | true => exact ⟨rfl, rfl⟩
  | false => have := hf rfl; omega

/-- **C116** (types made by name).  `make_modifier(n, cache=True)(T)` is one type: while the program holds it, the modifier of
that name - which the program may have dropped - is still the one that made it, applying it to `T` returns the same type,
and `get_modifier` and `get_unmodified` give the modifier and `T`. -/
theorem C116_type {E : Env} {s s1 s2 s3 : MHeap} {h' : Heap} (hist : Steps E init s) {n : Name} {m : Nat} {T d : Nat}
    (he : s.make n true = (s1, m)) (later : Steps E (s1.holdMod m) s2) (hm : m ∈ s2.modRoots) (hT : s2.types.Alive T)
    (ha : s2.types.applyMod E m T = .ok (h', d)) (later' : Steps E { s2 with types := h'.hold d } s3)
    (held : d ∈ s3.types.roots) :
    s3.make n true = (s3, m) ∧ s3.types.applyMod E m T = .ok (s3.types, d) ∧ s3.types.getModifier d = .ok m ∧
      s3.types.getUnmodified d = .ok T := by
  have hs1 : Steps E init s2 := (hist.tail (.make he)).trans later
  obtain ⟨i2, _⟩ := inv_init.steps hs1
  have hstep : Step E s2 { s2 with types := h'.hold d } := by
    refine .types (.modify hT ha) fun d' m' c hd' ho => ?_
    rw [origin_eq] at ho
    rw [Heap.applyMod_only i2.types hT ha hd' ho]
    exact i2.roots m hm
  have ht1 : Heap.Steps E Cache.init s2.types := Steps.types inv_init hs1
  have ht2 : Heap.Steps E (h'.hold d) s3.types := Steps.types (i2.step hstep).1 later'
  have hrec := C62_recover ht1 hT ha ht2 held
  have hal := ((i2.step hstep).1.steps later').1.types.roots d held
  exact ⟨C116_interned hist he ((later.tail hstep).trans later') (.inr ⟨d, hal, hrec.2.1⟩),
    C62_interned ht1 hT ha ht2 held, hrec.2.1, hrec.2.2.1⟩

/-- **C116** (types of different modifiers).  Types made by modifiers of different names, or made without `cache`, differ, whatever
they modify. -/
theorem C116_types_distinct {E : Env} {s s1 s2 s3 s4 : MHeap} {h h' : Heap} (hist : Steps E init s) {n n' : Name}
    {cache cache' : Bool} {m m' : Nat} {T T' d d' : Nat} (he : s.make n cache = (s1, m))
    (later : Steps E (s1.holdMod m) s2) (he' : s2.make n' cache' = (s3, m')) (later' : Steps E (s3.holdMod m') s4)
    (hm : m ∈ s4.modRoots) (hT : s4.types.Alive T) (ha : s4.types.applyMod E m T = .ok (h, d)) {s5 : MHeap}
    (later'' : Steps E { s4 with types := h.hold d } s5) (hT' : s5.types.Alive T')
    (ha' : s5.types.applyMod E m' T' = .ok (h', d')) (hne : n ≠ n' ∨ cache = false ∨ cache' = false) : d ≠ d' := by
  have hs2 : Steps E init s2 := (hist.tail (.make he)).trans later
  have hs4 : Steps E init s4 := (hs2.tail (.make he')).trans later'
  obtain ⟨i4, _⟩ := inv_init.steps hs4
  have hstep : Step E s4 { s4 with types := h.hold d } := by
    refine .types (.modify hT ha) fun d' m' c hd' ho => ?_
    rw [origin_eq] at ho
    rw [Heap.applyMod_only i4.types hT ha hd' ho]
    exact i4.roots m hm
  rintro rfl
  have := C62_injective (Steps.types inv_init hs4) hT ha (Steps.types (i4.step hstep).1 later'') hT' ha'
  obtain ⟨a, b, c⟩ := C116_distinct hist he later he' this.1
  rcases hne with h | h | h
  · exact h a
  · rw [b] at h; cases h
  · rw [c] at h; cases h

/-! `M = make_modifier('M', cache=True)`, `T1 = M(A)`, `N = make_modifier('M')`, `M` dropped. -/

example : ∃ s1 h' s2, MHeap.make { MHeap.init with types := demoHeap } 1 true = (s1, 0) ∧
    s1.types.applyMod demoEnv 0 7 = .ok (h', 10) ∧
    MHeap.make { s1 with types := h'.hold 10 } 1 false = (s2, 1) ∧ (s2.make 1 true).2 = 0 ∧ (s2.make 2 true).2 = 2 :=
  ⟨_, _, _, rfl, rfl, rfl, rfl, rfl⟩

example {s3 : MHeap} (h : Steps demoEnv _ s3) (held : 7 ∈ s3.types.roots) :=
  C116_type (E := demoEnv) (s := MHeap.init) (n := 1) (T := 0) (.refl _) rfl (.refl _) (by simp [MHeap.holdMod])
    ⟨by decide, by decide⟩ rfl h held

end HW
