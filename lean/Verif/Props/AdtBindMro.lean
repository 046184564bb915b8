import Verif.Props.AdtMro

/-! # C161: binding a type and method resolution

Statements about all histories of `Model/Adt/ClassCache.lean`, with the MRO of `Model/Adt/Mro.lean`. -/

namespace HW
open Adt Adt.Cache Adt.Cache.Heap Adt.Cache.Spec
open Cls.Spec (attr)

namespace Adt.Cache.Heap

variable {E : Env} {h h' : Heap}

/-- What is above an unbound class is unbound. -/
theorem Inv.unbound_sub (hi : h.Inv) {c x : Nat} (hs : Sub h c x) : h.fields c = none → h.fields x = none := by
  induction hs with
  | refl => exact id
  | @step c b x hb _ ih =>
    intro hf
    refine ih ?_
    obtain ⟨k, hk, hb'⟩ := get_basesOf hb
    have g := hi.good c k hk
    by_cases hp : k.mt = .plain
    · have hle := g.le b hb'
      rw [hp] at hle
      have hbm : mtOf h.classes b = .plain := by
        cases e : mtOf h.classes b <;> rw [e] at hle <;> first | rfl | cases hle
      by_cases hbl : b < h.classes.length
      · obtain ⟨kb, hkb⟩ := Inv.get hbl
        have := ((hi.good b kb hkb).plain (by simpa only [mtOf, hkb] using hbm)).1
        simpa only [Heap.fields, hkb] using this
      · simp only [Heap.fields, List.getElem?_eq_none (Nat.le_of_not_lt hbl)]
    · exact (g.unb hp (by simpa only [Heap.fields, hk] using hf)).2 b hb'

/-- What is above `c[idx]` is bound or above `c`. -/
theorem Inv.item_above (hi : h.Inv) : ∀ (c : Nat) {idx : Idx} {t : Nat}, ItemOf h.classes t c idx → ∀ {x : Nat},
    Sub h t x → (h.fields x).isSome = true ∨ Sub h c x := by
  intro c
  induction c using Nat.strong_induction_on with
  | _ c ih =>
    intro idx t hit x hs
    obtain ⟨k, hk, _, sh⟩ := hi.shape hit
    cases hs with
    | refl => left; simp only [Heap.fields, hk, sh.fields]; rfl
    | @step _ b _ hb hs =>
      obtain ⟨ds, ts, h1, h2, h3⟩ := sh.bases
      have hb' : b ∈ k.bases := by simpa only [Heap.bases, hk] using hb
      rw [h1] at hb'
      simp only [List.cons_append, List.mem_cons, List.mem_append] at hb'
      rcases hb' with rfl | hb' | hb'
      · exact .inr hs
      · obtain ⟨u, hu, hud⟩ := forall₂_right h2 hb'
        have hu := (List.mem_filter.1 hu).1
        rcases ih u (hi.lt_of_base c u hu) hud hs with h | h
        · exact .inl h
        · exact .inr (.step hu h)
      · cases idx with
        | tup l => cases h3; cases hb'
        | set l => cases h3; cases hb'
        | dict l =>
          obtain ⟨tb, t', rfl, t1, t2, t3⟩ := h3
          rw [List.mem_singleton] at hb'
          subst hb'
          have hsub : Sub h c tb := t2.sub
          have hlt : tb < c := by
            cases hsub with
            | refl => have := sh.mtu; rw [t1] at this; cases this
            | step hb'' hs'' =>
              have hle : ∀ {a b : Nat}, Sub h a b → b ≤ a := by
                intro a b hs
                induction hs with
                | refl => exact Nat.le_refl _
                | step hb _ ih => have := hi.lt_of_base _ _ hb; omega
              have := hi.lt_of_base _ _ hb''
              have := hle hs''
              omega
          rcases ih tb hlt t3 hs with h | h
          · exact .inl h
          · exact .inr (hsub.trans h)

/-- A class whose unbound ancestors are those of its first base. -/
theorem Inv.mro_erase (hi : h.Inv) {c t : Nat} {l L : List Nat} (hc : h.fields c = none) (hcb : c ∈ h.bases t)
    (hsub : ∀ x, Sub h t x → (h.fields x).isSome = true ∨ Sub h c x) (hl : mro h.classes c = some l)
    (hL : mro h.classes t = some L) : L.filter (fun x => (h.fields x).isNone) = l := by
  obtain ⟨ls, R, h1, h2, rfl⟩ := (Cls.mroB_iff hi.lt_of_base).1 hL
  have hnd := Cls.mroB_nodup hi.lt_of_base hL
  have hlR : l.Sublist (t :: R) := by
    obtain ⟨lb, hlb, e⟩ : ∃ lb ∈ ls, Cls.mroB (basesIn h.classes) c = some lb := forall₂_left h1 hcb
    have : lb = l := by
      have : mro h.classes c = some lb := e
      rw [hl] at this; exact (Option.some.inj this).symm
    subst this
    exact (h2.sublist lb (by simp [hlb])).cons _
  have hlun : ∀ y ∈ l, (h.fields y).isNone = true := fun y hy => by
    rw [hi.unbound_sub (hi.mro_sub hl y hy) hc]; rfl
  have hsub' : l.Sublist ((t :: R).filter fun x => (h.fields x).isNone) := by
    have := hlR.filter (fun x => (h.fields x).isNone)
    rwa [List.filter_eq_self.2 hlun] at this
  refine (hsub'.eq_of_length_le ?_).symm
  refine ((hnd.filter _).subperm ?_).length_le
  intro x hx
  obtain ⟨hx, hxs⟩ := List.mem_filter.1 hx
  rcases hsub x (hi.mro_sub hL x hx) with h' | h'
  · cases e : h.fields x <;> simp [e] at h' hxs
  · exact hi.sub_mro h' hl

theorem attr_unbound {α : Type} {defines : Nat → Option α} {L l : List Nat}
    (hL : L.filter (fun x => (h.fields x).isNone) = l)
    (hd : ∀ x ∈ L, h.fields x ≠ none → defines x = none) : attr defines L = attr defines l := by
  rw [← hL, Cls.attr_filter]
  intro x hx hp
  exact hd x hx (by intro e; rw [e] at hp; cases hp)

end Adt.Cache.Heap

/-- **C161** (`T[...]`).  In any history the MRO of `T[...]`, without the bound classes in it, is that of `T`.  So an
attribute that the bound classes do not define (they define `_fields_` and the like; those of an anonymous product
also its fields, `__new__` and `__init__`) is found in `T[...]` where it is found in `T`. -/
theorem C161_getitem {E : Env} {h h' : Heap} (hE : Linear E) (hist : Steps E init h) {T d : Nat} {a : Heap.Arg}
    (hT : h.Alive T) (ha : ∀ d ∈ a.ids, h.Alive d) (he : h.getitem E T a = .ok (h', d)) :
    ∃ l L, mro h.classes T = some l ∧ mro h'.classes d = some L ∧ L.filter (fun x => (h'.fields x).isNone) = l ∧
      ∀ (α : Type) (defines : Nat → Option α), (∀ x ∈ L, h'.fields x ≠ none → defines x = none) →
        attr defines L = attr defines l := by
  obtain ⟨hi, _⟩ := inv_init.steps hist
  obtain ⟨idx, _, i1, x1, l1, r1⟩ := getitem_item hi hT he
  obtain ⟨N, hN⟩ := x1.classes
  obtain ⟨l, hl⟩ := mro_exists hE hist hT.1
  have hl' : mro h'.classes T = some l := by rw [hN, mro_app hi.lt_of_base hT.1]; exact hl
  obtain ⟨L, hL⟩ : ∃ L, mro h'.classes d = some L :=
    mro_exists (h := h'.hold d) hE (.tail hist (.getitem hT ha he)) l1.1
  obtain ⟨k, hk, _, sh⟩ := i1.shape r1
  obtain ⟨ds, ts, h1, -, -⟩ := sh.bases
  have hfl := i1.mro_erase (c := T) sh.free (by simp only [Heap.bases, hk, h1]; simp)
    (fun x hx => i1.item_above T r1 hx) hl' hL
  exact ⟨l, L, hl, hL, hfl, fun α defines hd => attr_unbound hfl hd⟩

/-- **C161** (class statements).  The same of `class P(T): ...` with fields, for one unbound base `T`. -/
theorem C161_statement_partial {E : Env} {h h' : Heap} (hE : Linear E) (hist : Steps E init h) {s : Stmt} {T d : Nat}
    {m : Meta} (hm : h.winner .plain s.bases = .ok m) (hf : s.hasFields m = true) (hb : s.bases = [T]) (hT : h.Alive T)
    (hu : h.fields T = none) (ha : ∀ d ∈ FArg.ids s.fields, h.Alive d) (he : h.classStmt E s = .ok (h', d)) :
    ∃ l L, mro h.classes T = some l ∧ mro h'.classes d = some L ∧ L.filter (fun x => (h'.fields x).isNone) = l ∧
      ∀ (α : Type) (defines : Nat → Option α), (∀ x ∈ L, h'.fields x ≠ none → defines x = none) →
        attr defines L = attr defines l := by
  obtain ⟨hi, _⟩ := inv_init.steps hist
  have hal : ∀ b ∈ s.bases, h.Alive b := by rw [hb]; intro b hb; rw [List.mem_singleton.1 hb]; exact hT
  have made := stmt_made hi hal hm hf he
  have i1 := made.inv
  obtain ⟨N, hN⟩ := made.ext.classes
  obtain ⟨l, hl⟩ := mro_exists hE hist hT.1
  have hl' : mro h'.classes T = some l := by rw [hN, mro_app hi.lt_of_base hT.1]; exact hl
  obtain ⟨L, hL⟩ : ∃ L, mro h'.classes d = some L :=
    mro_exists (h := h'.hold d) hE (.tail hist (.stmt (by rw [hb]; nofun) hal ha he)) made.alive.1
  have hu' : h'.fields T = none := by rw [fields_eq, made.ext.fields hT.1]; exact hu
  obtain ⟨k, s', hk, sh, hkey, _, _⟩ := made.shape
  have hbs : s'.bases = [T] := by rw [← hb]; exact (Key.attr.inj hkey).2.1
  have key : T ∈ h'.bases d ∧ ∀ x, Sub h' d x → (h'.fields x).isSome = true ∨ Sub h' T x := by
    rcases sh.bases with ⟨bm, idx, b, e, -, -, h3, -, h5, h6, b0, h7, h8⟩ | ⟨-, -, h3, h4, -⟩
    · rw [hbs] at h3 h7
      rw [List.mem_singleton] at h7
      subst h7
      refine ⟨by simp only [Heap.bases, hk, h3]; simp, fun x hx => ?_⟩
      cases hx with
      | refl => left; simp only [Heap.fields, hk, h6]; rfl
      | step hb' hs =>
        rw [show h'.bases d = [b0] ++ [e] by simp only [Heap.bases, hk, h3]] at hb'
        simp only [List.cons_append, List.nil_append, List.mem_cons, List.not_mem_nil, or_false] at hb'
        rcases hb' with rfl | rfl
        · exact .inr hs
        · rcases i1.item_above b h5 hs with h | h
          · exact .inl h
          · exact .inr (h8.sub.trans h)
    · rw [hbs] at h3
      refine ⟨by simp only [Heap.bases, hk, h3]; simp, fun x hx => ?_⟩
      cases hx with
      | refl => left; simp only [Heap.fields, hk, h4]; rfl
      | step hb' hs =>
        rw [show h'.bases d = [T] by simp only [Heap.bases, hk, h3], List.mem_singleton] at hb'
        subst hb'
        exact .inr hs
  have hfl := i1.mro_erase hu' key.1 key.2 hl' hL
  exact ⟨l, L, hl, hL, hfl, fun α defines hd => attr_unbound hfl hd⟩

/-! ### Several bases -/

namespace Adt.Cache

theorem demoHeap_c3 : Steps c3Env init Adt.Cache.demoHeap := by
  refine .tail (b := demoHeap1) (.tail (.refl _) ?_) ?_
  · exact Step.stmt (h := init) (h' := { demoHeap1 with roots := init.roots })
      (s := { fields := .types [], name := 1, bases := [0] }) (t := 7) (by simp)
      (by simp [Alive, init, initClasses]) (by simp [FArg.ids]) rfl
  · exact Step.stmt (h := demoHeap1) (h' := { Adt.Cache.demoHeap with roots := 7 :: init.roots })
      (s := { fields := .types [], name := 2, bases := [0] }) (t := 8) (by simp)
      (by simp [Alive, demoHeap1, init, initClasses]) (by simp [FArg.ids]) rfl

/-- `class P(Product, M): x = A`, and without the field. -/
def mixStmt : Stmt := { fields := .types [(1, 8)], name := 5, bases := [productC, 7] }
def mixStmt' : Stmt := { mixStmt with fields := .types [] }

/-- `class P(Product, AnonymousProduct): x = A`, and without the field. -/
def twoStmt : Stmt := { fields := .types [(1, 8)], name := 5, bases := [productC, anonC] }
def twoStmt' : Stmt := { twoStmt with fields := .types [] }

end Adt.Cache

/-- **C161** (refuted for several bases).  `class P(Product, M): x = A` finds an attribute that `Tuple` and the mixin `M`
define, say `__eq__`, in `M`; `class P(Product, M): pass` finds it in `Tuple`. -/
theorem C161_mixin_refuted : ∃ (h h1 h2 : Heap) (s : Stmt) (M P Q : Nat) (L1 L2 : List Nat), Steps c3Env init h ∧
    s.bases = [productC, M] ∧ h.mt M = .plain ∧ h.classStmt c3Env s = .ok (h1, P) ∧
    h.classStmt c3Env { s with fields := .types [] } = .ok (h2, Q) ∧
    mro h1.classes P = some L1 ∧ mro h2.classes Q = some L2 ∧
    ∀ (α : Type) (defines : Nat → Option α) (a b : α), defines M = some a → defines tupleC = some b →
      (∀ x, x ≠ M → x ≠ tupleC → defines x = none) →
      attr defines L1 = some (M, a) ∧ attr defines L2 = some (tupleC, b) := by
  refine ⟨Adt.Cache.demoHeap, after (Adt.Cache.demoHeap.classStmt c3Env mixStmt),
    after (Adt.Cache.demoHeap.classStmt c3Env mixStmt'), mixStmt, 7, 11, 9, [11, 3, 7, 10, 2, 9, 1, 0],
    [9, 3, 2, 1, 7, 0], demoHeap_c3, rfl, rfl, rfl, rfl, by decide, by decide, ?_⟩
  intro α defines a b h1 h2 h3
  have n : ∀ x ∈ [11, 10, 9, 3, 2, 0], defines x = none := fun x hx => h3 x
    (by rintro rfl; revert hx; decide) (by rintro rfl; revert hx; decide)
  simp only [List.mem_cons, List.not_mem_nil, or_false, forall_eq_or_imp, forall_eq] at n
  obtain ⟨n1, -, n3, n4, n5, -⟩ := n
  simp only [attr, n1, n3, n4, n5, h1, h2, and_self]

/-- **C161** (refuted for several bases).  `class P(Product, AnonymousProduct): pass` is a class; with a field it raises
`TypeError`, since `AnonymousProduct` would have to come before and after `AnonymousProduct[{x: A}]`. -/
theorem C161_fields_refuted : ∃ (h h' : Heap) (s : Stmt) (d : Nat), Steps c3Env init h ∧ (∀ b ∈ s.bases, h.Alive b) ∧
    (∀ b ∈ FArg.ids s.fields, h.Alive b) ∧
    h.classStmt c3Env { s with fields := .types [] } = .ok (h', d) ∧ h.classStmt c3Env s = .error .typeError := by
  refine ⟨Adt.Cache.demoHeap, _, twoStmt, 9, demoHeap_c3, ?_, ?_, rfl, rfl⟩
  · intro b hb
    simp only [twoStmt, List.mem_cons, List.not_mem_nil, or_false] at hb
    rcases hb with rfl | rfl <;> exact ⟨by decide, by decide⟩
  · intro b hb
    simp only [twoStmt, FArg.ids, List.map_cons, List.map_nil, List.mem_singleton] at hb
    subst hb; exact ⟨by decide, by decide⟩

/-! ### Examples -/

/-- `Tuple[A, B]`. -/
example : ∃ h', Adt.Cache.demoHeap.getitem c3Env tupleC (.items [7, 8]) = .ok (h', 9) ∧
    mro h'.classes 9 = some [9, 1, 0] := ⟨_, rfl, by decide⟩

/-- `class P(Product): x = A; y = B`. -/
example : ∃ h', Adt.Cache.demoHeap.classStmt c3Env demoStmt = .ok (h', 11) ∧
    mro h'.classes 11 = some [11, 3, 10, 2, 9, 1, 0] ∧
    [11, 3, 10, 2, 9, 1, 0].filter (fun x => (h'.fields x).isNone) = [3, 2, 1, 0] := ⟨_, rfl, by decide, by decide⟩

example : ∃ l, mro init.classes productC = some l ∧ l = [3, 2, 1, 0] := ⟨_, rfl, by decide⟩

end HW
