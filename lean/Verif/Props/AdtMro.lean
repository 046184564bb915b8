import Verif.Lemmas.Adt.Mro
import Verif.Props.Mro

/-! # C160: when a modifier applies, and what the modified class inherits

Statements about all histories of `Model/Adt/ClassCache.lean`, with the MRO of `Model/Adt/Mro.lean`.  `Linear E` says
that `type()` accepts only bases that have an MRO, `Plain E` that it refuses no others (besides repeated ones). -/

namespace HW
open Adt Adt.Cache Adt.Cache.Heap Adt.Cache.Spec
open Cls.Spec (attr)

namespace Adt.Cache.Spec

/-- `type.__new__` raises if the bases have no MRO. -/
def Linear (E : Env) : Prop := ∀ L mt bs, E.accepts L mt bs = true → (linear L bs).isSome = true

/-- `type.__new__` has no other reason to raise, besides repeated bases. -/
def Plain (E : Env) : Prop := ∀ L mt bs, (linear L bs).isSome = true → E.accepts L mt bs = true

/-- `e` is `M(T)`, now and without making a class. -/
def Modified (E : Env) (h : Heap) (m : ModId) (T e : Nat) : Prop := h.applyMod E m T = .ok (h, e)

/-- Some enum with members in the list derives from an enum with other members. -/
def EnumBelow (h : Heap) (l : List Nat) : Prop := ∃ x ∈ l, ∃ b ∈ h.bases x, h.mt x = .enum ∧
  ∃ f g, h.fields x = some f ∧ h.fields b = some g ∧ g ≠ f

end Adt.Cache.Spec

namespace Adt.Cache.Heap

theorem mem_twice {s : Nat → Nat} {l : List Nat} {y : Nat} : y ∈ Cls.twice s l ↔ ∃ x ∈ l, y = s x ∨ y = x := by
  unfold Cls.twice
  rw [List.mem_flatMap]
  simp only [Cls.withSized, if_true, List.mem_cons, List.not_mem_nil, or_false]

theorem twice_filter {s : Nat → Nat} {p : Nat → Bool} : ∀ {l : List Nat}, (∀ x ∈ l, p x = true) →
    (∀ x ∈ l, p (s x) = false) → (Cls.twice s l).filter p = l
  | [], _, _ => rfl
  | x :: l, h1, h2 => by
      have ih := twice_filter (s := s) (p := p) (l := l) (fun y hy => h1 y (by simp [hy])) (fun y hy => h2 y (by simp [hy]))
      unfold Cls.twice at ih ⊢
      rw [List.flatMap_cons, List.filter_append, ih]
      simp [Cls.withSized, h1 x (by simp), h2 x (by simp)]

theorem Inv.sub_mro {h : Heap} (hi : h.Inv) {c y : Nat} (hs : Sub h c y) : ∀ {l : List Nat},
    mro h.classes c = some l → y ∈ l := by
  induction hs with
  | refl => intro l hl; obtain ⟨r, rfl⟩ := Cls.mroB_head hi.lt_of_base hl; simp
  | step hb _ ih =>
    intro l hl
    obtain ⟨lb, e, hsub⟩ := Cls.mroB_base hi.lt_of_base hl hb
    exact hsub (ih e)

theorem Inv.subOfMod_iff {h : Heap} (hi : h.Inv) {x : Nat} {m : ModId} (hx : h.Alive x) :
    h.subOfMod x m = true ↔ ∃ u, ModOf h.classes x m u := by
  unfold subOfMod
  rw [List.contains_iff_mem, hi.subs]
  exact ⟨fun h => h.2, fun h => ⟨hx.2, h⟩⟩

theorem Inv.agree_of {h : Heap} (hi : h.Inv) {l : List Nat} (hl : ¬ EnumBelow h l) : ∀ x ∈ l, ∀ b ∈ h.bases x, ∀ f g,
    h.fields x = some f → h.fields b = some g → g = f := by
  intro x hx b hb f g hf hg
  by_cases he : h.mt x = .enum
  · by_contra hne
    exact hl ⟨x, hx, b, hb, he, f, g, hf, hg, hne⟩
  · obtain ⟨k, hk, hb'⟩ := get_basesOf hb
    refine (hi.good x k hk).agree (fun e => ?_) f ?_ b hb' g hg
    · exact absurd (by simpa only [Heap.mt, hk] using e) he
    · simpa only [Heap.fields, hk] using hf

theorem sub_later {h h' : Heap} {N : List Class} (hN : h'.classes = h.classes ++ N) {c d : Nat} (hs : Sub h c d) :
    Sub h' c d := by
  induction hs with
  | refl => exact .refl _
  | @step c b d hb _ ih =>
    obtain ⟨k, hk, _⟩ := get_basesOf hb
    exact .step (b := b) (by rw [bases_eq, hN, basesOf_app (lt_of_get hk)]; exact hb) ih

theorem enum_of_mod {h : Heap} (hi : h.Inv) {m : ModId} {c t : Nat} (ht : h.Alive t) (hm : ModOf h.classes t m c)
    {l : List Nat} (hl : mro h.classes c = some l) : ¬ EnumBelow h l := by
  rintro ⟨x, hx, b, hb, -, f, g, hf, hg, hne⟩
  obtain ⟨d, -, hd, hdm⟩ := hi.mod_of_sub ht hm (hi.mro_sub hl x hx)
  obtain ⟨k, ds, hk, hkb, -, hfa⟩ := hi.mod_shape hdm
  obtain ⟨e, he, hem⟩ := forall₂_left hfa hb
  have ho : k.origin = .modified m x := by
    unfold ModOf originOf at hdm; rw [hk] at hdm; exact Option.some.inj hdm
  have hfd : k.fields = some f := by
    have := (hi.src hdm).2; rw [hf] at this; simpa only [Heap.fields, hk] using this
  exact hne ((hi.good d k hk).agree (fun _ => ⟨m, x, ho⟩) f hfd e (by rw [hkb]; simp [he]) g
    (by have := (hi.src hem).2; rw [hg] at this; exact this))

theorem mro_keep {E : Env} {h h' : Heap} (hi : h.Inv) {m : ModId} {T d : Nat} (hT : h.Alive T)
    (he : h.applyMod E m T = .ok (h', d)) {c : Nat} (hc : c < h.classes.length) :
    mro h'.classes c = mro h.classes c := by
  obtain ⟨-, x1, -, -⟩ := applyMod_ok hi (Nat.lt_succ_self T) hT he
  obtain ⟨N, hN⟩ := x1.classes
  rw [hN, mro_app hi.lt_of_base hc]

end Adt.Cache.Heap

/-- **C160** (MROs).  Every class of a history has an MRO, which consists of the classes above it, without repetition and itself first. -/
theorem C160_has_mro {E : Env} {h : Heap} (hE : Linear E) (hist : Steps E init h) {T : Nat} (hT : h.Alive T) :
    ∃ l, mro h.classes T = some l ∧ l.Nodup ∧ l.head? = some T ∧ ∀ x, x ∈ l ↔ Sub h T x := by
  obtain ⟨hi, _⟩ := inv_init.steps hist
  obtain ⟨l, hl⟩ := mro_exists hE hist hT.1
  obtain ⟨r, hr⟩ := Cls.mroB_head hi.lt_of_base hl
  exact ⟨l, hl, Cls.mroB_nodup hi.lt_of_base hl, by rw [hr]; rfl,
    fun x => ⟨fun hx => hi.mro_sub hl x hx, fun hx => hi.sub_mro hx hl⟩⟩

/-- **C160** (errors).  If `M(T)` cannot be made, that is a `TypeError`. -/
theorem C160_error {E : Env} {h : Heap} (hist : Steps E init h) {T : Nat} (hT : h.Alive T) {m : ModId} {e : PyErr}
    (he : h.applyMod E m T = .error e) : e = .typeError :=
  applyMod_error (T + 1) (inv_init.steps hist).1 (Nat.lt_succ_self T) hT he

/-- **C160** (when a modifier applies).  In any history `M(T)` can be made exactly if no class of `T.__mro__` comes from
`M` itself and no enum with members among them derives from an enum with other members. -/
theorem C160_applies {E : Env} {h : Heap} (hE : Plain E) (hist : Steps E init h) {T : Nat} (hT : h.Alive T) {m : ModId}
    {l : List Nat} (hl : mro h.classes T = some l) :
    (∃ h' d, h.applyMod E m T = .ok (h', d)) ↔ (∀ x ∈ l, h.subOfMod x m = false) ∧ ¬ EnumBelow h l := by
  obtain ⟨hi, _⟩ := inv_init.steps hist
  have hal : ∀ x ∈ l, h.Alive x := fun x hx => hi.alive_sub hT (hi.mro_sub hl x hx)
  constructor
  · rintro ⟨h', d, he⟩
    obtain ⟨i1, x1, l1, r1⟩ := applyMod_ok hi (Nat.lt_succ_self T) hT he
    obtain ⟨N, hN⟩ := x1.classes
    have hl' : mro h'.classes T = some l := by rw [mro_keep hi hT he hT.1]; exact hl
    refine ⟨fun x hx => ?_, ?_⟩
    · rw [Bool.eq_false_iff]
      intro hm
      obtain ⟨u, hu⟩ := (hi.subOfMod_iff (hal x hx)).1 hm
      exact i1.mod_free l1 r1 (sub_later hN (hi.mro_sub hl x hx)) (by
        have := originOf_app hu N; rw [← hN] at this; exact this)
    · rintro ⟨x, hx, b, hb, h1, f, g, h2, h3, h4⟩
      have hxl := (hal x hx).1
      have hbl := hi.lt_of_base x b hb
      refine enum_of_mod i1 l1 r1 hl' ⟨x, hx, b, ?_, ?_, f, g, ?_, ?_, h4⟩
      · rw [bases_eq, x1.bases hxl]; exact hb
      · rw [mt_eq, hN, mtOf_app hxl]; exact h1
      · rw [fields_eq, x1.fields hxl]; exact h2
      · rw [fields_eq, x1.fields (by omega)]; exact h3
  · rintro ⟨h1, h2⟩
    refine applyMod_total hE (T + 1) hi (Nat.lt_succ_self T) hT ⟨⟨l, hl⟩, fun x hx u hu => ?_, fun x hx => ?_⟩
    · have hx' := hi.sub_mro hx hl
      have := (hi.subOfMod_iff (hal x hx')).2 ⟨u, hu⟩
      rw [h1 x hx'] at this; cases this
    · exact hi.agree_of h2 x (hi.sub_mro hx hl)

/-- **C160** (method resolution).  Whatever `type()` accepts: when `M(T)` has been made, its MRO is that of `T` with
every class preceded by its modified version, which exists.  Without the classes of `M` it is the MRO of `T`, so an
attribute that those do not define (`M` defines none) is found in `M(T)` where it is found in `T`. -/
theorem C160_mro {E : Env} {h h' : Heap} (hist : Steps E init h) {T d : Nat} (hT : h.Alive T) {m : ModId}
    {l : List Nat} (hl : mro h.classes T = some l) (he : h.applyMod E m T = .ok (h', d)) :
    ∃ L, mro h'.classes d = some L ∧ L.Nodup ∧ L.filter (fun x => !h'.subOfMod x m) = l ∧
      (∀ x ∈ l, ∃ e, Modified E h' m x e ∧ [e, x] <:+: L) ∧
      (∀ e ∈ L, h'.subOfMod e m = true → ∃ x ∈ l, Modified E h' m x e) ∧
      ∀ (α : Type) (defines : Nat → Option α), (∀ e ∈ L, h'.subOfMod e m = true → defines e = none) →
        attr defines L = attr defines l := by
  obtain ⟨hi, _⟩ := inv_init.steps hist
  obtain ⟨i1, x1, l1, r1⟩ := applyMod_ok hi (Nat.lt_succ_self T) hT he
  have hl' : mro h'.classes T = some l := by rw [mro_keep hi hT he hT.1]; exact hl
  have hL := i1.mro_mod l1 r1 hl'
  have hsub := i1.mro_sub hl'
  have hal : ∀ x ∈ l, h'.Alive x := fun x hx => i1.alive_sub (x1.alive hT) (hsub x hx)
  have hmod : ∀ x ∈ l, ∃ e, h'.modd m x = e ∧ h'.Alive e ∧ ModOf h'.classes e m x := fun x hx => by
    obtain ⟨e, e1, e2, e3⟩ := i1.mod_of_sub l1 r1 (hsub x hx)
    exact ⟨e, modd_eq e1, e2, e3⟩
  have hfl : (Cls.twice (h'.modd m) l).filter (fun x => !h'.subOfMod x m) = l := by
    refine twice_filter (fun x hx => ?_) (fun x hx => ?_)
    · rw [Bool.not_eq_true', Bool.eq_false_iff]
      intro hm
      obtain ⟨u, hu⟩ := (i1.subOfMod_iff (hal x hx)).1 hm
      exact i1.mod_free l1 r1 (hsub x hx) hu
    · obtain ⟨e, rfl, e2, e3⟩ := hmod x hx
      rw [(i1.subOfMod_iff e2).2 ⟨x, e3⟩]; rfl
  refine ⟨_, hL, Cls.mroB_nodup i1.lt_of_base hL, hfl, fun x hx => ?_, fun e he hm => ?_, fun α defines hd => ?_⟩
  · obtain ⟨e, rfl, e2, e3⟩ := hmod x hx
    exact ⟨_, i1.applyMod_live e2 e3, Cls.flat_pairs (v := fun _ => true) hx rfl⟩
  · obtain ⟨x, hx, h1 | h1⟩ := mem_twice.1 he
    · obtain ⟨e', rfl, e2, e3⟩ := hmod x hx
      subst h1
      exact ⟨x, hx, i1.applyMod_live e2 e3⟩
    · subst h1
      obtain ⟨u, hu⟩ := (i1.subOfMod_iff (hal e hx)).1 hm
      exact absurd hu (i1.mod_free l1 r1 (hsub e hx))
  · rw [← Cls.attr_filter (l := Cls.twice (h'.modd m) l) (p := fun x => !h'.subOfMod x m), hfl]
    intro x hx hp
    exact hd x hx (by simpa using hp)

/-- **C160** (kind and fields).  `M(T)` has the metaclass and the fields of `T`. -/
theorem C160_fields {E : Env} {h h' : Heap} (hist : Steps E init h) {T d : Nat} (hT : h.Alive T) {m : ModId}
    (he : h.applyMod E m T = .ok (h', d)) : h'.mt d = h.mt T ∧ h'.fields d = h.fields T := by
  obtain ⟨hi, _⟩ := inv_init.steps hist
  obtain ⟨i1, x1, l1, r1⟩ := applyMod_ok hi (Nat.lt_succ_self T) hT he
  obtain ⟨N, hN⟩ := x1.classes
  obtain ⟨s1, s2⟩ := i1.src r1
  exact ⟨by rw [s1, mt_eq, hN, mtOf_app hT.1]; rfl, by rw [s2, fields_eq, x1.fields hT.1]; rfl⟩

/-! ### Examples -/

namespace Adt.Cache

/-- `class E(Enum): a = 0` and `class F(E): b = 1` (classes 7 and 8). -/
def enumStmt : Stmt := { fields := .vals [(1, .int 0)], name := 1, bases := [enumC] }
def enumStmt' : Stmt := { fields := .vals [(2, .int 1)], name := 2, bases := [7] }
def enumHeap1 : Heap := (after (init.classStmt c3Env enumStmt)).hold 7
def enumHeap : Heap := (after (enumHeap1.classStmt c3Env enumStmt')).hold 8

theorem enumHeap_reachable : Steps c3Env init enumHeap :=
  .tail (.tail (.refl _) (Step.stmt (s := enumStmt) (by simp [enumStmt])
      (by intro b hb; simp only [enumStmt, List.mem_cons, List.not_mem_nil, or_false] at hb; subst hb; exact ⟨by decide, by decide⟩)
      (by simp [enumStmt, FArg.ids]) rfl))
    (Step.stmt (h := enumHeap1) (s := enumStmt') (by simp [enumStmt'])
      (by intro b hb; simp only [enumStmt', List.mem_cons, List.not_mem_nil, or_false] at hb; subst hb; exact ⟨by decide, by decide⟩)
      (by simp [enumStmt', FArg.ids]) rfl)

end Adt.Cache

/-- **C160** (negation: not every class can be modified).  `class E(Enum): a = 0`, `class F(E): b = 1`: `M(E)` exists,
`M(F)` raises `TypeError`, because `F` and `M(E)` are bound to different members. -/
theorem C160_refuted : ∃ (h h' : Heap) (m : ModId) (F B d : Nat), Steps c3Env init h ∧ h.Alive F ∧ Sub h F B ∧
    (∀ x, h.subOfMod x m = false) ∧ h.applyMod c3Env m B = .ok (h', d) ∧ h.applyMod c3Env m F = .error .typeError :=
  ⟨enumHeap, _, 0, 8, 7, 11, enumHeap_reachable, ⟨by decide, by decide⟩, .step (b := 7) (by decide) (.refl _),
    fun _ => rfl, rfl, rfl⟩

/-- `class P(Product): x = A; y = B` (class 11) and the MRO of `M(P)`. -/
example : ∃ h', (after (Adt.Cache.demoHeap.classStmt c3Env demoStmt)).applyMod c3Env 0 11 = .ok (h', 18) ∧
    mro (after (Adt.Cache.demoHeap.classStmt c3Env demoStmt)).classes 11 = some [11, 3, 10, 2, 9, 1, 0] ∧
    mro h'.classes 18 = some [18, 11, 15, 3, 17, 10, 14, 2, 16, 9, 13, 1, 12, 0] := ⟨_, rfl, by decide, by decide⟩

/-- The hypotheses of `C160_applies` hold of `E` above, whose MRO is `E, Enum, object`. -/
example : ∃ h' d, enumHeap.applyMod c3Env 0 7 = .ok (h', d) :=
  (C160_applies (fun _ _ _ h => h) enumHeap_reachable ⟨by decide, by decide⟩ (l := [7, 6, 0]) (by decide)).2
    ⟨fun _ _ => rfl, by
      rintro ⟨x, hx, b, hb, -, f, g, h1, h2, h3⟩
      simp only [List.mem_cons, List.not_mem_nil, or_false] at hx
      rcases hx with rfl | rfl | rfl
      · rw [show enumHeap.bases 7 = [6] from by decide, List.mem_singleton] at hb
        subst hb
        rw [show enumHeap.fields 6 = none from by decide] at h2; cases h2
      · rw [show enumHeap.fields 6 = none from by decide] at h1; cases h1
      · rw [show enumHeap.fields 0 = none from by decide] at h1; cases h1⟩

example : Linear c3Env ∧ Plain c3Env := ⟨fun _ _ _ h => h, fun _ _ _ h => h⟩

/-- The MRO of `M(E)`. -/
example : ∃ h' d L, enumHeap.applyMod c3Env 0 7 = .ok (h', d) ∧ mro h'.classes d = some L ∧ L = [11, 7, 10, 6, 9, 0] :=
  ⟨_, 11, _, rfl, rfl, by decide⟩

end HW
