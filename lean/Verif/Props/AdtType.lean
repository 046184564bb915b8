import Verif.Lemmas.Adt.Strip

/-!
# ADT classes: rebinding, modifiers, visitors (C60, C61, C63-C66)
-/

namespace HW

open Adt

variable {W : World}

/-! ### C60: `rebind` -/

/-- Not covered: `AnonymousProduct`s (`C60_anon_negation`), classes with more in their body than fields
(`C60_body_negation`), modified classes with fields (`C60_modified_negation`). -/
theorem C60_replaces_partial {A B : Ty} {subs : Bool} {k : Con} {fs : List Ty} (hT : Built W (.node k fs))
    (hp : (Ty.node k fs).All Con.Bare fun _ t => t.Fieldless) :
    ∃ T', Ty.rebind W A B subs true (.node k fs) = .ok T' ∧
      MapsFields (replaced W A B subs) (.node k fs) T' := by
  refine ⟨_, rebind_eq hT hp, ?_⟩
  rw [MapsFields, ← rebF_eq, ← substT_except (w := Ty.mod)]
  exact substT_maps _ _ _ hT

/-- Where neither `A` nor, if asked, a subtype occurs, the result is the class itself. -/
theorem C60_absent_partial {A B : Ty} {subs rec : Bool} {T : Ty} (hT : Built W T)
    (hp : T.All Con.Named fun _ t => t.Fieldless) (hb : T.isBound = true)
    (hA : ∀ t, t.Below T → t ≠ A ∧ (subs = true → W.sub t A = false)) :
    Ty.rebind W A B subs rec T = .ok T := by
  rw [Ty.rebind, if_pos hb]
  refine finish_same T hT hp (fun t ht => ?_) hb
  obtain ⟨h1, h2⟩ := hA t ht
  cases subs with
  | false => simp [hit, h1]
  | true => simp [hit, h1, h2 rfl]

/-- Rebinding to a class that does not occur, and back. -/
theorem C60_back_partial {A B : Ty} {k : Con} {fs : List Ty} (hT : Built W (.node k fs))
    (hp : (Ty.node k fs).All Con.Bare fun _ t => t.Fieldless) (hB : Built W B)
    (hB' : B.All Con.Bare fun _ t => t.Fieldless) (hn : ¬ B.Below (.node k fs)) :
    ∃ T', Ty.rebind W A B false true (.node k fs) = .ok T' ∧ Ty.rebind W B A false true T' = .ok (.node k fs) := by
  refine ⟨_, rebind_eq hT hp, ?_⟩
  cases hp with
  | node _ _ hk hp =>
  obtain ⟨hg1, hg2⟩ := remake_good (g := substT W (rebF W A B false) Ty.mod) hT hk
    fun t ht => substT_good (A := A) (subs := false) hB hB' t (hT.fields t ht) (hp t ht)
  obtain ⟨k', fs', he, -, -, -⟩ := remake_eq (W := W) k (fs.map (substT W (rebF W A B false) Ty.mod))
  rw [he] at hg1 hg2 ⊢
  rw [rebind_eq hg1 hg2, remake_comp he (hT.canon.fits.congr (by simp)), List.map_map, map_id_of,
    remake_canon hT.canon]
  intro t ht
  apply subst_back t (hT.fields t ht)
  · rintro rfl; exact hn (below_field ht)
  · exact fun hb => hn (below_trans_field ht hb)

/-- Enums are never rebound. -/
theorem C60_enum (A B : Ty) (subs rec : Bool) (e : EnumT) :
    Ty.rebind W A B subs rec (.enum e) = .ok (.enum e) := by
  rw [Ty.rebind, if_pos (by rfl), Ty.rebFields] <;> simp [Ty.finishRebind, Ty.view]

/-- An `AnonymousProduct` cannot be rebound at all. -/
theorem C60_anon_negation (A B : Ty) (subs rec : Bool) (b : Base) (names : List Name) (fs : List Ty) (T' : Ty) :
    Ty.rebind W A B subs rec (mkAnon b names fs) ≠ .ok T' := by
  rw [Ty.rebind, if_pos (by rfl), mkAnon, rebFields_node]
  cases Ty.rebList W A B subs rec fs with
  | error e => simp [bind, Except.bind]
  | ok l => simp [Ty.finishRebind, Ty.view, rebuild]

/-- The methods of a class are lost by rebinding: back again, it is another class. -/
theorem C60_body_negation : ∃ (T A B T' T'' : Ty), Built W T ∧ ¬ B.Below T ∧
    Ty.rebind W A B false true T = .ok T' ∧ Ty.rebind W B A false true T' = .ok T'' ∧ T'' ≠ T := by
  refine ⟨mkProduct (.user 0) 7 1 [3] [.leaf (.cls 0)], .leaf (.cls 0), .leaf (.cls 1),
    mkProduct (.user 0) 7 0 [3] [.leaf (.cls 1)], mkProduct (.user 0) 7 0 [3] [.leaf (.cls 0)], ?_, ?_, rfl, rfl, ?_⟩
  · exact .product _ _ _ _ _ rfl (by simp) (by simpa using Built.leaf _)
  · intro h
    cases h with
    | field h =>
        obtain ⟨k, fs, h1, h2⟩ := h
        simp only [Ty.view, mkProduct, Option.some.injEq, Prod.mk.injEq] at h1
        obtain ⟨-, rfl⟩ := h1
        simp at h2
    | deep h h' =>
        obtain ⟨k, fs, h1, h2⟩ := h
        simp only [Ty.view, mkProduct, Option.some.injEq, Prod.mk.injEq] at h1
        obtain ⟨-, rfl⟩ := h1
        simp only [List.mem_singleton] at h2
        subst h2
        cases h' with
        | field h => obtain ⟨k, fs, h1, -⟩ := h; simp [Ty.view] at h1
        | deep h => obtain ⟨k, fs, h1, -⟩ := h; simp [Ty.view] at h1
  · simp [mkProduct]

/-- A modified `Tuple` is not itself after a rebinding that replaces nothing: the result is the binding of the
modified unbound class, which is not a modified class. -/
theorem C60_modified_negation : ∃ (T A B T' : Ty), Built W T ∧ (∀ t, t.Below T → t ≠ A) ∧
    Ty.rebind W A B false true T = .ok T' ∧ T' ≠ T ∧ T.isModified = true ∧ T'.isModified = false := by
  refine ⟨.mod 4 (mkTuple (.user 0) []), .leaf (.cls 0), .leaf (.cls 1), mkTuple (.mod 4 (.user 0)) [],
    ?_, ?_, rfl, by simp [mkTuple], rfl, rfl⟩
  · exact .mod 4 (mkTuple (.user 0) []) _ (.tuple _ _ (fun t ht => absurd ht (by simp))) rfl
  · intro t h
    cases h with
    | field h =>
        obtain ⟨k, fs, h1, h2⟩ := h
        simp only [Ty.view, mkTuple, Option.map_some, Option.some.injEq, Prod.mk.injEq] at h1
        rw [← h1.2] at h2
        simp at h2
    | deep h =>
        obtain ⟨k, fs, h1, h2⟩ := h
        simp only [Ty.view, mkTuple, Option.map_some, Option.some.injEq, Prod.mk.injEq] at h1
        rw [← h1.2] at h2
        simp at h2

/-- `Tuple[C0, P]` with `P` a product of `C1`, `C0` (a field of this type occurs inside another one). -/
def exT : Ty := mkTuple (.user 0) [.leaf (.cls 0), mkProduct (.user 1) 7 0 [3, 4] [.leaf (.cls 1), .leaf (.cls 0)]]

theorem exT_built : Built W exT :=
  .tuple _ _ (by
    intro t ht
    simp only [List.mem_cons, List.not_mem_nil, or_false] at ht
    rcases ht with rfl | rfl
    · exact .leaf _
    · refine .product _ _ _ _ _ rfl (by decide) ?_
      intro t ht
      simp only [List.mem_cons, List.not_mem_nil, or_false] at ht
      rcases ht with rfl | rfl <;> exact .leaf _)

theorem exT_bare {M : ModId → Ty → Prop} : exT.All Con.Bare M := by
  refine .node _ _ ⟨by simp, rfl⟩ fun t ht => ?_
  simp only [List.mem_cons, List.not_mem_nil, or_false] at ht
  rcases ht with rfl | rfl
  · exact .leaf _
  · refine .node _ _ ⟨by simp, rfl⟩ fun t ht => ?_
    simp only [List.mem_cons, List.not_mem_nil, or_false] at ht
    rcases ht with rfl | rfl <;> exact .leaf _

example : Ty.rebind World.std (.leaf (.cls 0)) (.leaf (.cls 2)) false true exT =
    .ok (mkTuple (.user 0) [.leaf (.cls 2), mkProduct (.user 1) 7 0 [3, 4] [.leaf (.cls 1), .leaf (.cls 2)]]) := rfl

example : ∃ T', Ty.rebind World.std (.leaf (.cls 0)) (.leaf (.cls 2)) true true exT = .ok T' ∧
    MapsFields (replaced World.std (.leaf (.cls 0)) (.leaf (.cls 2)) true) exT T' :=
  C60_replaces_partial exT_built exT_bare

/-! ### C61: `rebind_bitvector` -/

/-- `rebind_bitvector` is the simultaneous replacement of the vector classes deriving from the given one.
Not covered: `AnonymousProduct`s and class bodies (as C60), and, without `keep_modifiers`, modified classes with
fields (`C61_modified_negation`). -/
theorem C61_simultaneous_partial (V : VecSel) (keep : Bool) {T : Ty} (hT : Built W T)
    (hp : T.All Con.Bare fun _ t => keep = true ∨ t.Fieldless) :
    ∃ f T', (∀ t, VecImage V keep t (f t)) ∧ T.rebindBV W V keep [] = .ok T' ∧ Maps f Ty.mod T T' :=
  ⟨bvF V keep, _, bvF_image V keep, rebindBV_eq V keep T hT hp, substT_maps _ _ T hT⟩

/-- … and nothing is left to replace. -/
theorem C61_idempotent_partial (V : VecSel) (keep : Bool) {T T' : Ty} (hT : Built W T)
    (hp : T.All Con.Bare fun _ t => keep = true ∨ t.Fieldless) (h : T.rebindBV W V keep [] = .ok T')
    (hT' : Built W T') (hp' : T'.All Con.Bare fun _ t => keep = true ∨ t.Fieldless) :
    T'.rebindBV W V keep [] = .ok T' := by
  have h1 := rebindBV_eq V keep T hT hp
  rw [h] at h1
  have h2 := rebindBV_eq V keep T' hT' hp'
  rw [h2]
  cases h1
  rw [bv_idem V keep T hT]

/-- Without `keep_modifiers` a modified `Tuple` without any vector becomes another class. -/
theorem C61_modified_negation (V : VecSel) : ∃ T T' : Ty, Built W T ∧ T.leaves = [.leaf (.cls 0)] ∧
    T.rebindBV W V false [] = .ok T' ∧ T' ≠ T ∧ ∀ m, T' ≠ .mod m T.unwrap.1 := by
  refine ⟨.mod 4 (mkTuple (.user 0) [.leaf (.cls 0)]), mkTuple (.mod 4 (.user 0)) [.leaf (.cls 0)],
    ?_, rfl, rfl, by simp [mkTuple], by simp [mkTuple]⟩
  exact .mod 4 (mkTuple (.user 0) [.leaf (.cls 0)]) _ (.tuple _ _ (by simpa using Built.leaf _)) rfl

/-- `Tuple[V0[8], V1[8]]` where `V1` derives from `V0`: the image of the first field is the second field. -/
example : Ty.rebindBV World.std ⟨fun a b => a == b || b == 0, 0, none, 1⟩ false
    (mkTuple (.user 0) [.leaf (.vec 0 (some 8)), .leaf (.vec 1 (some 8)), .leaf (.vec 2 (some 9))]) [] =
      .ok (mkTuple (.user 0) [.leaf (.vec 1 (some 8)), .leaf (.vec 1 (some 8)), .leaf (.vec 1 (some 9))]) := rfl

example (V : VecSel) : ∃ f T', (∀ t, VecImage V true t (f t)) ∧ exT.rebindBV World.std V true [] = .ok T' ∧
    Maps f Ty.mod exT T' := C61_simultaneous_partial V true exT_built exT_bare

/-! ### C63: `wrap_modifier`, `unwrap_modifier` -/

/-- Every class is its unmodified class wrapped in its modifiers. -/
theorem C63_wrap_unwrap {T : Ty} (hT : Built W T) : wrap T.unwrap.1 T.unwrap.2 = .ok T := by
  rw [wrap_ok.2 hT.mods, unwrap_rewrap]

namespace Adt

/-- The class without fields, such as `Const(Tuple)`, was made by applying `m` and possibly others. -/
inductive Base.Carries (m : ModId) : Base → Prop
  | here (b : Base) : Carries m (.mod m b)
  | under (m' : ModId) {b : Base} (h : Carries m b) : Carries m (.mod m' b)

/-- `m` has been applied to the class, or to the class without fields that it was made from. -/
inductive Ty.Carries (m : ModId) : Ty → Prop
  | here (t : Ty) : Carries m (.mod m t)
  | under (m' : ModId) {t : Ty} (h : Carries m t) : Carries m (.mod m' t)
  | base {k : Con} (fs : List Ty) (h : k.base.Carries m) : Carries m (.node k fs)

theorem Base.carries_iff {m : ModId} (b : Base) : b.hasMod m = true ↔ b.Carries m := by
  induction b with
  | user n => simp only [Base.hasMod, Bool.false_eq_true, false_iff]; rintro ⟨⟩
  | mod m' b ih =>
    simp only [Base.hasMod, Bool.or_eq_true, decide_eq_true_eq, ih]
    constructor
    · rintro (rfl | h)
      · exact .here b
      · exact .under m' h
    · rintro (_ | ⟨_, h⟩)
      · exact .inl rfl
      · exact .inr h

theorem Ty.carries_iff {m : ModId} : ∀ t : Ty, t.hasMod m = true ↔ t.Carries m
  | .leaf _ => by simp only [Ty.hasMod, Bool.false_eq_true, false_iff]; rintro ⟨⟩
  | .enum _ => by simp only [Ty.hasMod, Bool.false_eq_true, false_iff]; rintro ⟨⟩
  | .node k fs => by
    rw [Ty.hasMod, Base.carries_iff]
    exact ⟨fun h => .base fs h, fun h => by cases h; assumption⟩
  | .mod m' t => by
    simp only [Ty.hasMod, Bool.or_eq_true, decide_eq_true_eq, Ty.carries_iff t]
    constructor
    · rintro (rfl | h)
      · exact .here t
      · exact .under m' h
    · rintro (_ | ⟨_, h⟩)
      · exact .inl rfl
      · exact .inr h

theorem not_carries {m : ModId} {t : Ty} : t.hasMod m = false ↔ ¬ t.Carries m := by
  rw [← Ty.carries_iff, Bool.not_eq_true]

end Adt

/-- Wrapping in distinct modifiers and unwrapping gives back class and modifiers. -/
theorem C63_unwrap_wrap {T : Ty} {ms : List ModId} (h : T.isModified = false) (hn : ms.Nodup)
    (hb : ∀ m ∈ ms, ¬ T.Carries m) : ∃ T', wrap T ms = .ok T' ∧ T'.unwrap = (T, ms) := by
  refine ⟨_, wrap_ok.2 ⟨hn, fun m hm => not_carries.2 (hb m hm)⟩, ?_⟩
  rw [rewrap_unwrap, unwrap_unmod h]
  rfl

/-- `wrap_modifier` raises only for these two reasons, and then a TypeError. -/
theorem C63_wraps (T : Ty) (ms : List ModId) :
    ((∃ T', wrap T ms = .ok T') ↔ ms.Nodup ∧ ∀ m ∈ ms, ¬ T.Carries m) ∧ ∀ e, wrap T ms = .error e → e = .typeError := by
  have hw : wrap T ms = .ok (rewrap T ms) ↔ ms.Nodup ∧ ∀ m ∈ ms, ¬ T.Carries m := by
    rw [wrap_ok]
    simp only [not_carries]
  rcases wrap_cases ms T with h1 | h1
  · exact ⟨⟨fun _ => hw.1 h1, fun _ => ⟨_, h1⟩⟩, fun e h => nomatch h1.symm.trans h⟩
  · refine ⟨⟨fun ⟨T', h⟩ => (nomatch h1.symm.trans h), fun h => ?_⟩, fun e h => ?_⟩
    · cases h1.symm.trans (hw.2 h)
    · cases h1.symm.trans h; rfl

/-- Duplicates are rejected. -/
theorem C63_duplicates (T : Ty) (ms : List ModId) (h : ¬ ms.Nodup) : wrap T ms = .error .typeError := by
  rw [wrap, if_neg h]

/-- So is a modifier the class has already. -/
theorem C63_again (T : Ty) (ms : List ModId) (m : ModId) (h : m ∈ ms) (h' : m ∈ T.unwrap.2) :
    wrap T ms = .error .typeError := by
  rcases wrap_cases ms T with h1 | h1
  · have := (wrap_ok.1 h1).2 m h
    have h2 := (hasMod_iff m T).2 (.inl h')
    rw [h2] at this
    exact absurd this (by simp)
  · exact h1

/-- `unwrap_modifier` ends at a class that is not modified. -/
theorem C63_unwrap_unmodified (T : Ty) : T.unwrap.1.isModified = false := unwrap_core T

example : wrap exT [3, 1, 2] = .ok (.mod 2 (.mod 1 (.mod 3 exT))) := rfl
example : ∃ T', wrap exT [3, 1, 2] = .ok T' ∧ T'.unwrap = (exT, [3, 1, 2]) :=
  C63_unwrap_wrap rfl (by decide) (by intro m _ h; cases h with | base _ h => cases h)
/-- `Const(Const(Tuple)[T])` -/
example (m : ModId) (T : Ty) : wrap (mkTuple (.mod m (.user 0)) [T]) [m] = .error .typeError := by
  obtain ⟨h1, h2⟩ := C63_wraps (mkTuple (.mod m (.user 0)) [T]) [m]
  cases h : wrap (mkTuple (.mod m (.user 0)) [T]) [m] with
  | error e => rw [h2 e h]
  | ok T' => exact absurd (.base _ (.here _)) ((h1.1 ⟨T', h⟩).2 m (List.mem_singleton.2 rfl))

/-! ### C64: `strip_modifiers` -/

/-- `strip_modifiers` removes the modifiers everywhere and changes nothing else.  Alternatives of a `Sum` that
differ only in modifiers become one. Not covered: `AnonymousProduct`s, and classes with a body
(`C64_anon_negation`, `C64_body_negation`). -/
theorem C64_strips_partial {T : Ty} (hT : Built W T) (hp : T.All Con.Bare fun _ _ => True) :
    ∃ T', T.strip W = .ok T' ∧ T'.NoMods ∧ Maps (fun _ => none) (fun _ t => t) T T' ∧ T'.strip W = .ok T' := by
  refine ⟨_, strip_eq T hp, stripT_noMods T hT, substT_maps _ _ T hT, ?_⟩
  rw [strip_eq _ ((stripT_bare T hT hp).mono (fun _ h => h) (fun _ _ h => h.elim)),
    stripT_of_noMods _ (stripT_built T hT) (stripT_noMods T hT)]

/-- Without modifiers nothing happens. -/
theorem C64_unmodified_partial {T : Ty} (hT : Built W T) (hp : T.All Con.Bare fun _ _ => False) :
    T.strip W = .ok T := by
  rw [strip_eq _ (hp.mono (fun _ h => h) fun _ _ h => h.elim),
    stripT_of_noMods T hT (hp.mono (fun _ _ => trivial) fun _ _ h => h)]

/-- `strip_modifiers` rejects every `AnonymousProduct`, modified or not. -/
theorem C64_anon_negation (b : Base) (names : List Name) (fs : List Ty) (T' : Ty) :
    (mkAnon b names fs).strip W ≠ .ok T' := by
  rw [mkAnon, Ty.strip]
  cases Ty.strips W fs with
  | error e => simp [bind, Except.bind]
  | ok l => simp [buildSame]

/-- A class with methods but without modifiers is not left alone. -/
theorem C64_body_negation : ∃ T T' : Ty, Built W T ∧ T.NoMods ∧ T.strip W = .ok T' ∧ T' ≠ T := by
  refine ⟨mkProduct (.user 0) 7 1 [3] [.leaf (.cls 0)], mkProduct (.user 0) 7 0 [3] [.leaf (.cls 0)], ?_, ?_, rfl,
    by simp [mkProduct]⟩
  · exact .product _ _ _ _ _ rfl (by simp) (by simpa using Built.leaf _)
  · exact .node _ _ trivial (by simpa using .leaf _)

example : (Ty.mod 2 (mkTuple (.user 0) [.mod 1 (.leaf (.cls 0)), .mod 3 (mkTuple (.user 0) [.leaf (.cls 1)])])).strip
    World.std = .ok (mkTuple (.user 0) [.leaf (.cls 0), mkTuple (.user 0) [.leaf (.cls 1)]]) := rfl
example : ∃ T', (Ty.mod 2 exT).strip World.std = .ok T' ∧ T'.NoMods ∧
    Maps (fun _ => none) (fun _ t => t) (Ty.mod 2 exT) T' ∧ T'.strip World.std = .ok T' :=
  C64_strips_partial (.mod 2 _ _ exT_built rfl) (.mod _ _ trivial exT_bare)

/-! ### C65: `push_modifiers` -/

/-- `push_modifiers` puts on each leaf the modifiers on the path to it, provided none occurs twice on a path;
stripping the result is stripping the class. Not covered: `AnonymousProduct`s and class bodies. -/
theorem C65_pushes_partial {T : Ty} (hT : Built W T) (hp : T.All Con.Bare fun _ _ => True)
    (hn : PathsNodup [] T) :
    ∃ T', T.push W [] = .ok T' ∧ Pushed [] T T' ∧ (T'.All (fun _ => True) fun _ t => t.Fieldless) ∧
      T'.strip W = T.strip W := by
  rcases push_cases (W := W) T hp [] with ⟨_, h⟩ | ⟨h, _⟩
  · refine ⟨_, h, pushT_pushed T hT [], pushT_onLeaf T hT [], ?_⟩
    rw [strip_eq T hp, strip_eq _ (pushT_bare T hT hp []), stripT_pushT T hT]
  · exact absurd hn h

/-- A modifier that occurs twice on a path is a `TypeError`. -/
theorem C65_duplicates_partial {T : Ty} (hp : T.All Con.Bare fun _ _ => True) (hn : ¬ PathsNodup [] T) :
    T.push W [] = .error .typeError := by
  rcases push_cases (W := W) T hp [] with ⟨h, _⟩ | ⟨_, h⟩
  · exact absurd h hn
  · exact h

/-- The claim fails there: `M(Tuple[M(C)])` is a class, but its modifiers cannot be pushed. -/
theorem C65_duplicates_negation : ∃ T : Ty, Built W T ∧ (T.All Con.Bare fun _ _ => True) ∧
    T.push W [] = .error .typeError := by
  refine ⟨.mod 1 (mkTuple (.user 0) [.mod 1 (.leaf (.cls 0))]), ?_, ?_, rfl⟩
  · refine .mod 1 (mkTuple (.user 0) [.mod 1 (.leaf (.cls 0))]) _ (.tuple _ _ ?_) rfl
    intro t ht
    simp only [List.mem_singleton] at ht
    subst ht
    exact .mod 1 _ _ (.leaf _) rfl
  · refine .mod _ _ trivial (.node _ _ ⟨by simp, rfl⟩ ?_)
    intro t ht
    simp only [List.mem_singleton] at ht
    subst ht
    exact .mod _ _ trivial (.leaf _)

/-- `AnonymousProduct`s are rejected. -/
theorem C65_anon_negation (b : Base) (names : List Name) (fs : List Ty) (T' : Ty) (ms : List ModId) :
    (mkAnon b names fs).push W ms ≠ .ok T' := by
  rw [mkAnon, Ty.push]
  cases Ty.pushs W fs ms with
  | error e => simp [bind, Except.bind]
  | ok l => simp [buildSame]

example : (Ty.mod 2 (mkTuple (.user 0) [.mod 1 (.leaf (.cls 0)), .mod 3 (mkTuple (.user 0) [.leaf (.cls 1)])])).push
    World.std [] = .ok (mkTuple (.user 0) [.mod 2 (.mod 1 (.leaf (.cls 0))),
      mkTuple (.user 0) [.mod 2 (.mod 3 (.leaf (.cls 1)))]]) := rfl

example : PathsNodup [] (Ty.mod 2 (mkTuple (.user 0) [.mod 1 (.leaf (.cls 0)), .leaf (.cls 1)])) := by
  refine .mod (.node fun t ht => ?_)
  simp only [List.mem_cons, List.not_mem_nil, or_false] at ht
  rcases ht with rfl | rfl
  · exact .mod (.leaf (by decide))
  · exact .leaf (by decide)

/-! ### C66: visitors -/

/-- A visitor with a method `visit_leaf` meets every class of the field tree once, in order, each in
the handler of its kind. -/
theorem C66_visits (T : Ty) : T.visit true = .ok (T.nodes.map Ty.ev) := by
  rw [Ty.visit, visitFrom_eq T T rfl, Ty.nodes]

/-- The calls of the leaf handler are the leaves, left to right. -/
theorem C66_leaves (T : Ty) : ∃ evs, T.visit true = .ok evs ∧
    evs.filterMap (fun e => match e with | .visitLeaf t => some t | _ => none) = T.leaves := by
  refine ⟨_, C66_visits T, ?_⟩
  have : ∀ l : List Ty, (l.map Ty.ev).filterMap (fun e => match e with | .visitLeaf t => some t | _ => none) =
      l.filter Ty.isLeaf := by
    intro l
    induction l with
    | nil => rfl
    | cons t l ih =>
        have h := unwrap_core t
        rw [List.map_cons, List.filterMap_cons, List.filter_cons, ih]
        cases hu : t.unwrap.1 with
        | leaf l => simp [Ty.ev, Ty.isLeaf, hu]
        | enum e => simp [Ty.ev, Ty.isLeaf, hu]
        | mod m t' => rw [hu] at h; simp [Ty.isModified] at h
        | node k fs =>
            have : t.isLeaf = false := by simp [Ty.isLeaf, hu]
            rw [this]
            cases hk : k.shape <;> simp [Ty.ev, hu, hk]
  exact this _

/-- A visitor without one, such as the base class (which defines `visit_Leaf`), fails at the first leaf. -/
theorem C66_no_handler_negation (T : Ty) (h : T.leaves ≠ []) : T.visit false = .error .attributeError := by
  rcases visit_false_cases T T with ⟨_, h'⟩ | ⟨h', _⟩
  · exact h'
  · exact absurd h' h

example : exT.leaves = [.leaf (.cls 0), .leaf (.cls 1), .leaf (.cls 0)] := rfl
example : exT.visit false = .error .attributeError := C66_no_handler_negation exT (by decide)
example : exT.visit true = .ok [.visitTuple exT, .visitLeaf (.leaf (.cls 0)),
    .visitProduct (mkProduct (.user 1) 7 0 [3, 4] [.leaf (.cls 1), .leaf (.cls 0)]), .visitLeaf (.leaf (.cls 1)),
    .visitLeaf (.leaf (.cls 0))] := rfl

end HW
