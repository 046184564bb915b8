import Verif.Lemmas.Adt.Keep
import Verif.Props.AdtType

/-!
# `rebind_keep_modifiers` and `rebind_type` (C88, C89)
-/

namespace HW

open Adt

variable {W : World}

/-! ### C88: `rebind_keep_modifiers` -/

/-- Not covered: field types containing a class to replace that occur inside another field of the same class
(`C88_nested_negation`), modified classes with fields (`C88_modified_negation`), `AnonymousProduct`s and class
bodies (as C60). -/
theorem C88_replaces_partial {A : Ty} {b : Leaf} {T : Ty} (hA : ∀ k fs, W.sub (.node k fs) A = false)
    (hB : W.sub (.leaf b) A = false) (hT : Built W T) (hp : T.All Con.Bare fun _ t => t.Fieldless)
    (hap : Apart W A T) :
    ∃ T', Ty.rebindKeep W A (.leaf b) T [] = .ok T' ∧ Maps (keepF W A (.leaf b)) Ty.mod T T' ∧
      ¬ HasHit W A T' :=
  ⟨_, rebindKeep_eq hA hB T hT hp hap, substT_maps _ _ T hT, keepT_clean hA hB T hT⟩

/-- Nothing to replace: the class itself. -/
theorem C88_absent_partial {A : Ty} {b : Leaf} {T : Ty} (hA : ∀ k fs, W.sub (.node k fs) A = false)
    (hB : W.sub (.leaf b) A = false) (hT : Built W T) (hp : T.All Con.Bare fun _ t => t.Fieldless)
    (h : ¬ HasHit W A T) : Ty.rebindKeep W A (.leaf b) T [] = .ok T := by
  rw [rebindKeep_eq hA hB T hT hp, keepT_noHit hA T hT h]
  clear hp
  induction T using Ty.induct with
  | leaf l => exact .leaf _
  | enum e => exact .enum _
  | mod m t ih => exact .mod _ _ (ih hT.unmod fun hh => h (hasHit_mod.2 hh))
  | node k fs ih =>
      have h' : ∀ t ∈ fs, ¬ HasHit W A t := fun t ht hh => h ((hasHit_node hA).2 ⟨t, ht, hh⟩)
      exact .node _ _ (fun f hf hh => absurd hh (h' f hf)) fun t ht => ih t ht (hT.fields t ht) (h' t ht)

/-- A class that itself derives from `A` becomes `B` under its modifiers, whatever `A` and `B` are. -/
theorem C88_self {A B T : Ty} (h : W.sub T.unwrap.1 A = true) :
    Ty.rebindKeep W A B T [] = wrap B T.unwrap.2 := by
  have key : ∀ (T : Ty) (mods), W.sub T.unwrap.1 A = true →
      Ty.rebindKeep W A B T mods = wrap B (T.unwrap.2 ++ mods) := by
    intro T
    induction T using Ty.induct with
    | leaf l => intro mods h; simp only [Ty.unwrap] at h; rw [Ty.rebindKeep, if_pos h, wrapIf_eq]; rfl
    | enum e => intro mods h; simp only [Ty.unwrap] at h; rw [Ty.rebindKeep, if_pos h, wrapIf_eq]; rfl
    | node k fs _ => intro mods h; simp only [Ty.unwrap] at h; rw [Ty.rebindKeep, if_pos h, pyBindOk]; simp [wrapIf_eq, Ty.unwrap]
    | mod m t ih =>
        intro mods h
        rw [Ty.rebindKeep, ih _ h]
        simp [Ty.unwrap]
  rw [key T [] h, List.append_nil]

example : Ty.rebindKeep W exT (.leaf (.cls 9)) (.mod 4 (.mod 5 exT)) [] = .ok (.mod 4 (.mod 5 (.leaf (.cls 9)))) :=
  C88_self (W.sub_refl _)

/-- `Tuple[Tuple[A], Tuple[Tuple[A], A]]`: the image still has an `A`. -/
theorem C88_nested_negation : ∃ (W : World) (T T' : Ty) (A B : Leaf), Built W T ∧ T.NoMods ∧ A ≠ B ∧
    Ty.rebindKeep W (.leaf A) (.leaf B) T [] = .ok T' ∧ (Ty.leaf A).Below T' := by
  refine ⟨World.std, mkTuple (.user 0) [mkTuple (.user 0) [.leaf (.cls 0)],
      mkTuple (.user 0) [mkTuple (.user 0) [.leaf (.cls 0)], .leaf (.cls 0)]],
    mkTuple (.user 0) [mkTuple (.user 0) [.leaf (.cls 1)],
      mkTuple (.user 0) [mkTuple (.user 0) [.leaf (.cls 1)], .leaf (.cls 0)]], .cls 0, .cls 1, ?_, ?_, by simp, rfl, ?_⟩
  · have h1 : Built World.std (mkTuple (.user 0) [.leaf (.cls 0)]) := .tuple _ _ (by simpa using Built.leaf _)
    refine .tuple _ _ fun t ht => ?_
    simp only [List.mem_cons, List.not_mem_nil, or_false] at ht
    rcases ht with rfl | rfl
    · exact h1
    · refine .tuple _ _ fun t ht => ?_
      simp only [List.mem_cons, List.not_mem_nil, or_false] at ht
      rcases ht with rfl | rfl
      · exact h1
      · exact .leaf _
  · have h1 : (mkTuple (.user 0) [.leaf (.cls 0)]).NoMods := .node _ _ trivial (by simpa using Ty.All.leaf _)
    refine .node _ _ trivial fun t ht => ?_
    simp only [List.mem_cons, List.not_mem_nil, or_false] at ht
    rcases ht with rfl | rfl
    · exact h1
    · refine .node _ _ trivial fun t ht => ?_
      simp only [List.mem_cons, List.not_mem_nil, or_false] at ht
      rcases ht with rfl | rfl
      · exact h1
      · exact .leaf _
  · exact .deep ⟨_, _, rfl, List.mem_cons_of_mem _ (List.mem_singleton.2 rfl)⟩
      (.field ⟨_, _, rfl, List.mem_cons_of_mem _ (List.mem_singleton.2 rfl)⟩)

/-- `Tuple[A, M(Tuple[C])]`: the modifier beside an `A` is lost. -/
theorem C88_modified_negation : ∃ (W : World) (T T' : Ty) (A B : Leaf), Built W T ∧ A ≠ B ∧
    Ty.rebindKeep W (.leaf A) (.leaf B) T [] = .ok T' ∧
    (∃ t m, T.HasField (.mod m t)) ∧ ¬ ∃ t m, T'.HasField (.mod m t) := by
  refine ⟨World.std, mkTuple (.user 0) [.leaf (.cls 0), .mod 4 (mkTuple (.user 0) [.leaf (.cls 2)])],
    mkTuple (.user 0) [.leaf (.cls 1), mkTuple (.mod 4 (.user 0)) [.leaf (.cls 2)]], .cls 0, .cls 1, ?_, by simp, rfl,
    ⟨mkTuple (.user 0) [.leaf (.cls 2)], 4, _, _, rfl, List.mem_cons_of_mem _ (List.mem_singleton.2 rfl)⟩, ?_⟩
  · refine .tuple _ _ fun t ht => ?_
    simp only [List.mem_cons, List.not_mem_nil, or_false] at ht
    rcases ht with rfl | rfl
    · exact .leaf _
    · exact .mod 4 (mkTuple (.user 0) [.leaf (.cls 2)]) _ (.tuple _ _ (by simpa using Built.leaf _)) rfl
  · rintro ⟨t, m, k, fs, h1, h2⟩
    simp only [mkTuple, Ty.view, Option.some.injEq, Prod.mk.injEq] at h1
    rw [← h1.2] at h2
    simp at h2

/-- `Tuple[M(C0), P]` with `P` a product of `C1`, `C0`. -/
def exK : Ty := mkTuple (.user 0) [.mod 4 (.leaf (.cls 0)), mkProduct (.user 1) 7 0 [3, 4] [.leaf (.cls 1), .leaf (.cls 0)]]

example : Ty.rebindKeep World.std (.leaf (.cls 0)) (.leaf (.cls 2)) exK [] =
    .ok (mkTuple (.user 0) [.mod 4 (.leaf (.cls 2)),
      mkProduct (.user 1) 7 0 [3, 4] [.leaf (.cls 1), .leaf (.cls 2)]]) := rfl

theorem exK_built : Built W exK := by
  refine .tuple _ _ fun t ht => ?_
  simp only [List.mem_cons, List.not_mem_nil, or_false] at ht
  rcases ht with rfl | rfl
  · exact .mod 4 (.leaf (.cls 0)) _ (.leaf _) rfl
  · refine .product _ _ _ _ _ rfl (by decide) fun t ht => ?_
    simp only [List.mem_cons, List.not_mem_nil, or_false] at ht
    rcases ht with rfl | rfl <;> exact .leaf _

theorem exK_bare : exK.All Con.Bare fun _ t => t.Fieldless := by
  refine .node _ _ ⟨by simp, rfl⟩ fun t ht => ?_
  simp only [List.mem_cons, List.not_mem_nil, or_false] at ht
  rcases ht with rfl | rfl
  · exact .mod _ _ rfl (.leaf _)
  · refine .node _ _ ⟨by simp, rfl⟩ fun t ht => ?_
    simp only [List.mem_cons, List.not_mem_nil, or_false] at ht
    rcases ht with rfl | rfl <;> exact .leaf _

example : ∃ T', Ty.rebindKeep World.std (.leaf (.cls 0)) (.leaf (.cls 2)) exK [] = .ok T' ∧
    Maps (keepF World.std (.leaf (.cls 0)) (.leaf (.cls 2))) Ty.mod exK T' ∧ ¬ HasHit World.std (.leaf (.cls 0)) T' := by
  have h0 : ∀ {l s}, ¬ Ty.Below s (.leaf l) := below_leaf
  have h1 : ∀ {s}, Ty.Below s (mkProduct (.user 1) 7 0 [3, 4] [.leaf (.cls 1), .leaf (.cls 0)]) →
      s = .leaf (.cls 1) ∨ s = .leaf (.cls 0) := by
    intro s h
    obtain ⟨t, ht, h⟩ := below_node.1 h
    simp only [List.mem_cons, List.not_mem_nil, or_false] at ht
    rcases ht with rfl | rfl <;> rcases h with rfl | h
    · exact .inl rfl
    · exact absurd h below_leaf
    · exact .inr rfl
    · exact absurd h below_leaf
  refine C88_replaces_partial (fun k fs => by simp [World.std]) (by simp [World.std]) exK_built exK_bare ?_
  refine .node _ _ ?_ ?_
  · intro f hf _ x hx hb
    simp only [List.mem_cons, List.not_mem_nil, or_false] at hf hx
    rcases hx with rfl | rfl
    · exact below_leaf (view_mod_below.1 hb)
    · rcases hf with rfl | rfl <;> simpa [mkProduct] using h1 hb
  · intro t ht
    simp only [List.mem_cons, List.not_mem_nil, or_false] at ht
    rcases ht with rfl | rfl
    · exact .mod _ _ (.leaf _)
    · refine .node _ _ ?_ ?_
      · intro f _ _ x hx hb
        simp only [List.mem_cons, List.not_mem_nil, or_false] at hx
        rcases hx with rfl | rfl <;> exact below_leaf hb
      · intro t ht
        simp only [List.mem_cons, List.not_mem_nil, or_false] at ht
        rcases ht with rfl | rfl <;> exact .leaf _

/-! ### C89: `rebind_type` -/

/-- Every vector becomes the family's vector of that size, every bit the family's bit, and nothing else changes,
but the modifiers of vectors and bits are dropped (`VecImage V false`). Not covered: modified classes
(`C89_modified_negation`), `AnonymousProduct`s and class bodies (as C60). -/
theorem C89_family_partial {V : VecSel} {absBit famBit : Ty} (hA : ∀ k fs, W.sub (.node k fs) absBit = false)
    (hv : ∀ t k s, t.unwrap.1 = .leaf (.vec k s) → W.sub t absBit = false) {k : Con} {fs : List Ty}
    (hT : Built W (.node k fs)) (hp : (Ty.node k fs).All Con.Bare fun _ t => t.Fieldless) :
    ∃ (f : Ty → Option Ty) (T' : Ty), (∀ t, VecImage V false t (f t)) ∧ rebindType W V absBit famBit (.node k fs) = .ok T' ∧
      Maps (fun t => if W.sub t absBit = true then some famBit else f t) Ty.mod (.node k fs) T' :=
  ⟨bvF V false, _, bvF_image V false, rebindType_eq hA hv hT hp, substT_maps _ _ _ hT⟩

/-- On vectors, bits and everything else without fields. -/
theorem C89_leaf (V : VecSel) (absBit famBit : Ty) (l : Leaf) :
    (∀ k s, l = .vec k s → V.Derives k s → rebindType W V absBit famBit (.leaf l) = .ok (.leaf (.vec V.k1 s))) ∧
      ((∀ k s, l = .vec k s → ¬ V.Derives k s) → W.sub (.leaf l) absBit = true →
        rebindType W V absBit famBit (.leaf l) = .ok famBit) ∧
      ((∀ k s, l = .vec k s → ¬ V.Derives k s) → W.sub (.leaf l) absBit = false →
        rebindType W V absBit famBit (.leaf l) = .ok (.leaf l)) := by
  have hn : (∀ k s, l = .vec k s → ¬ V.Derives k s) → V.selects (.leaf l) = none := by
    intro h
    cases hs : V.selects (.leaf l) with
    | none => rfl
    | some s =>
        obtain ⟨k, h1, h2⟩ := (selects_iff V _ s).1 hs
        simp only [Ty.unwrap, Ty.leaf.injEq] at h1
        exact absurd h2 (h k s h1)
  refine ⟨?_, ?_, ?_⟩
  · rintro k s rfl hd
    have : V.selects (.leaf (.vec k s)) = some s := (selects_iff V _ s).2 ⟨k, rfl, hd⟩
    rw [rebindType, this, Option.isSome_some, if_pos rfl, Ty.rebindBV, this]
    rfl
  · intro h h'
    rw [rebindType, hn h, Option.isSome_none, if_neg (by simp), if_pos h']
  · intro h h'
    rw [rebindType, hn h, Option.isSome_none, if_neg (by simp), if_neg (by simp [h'])]

/-- Any modified class is a `NameError`. -/
theorem C89_modified_negation (V : VecSel) (absBit famBit T : Ty) (h : T.isModified = true) :
    rebindType W V absBit famBit T = .error .nameError := by
  cases T with
  | mod m t => rfl
  | _ => cases h

/-- `Tuple[M(V[8])]` becomes `Tuple[V'[8]]`. -/
theorem C89_dropped_negation (V : VecSel) (hV : V.Derives 0 (some 8)) (absBit famBit : Ty)
    (hb : W.sub (.leaf (.vec V.k1 (some 8))) absBit = false) :
    Built W (mkTuple (.user 0) [.mod 4 (.leaf (.vec 0 (some 8)))]) ∧
      rebindType W V absBit famBit (mkTuple (.user 0) [.mod 4 (.leaf (.vec 0 (some 8)))]) =
        .ok (mkTuple (.user 0) [.leaf (.vec V.k1 (some 8))]) := by
  refine ⟨.tuple _ _ ?_, ?_⟩
  · simpa using Built.mod 4 (.leaf (.vec 0 (some 8))) _ (Built.leaf _) rfl
  · have hs : V.selects (.mod 4 (.leaf (.vec 0 (some 8)))) = some (some 8) :=
      (selects_iff V _ _).2 ⟨0, rfl, hV⟩
    have hne : Ty.leaf (.vec V.k1 (some 8)) ≠ absBit := by
      rintro rfl
      rw [W.sub_refl] at hb
      cases hb
    simp [rebindType, mkTuple, Ty.rebindBV, Ty.bvList, hs, rebindSeq, Ty.rebind, Ty.isBound, Ty.rebFields,
      Ty.rebList, hit, hb, hne, Ty.finishRebind, Ty.view, rebuild, wrapIf, bind, Except.bind, pure, Except.pure]

example : rebindType World.std ⟨fun _ _ => true, 0, none, 9⟩ (.leaf (.cls 0)) (.leaf (.cls 5))
    (mkTuple (.user 0) [.leaf (.cls 0), mkProduct (.user 1) 7 0 [3, 4] [.leaf (.vec 2 (some 8)), .leaf (.cls 1)]]) =
      .ok (mkTuple (.user 0) [.leaf (.cls 5), mkProduct (.user 1) 7 0 [3, 4] [.leaf (.vec 9 (some 8)), .leaf (.cls 1)]]) :=
  rfl

example : ∃ (f : Ty → Option Ty) (T' : Ty), (∀ t, VecImage ⟨fun _ _ => true, 0, none, 9⟩ false t (f t)) ∧
    rebindType World.std ⟨fun _ _ => true, 0, none, 9⟩ (.leaf (.cls 0)) (.leaf (.cls 5)) exT = .ok T' ∧
      Maps (fun t => if World.std.sub t (.leaf (.cls 0)) = true then some (.leaf (.cls 5)) else f t) Ty.mod exT T' := by
  refine C89_family_partial (fun k fs => by simp [World.std]) ?_ exT_built exT_bare
  intro t k s h
  simp only [World.std, decide_eq_false_iff_not]
  rintro rfl
  simp [Ty.unwrap] at h

end HW
