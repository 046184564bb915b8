import Verif.Lemmas.Adt.Rebind

/-!
# `rebind` of modified classes and of classes with methods (C146)
-/

namespace HW

open Adt

variable {W : World}

/-- `T.rebind(A, B, rebind_sub_types, rebind_recursive)` for every bound class, modified or not, with methods or not:
the result has the kind, the `unbound_t`, the name and the field names of `T`, and the fields that are `A` (or derive
from it) have become `B`, at every depth unless told otherwise. -/
theorem C146_rebind {A B T : Ty} {subs rec : Bool} (hT : Built W T) (hB : Built W B) (hb : T.isBound = true)
    (ha : ∀ s, Reaches (fieldImage W A B subs rec) T s → ¬ s.IsAnon) :
    ∃ T', Ty.rebind W A B subs rec T = .ok T' ∧ Rebound W (fieldImage W A B subs rec) true T T' ∧ Built W T' := by
  rw [Ty.rebind, if_pos hb]
  exact finish_rebound hB _ T (Nat.le_refl _) hT ha

/-- A `TypeError` where the recursion meets an `AnonymousProduct`. -/
theorem C146_anon {A B T s : Ty} {subs rec : Bool} (h : Reaches (fieldImage W A B subs rec) T s) (hs : s.IsAnon) :
    Ty.rebind W A B subs rec T = .error .typeError := by
  have hb : T.isBound = true := by
    cases h with
    | self => obtain ⟨k, fs, hv, _⟩ := hs; exact view_isBound hv
    | field hf => obtain ⟨k, fs, hv, _⟩ := hf; exact view_isBound hv
  rw [Ty.rebind, if_pos hb]
  cases he : (Ty.rebFields W A B subs rec T >>= T.finishRebind W) with
  | ok T' => exact absurd he (finish_anon h hs)
  | error e => rw [finish_error _ T (Nat.le_refl _) e he]

/-- Rebinding to a class that does not occur, and back, gives a class like `T`: only the place of the modifiers and
the class bodies differ (`C146_merge_refuted`: and alternatives that differ only in this are one). -/
theorem C146_back {A B T : Ty} (hT : Built W T) (hA : Built W A) (hB : Built W B) (hB' : B.Fieldless)
    (hb : T.isBound = true) (ha : ∀ s, Reaches (fieldImage W A B false true) T s → ¬ s.IsAnon) (hn : ¬ B.Below T) :
    ∃ T' T'', Ty.rebind W A B false true T = .ok T' ∧ Ty.rebind W B A false true T' = .ok T'' ∧ SameClass W T T'' := by
  obtain ⟨T', h1, h2, h3⟩ := C146_rebind hT hB hb ha
  have hb' : T'.isBound = true := by
    cases h2 with
    | plain _ _ => exact hb
    | ordered _ _ b => exact view_isBound b
    | sum _ _ _ b => exact view_isBound b
    | tagged _ _ b => exact view_isBound b
  obtain ⟨T'', h4, h5, -⟩ := C146_rebind (A := B) (subs := false) (rec := true) h3 hA hb' (by
    intro s' hs' han
    obtain ⟨s, hs, hsa⟩ := reaches_back hB' hs' h2 han
    exact ha s hs hsa)
  exact ⟨T', T'', h1, h4, rebound_back hB' _ T T' T'' true (Nat.le_refl _) hT nofun hn h2 h5⟩

/-- `M5(M4(Tuple)[X, M4(P)])` for a `class P(Product)` with a method and a field of type `X`. -/
def exM : Ty := .mod 5 (mkTuple (.mod 4 (.user 1)) [.leaf (.cls 0), .mod 4 (mkProduct (.user 0) 7 1 [3] [.leaf (.cls 0)])])

theorem exM_built : Built W exM := by
  refine .mod 5 (mkTuple (.mod 4 (.user 1)) [.leaf (.cls 0), .mod 4 (mkProduct (.user 0) 7 1 [3] [.leaf (.cls 0)])]) _
    (.tuple _ _ ?_) rfl
  intro t ht
  simp only [List.mem_cons, List.not_mem_nil, or_false] at ht
  rcases ht with rfl | rfl
  · exact .leaf _
  · exact .mod 4 (mkProduct (.user 0) 7 1 [3] [.leaf (.cls 0)]) _ (.product _ _ _ _ _ rfl (by simp) (by simpa using Built.leaf _)) rfl

theorem exM_reaches {f : Ty → Option Ty} {s : Ty} (h : Reaches f exM s) : ¬ s.IsAnon := by
  have leaf : ∀ s, Reaches f (.leaf (.cls 0)) s → ¬ s.IsAnon := by
    intro s h
    cases h with
    | self => rintro ⟨k, fs, h, _⟩; cases h
    | field h => obtain ⟨k, fs, h, _⟩ := h; cases h
  cases h with
  | self => rintro ⟨k, fs, h, hk⟩; cases h; cases hk
  | field h _ h' =>
      obtain ⟨k, fs, hv, ht⟩ := h
      cases hv
      simp only [List.mem_cons, List.not_mem_nil, or_false] at ht
      rcases ht with rfl | rfl
      · exact leaf s h'
      · cases h' with
        | self => rintro ⟨k, fs, h, hk⟩; cases h; cases hk
        | field h _ h' =>
            obtain ⟨k, fs, hv, ht⟩ := h
            cases hv
            simp only [List.mem_cons, List.not_mem_nil, or_false] at ht
            subst ht
            exact leaf s h'

example : ∃ T', Ty.rebind World.std (.leaf (.cls 0)) (.leaf (.cls 1)) false true exM = .ok T' ∧
    Rebound World.std (fieldImage World.std (.leaf (.cls 0)) (.leaf (.cls 1)) false true) true exM T' ∧
      Built World.std T' := C146_rebind exM_built (.leaf _) rfl fun _ => exM_reaches

/-- The modifiers have moved from the classes to their `unbound_t`, and the method is lost. -/
example : Ty.rebind World.std (.leaf (.cls 0)) (.leaf (.cls 1)) false true exM = .ok (mkTuple (.mod 5 (.mod 4 (.user 1)))
    [.leaf (.cls 1), mkProduct (.mod 4 (.user 0)) (Nat.pair 4 7) 0 [3] [.leaf (.cls 1)]]) := rfl

example : ∃ T' T'', Ty.rebind World.std (.leaf (.cls 0)) (.leaf (.cls 1)) false true exM = .ok T' ∧
    Ty.rebind World.std (.leaf (.cls 1)) (.leaf (.cls 0)) false true T' = .ok T'' ∧ SameClass World.std exM T'' := by
  refine C146_back exM_built (.leaf _) (.leaf _) rfl rfl (fun _ => exM_reaches) ?_
  have leaf : ∀ t, ¬ Ty.Below t (.leaf (.cls 0)) := by
    intro t h
    cases h with
    | field h => obtain ⟨k, fs, h, _⟩ := h; cases h
    | deep h => obtain ⟨k, fs, h, _⟩ := h; cases h
  have prod : ¬ Ty.Below (.leaf (.cls 1)) (.mod 4 (mkProduct (.user 0) 7 1 [3] [.leaf (.cls 0)])) := by
    intro h
    cases h with
    | field h => obtain ⟨k, fs, h, ht⟩ := h; cases h; simp at ht
    | deep h h' =>
        obtain ⟨k, fs, h, ht⟩ := h
        cases h
        simp only [List.mem_cons, List.not_mem_nil, or_false] at ht
        subst ht
        exact leaf _ h'
  intro h
  cases h with
  | field h => obtain ⟨k, fs, h, ht⟩ := h; cases h; simp at ht
  | deep h h' =>
      obtain ⟨k, fs, h, ht⟩ := h
      cases h
      simp only [List.mem_cons, List.not_mem_nil, or_false] at ht
      rcases ht with rfl | rfl
      · exact leaf _ h'
      · exact prod h'

/-- An `AnonymousProduct` inside a `Tuple`; and one inside the class that is replaced, which is not met. -/
example : Ty.rebind World.std (.leaf (.cls 0)) (.leaf (.cls 1)) false true
    (mkTuple (.user 0) [.mod 3 (mkAnon (.user 2) [4] [.leaf (.cls 0)])]) = .error .typeError :=
  C146_anon (s := .mod 3 (mkAnon (.user 2) [4] [.leaf (.cls 0)]))
    (.field ⟨_, _, rfl, by simp⟩ (by simp [fieldImage]) (.self _)) ⟨_, _, rfl, rfl⟩
example : Ty.rebind World.std (mkAnon (.user 2) [4] [.leaf (.cls 0)]) (.leaf (.cls 1)) false true
    (mkTuple (.user 0) [mkAnon (.user 2) [4] [.leaf (.cls 0)]]) = .ok (mkTuple (.user 0) [.leaf (.cls 1)]) := rfl

/-- `M(Tuple[X])` -/
def altA : Ty := .mod 4 (mkTuple (.user 1) [.leaf (.cls 1)])
/-- `M(Tuple)[X]` -/
def altB : Ty := mkTuple (.mod 4 (.user 1)) [.leaf (.cls 1)]

/-- A `Sum` of `M(Tuple[X])` and `M(Tuple)[X]` has one alternative less after a rebinding that replaces nothing. -/
theorem C146_merge_refuted : ∃ (T A B T' : Ty) (k k' : Con) (fs fs' : List Ty), Built W T ∧ (∀ t, t.Below T → t ≠ A) ∧
    Ty.rebind W A B false true T = .ok T' ∧ T.view = some (k, fs) ∧ T'.view = some (k', fs') ∧
    fs.length = 2 ∧ fs'.length = 1 := by
  have hb : Built W (mkSum W (.user 0) [altA, altB]) := by
    refine .sum _ _ ?_
    intro t ht
    simp only [List.mem_cons, List.not_mem_nil, or_false] at ht
    rcases ht with rfl | rfl
    · exact .mod 4 (mkTuple (.user 1) [.leaf (.cls 1)]) _ (.tuple _ _ (by simpa using Built.leaf _)) rfl
    · exact .tuple _ _ (by simpa using Built.leaf _)
  have hm : ∀ t, t ∈ W.canon [altA, altB] → t = altA ∨ t = altB := by
    intro t ht
    rw [W.mem_canon] at ht
    simpa using ht
  have hl : ∀ l : List Ty, (∀ t ∈ l, t = altA ∨ t = altB) →
      Ty.rebList W (.leaf (.cls 0)) (.leaf (.cls 2)) false true l = .ok (l.map fun _ => altB) := by
    intro l
    induction l with
    | nil => intro _; rw [Ty.rebList]; rfl
    | cons t ts ih =>
        intro h
        rw [Ty.rebList, ih fun t ht => h t (by simp [ht])]
        rcases h t (by simp) with rfl | rfl <;> rfl
  refine ⟨mkSum W (.user 0) [altA, altB], .leaf (.cls 0), .leaf (.cls 2),
    mkSum W (.user 0) ((W.canon [altA, altB]).map fun _ => altB), _, _, _, _, hb, ?_, ?_, rfl, rfl, ?_, ?_⟩
  · have alt : ∀ t s : Ty, s = altA ∨ s = altB → t.Below s → t = .leaf (.cls 1) := by
      intro t s hs h
      cases h with
      | field h =>
          obtain ⟨k, fs, h, ht⟩ := h
          rcases hs with rfl | rfl <;> cases h <;> simpa using ht
      | deep h h' =>
          obtain ⟨k, fs, h, ht⟩ := h
          exfalso
          rcases hs with rfl | rfl <;> cases h <;> simp only [List.mem_cons, List.not_mem_nil, or_false] at ht <;>
            subst ht <;> cases h' with
          | field h => obtain ⟨k, fs, h, _⟩ := h; cases h
          | deep h => obtain ⟨k, fs, h, _⟩ := h; cases h
    rintro t h rfl
    cases h with
    | field h =>
        obtain ⟨k, fs, h, ht⟩ := h
        cases h
        rcases hm _ ht with h | h <;> cases h
    | deep h h' =>
        obtain ⟨k, fs, h, ht⟩ := h
        cases h
        have := alt _ _ (hm _ ht) h'
        simp at this
  · rw [Ty.rebind, if_pos (by rfl), mkSum, rebFields_node, hl _ hm, pyBindOk]
    rfl
  · have : (W.canon [altA, altB]).Perm [altA, altB] :=
      (List.perm_ext_iff_of_nodup (W.nodup_canon _) (by decide)).2 fun t => W.mem_canon _ t
    simpa using this.length_eq
  · have hne : altB ∈ (W.canon [altA, altB]).map fun _ => altB := by
      rw [List.mem_map]
      exact ⟨altA, (W.mem_canon _ _).2 (by simp), rfl⟩
    have : (W.canon ((W.canon [altA, altB]).map fun _ => altB)).Perm [altB] := by
      refine (List.perm_ext_iff_of_nodup (W.nodup_canon _) (by simp)).2 fun t => ?_
      rw [W.mem_canon]
      constructor
      · intro h
        obtain ⟨_, _, rfl⟩ := List.mem_map.1 h
        simp
      · intro h
        rw [List.mem_singleton.1 h]
        exact hne
    simpa using this.length_eq

end HW
