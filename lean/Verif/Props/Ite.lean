import Verif.Model.Ite
import Verif.Props.BitVectorArith

/-!
# Properties C27, C28: `ite`
-/

namespace HW
open Spec

/-! ## Specification -/

/-- What `ite` may look at: shapes and widths, no values and no condition. -/
inductive Shape
  | bit
  | vec (n : Nat)
  | tup (l : List Shape)
  | proto (c : ProtoCls)
  | other (c : Nat)

mutual
def shape : Branch → Shape
  | .bit _ => .bit
  | .bv x => .vec x.size
  | .tup l => .tup (shapes l)
  | .proto c _ => .proto c
  | .other c => .other c
def shapes : List Branch → List Shape
  | [] => []
  | b :: l => shape b :: shapes l
end

mutual
/-- Two shapes can be the branches of one `ite`. -/
def compat : Shape → Shape → Bool
  | .bit, .bit => true
  | .vec n, .vec m => n == m
  | .tup l, .tup m => compats l m
  | .proto c, .proto c' => c == c'
  | _, _ => false
def compats : List Shape → List Shape → Bool
  | [], [] => true
  | a :: l, b :: m => compat a b && compats l m
  | _, _ => false
end

/-- The exception `ite` raises on branches of these shapes, if any. -/
def iteErr (a b : Shape) : Option PyErr :=
  if compat a b then none
  else match a, b with
    | .vec _, .vec _ => some .inconsistentSize
    | _, _ => some .typeError

mutual
/-- Equal shape and equal contents; the classes of vectors may differ. -/
def Agrees : Branch → Branch → Prop
  | .bit a, .bit b => a = b
  | .bv x, .bv y => x.size = y.size ∧ x.value = y.value
  | .tup l, .tup m => AgreesAll l m
  | .proto c x, .proto c' y => c = c' ∧ x.size = y.size ∧ x.value = y.value
  | _, _ => False
def AgreesAll : List Branch → List Branch → Prop
  | [], [] => True
  | a :: l, b :: m => Agrees a b ∧ AgreesAll l m
  | _, _ => False
end

mutual
/-- Branches whose vectors are canonical. -/
def Branch.WF : Branch → Prop
  | .bv x => x.WF
  | .proto c x => x.WF ∧ x.size = c.size ∧ x.kind = c.kind
  | .tup l => Branch.WFs l
  | _ => True
def Branch.WFs : List Branch → Prop
  | [] => True
  | b :: l => b.WF ∧ Branch.WFs l
end

mutual
/-- Same Python types all the way down (tuples compared component-wise). -/
def SameTypes : Branch → Branch → Prop
  | .bit _, .bit _ => True
  | .bv x, .bv y => x.kind = y.kind ∧ x.size = y.size
  | .tup l, .tup m => SameTypesAll l m
  | .proto c _, .proto c' _ => c = c'
  | _, _ => False
def SameTypesAll : List Branch → List Branch → Prop
  | [], [] => True
  | a :: l, b :: m => SameTypes a b ∧ SameTypesAll l m
  | _, _ => False
end

/-! ## Proofs -/

theorem mkBV_bv (k : Kind) (n : Nat) (x : BVal) : mkBV k n (.bv x) = .ok ⟨k, n, x.value % 2 ^ n⟩ := by
  rw [mkBV_eq]; rfl

theorem compats_length : ∀ (l m : List Branch), compats (shapes l) (shapes m) = true → l.length = m.length
  | [], [], _ => rfl
  | [], _ :: _, h => by simp [shapes, compats] at h
  | _ :: _, [], h => by simp [shapes, compats] at h
  | a :: l, b :: m, h => by
    simp only [shapes, compats, Bool.and_eq_true] at h
    simp [compats_length l m h.2]

/-- Outcome of the three phases of `ite` on compatible branches. -/
def IteOK (sel : Bool) (t f : Branch) (i : Nat) : Prop :=
  ∃ r i' v w, returnType sel t f i = .ok (r, i') ∧ pushIte sel t f = .ok v ∧
    coerceBranch r v = .ok w ∧ (t.WF → f.WF → Agrees w (if sel then t else f)) ∧
    (t.WF → f.WF → SameTypes t f → w = if sel then t else f) ∧ (t.WF → f.WF → w.WF)

def ItesOK (sel : Bool) (t f : List Branch) (i : Nat) : Prop :=
  ∃ r i' v w, returnTypes sel t f i = .ok (r, i') ∧ pushItes sel t f = .ok v ∧
    coerceBranches r v = .ok w ∧ r.length = t.length ∧ v.length = t.length ∧
    (Branch.WFs t → Branch.WFs f → AgreesAll w (if sel then t else f)) ∧
    (Branch.WFs t → Branch.WFs f → SameTypesAll t f → w = if sel then t else f) ∧
    (Branch.WFs t → Branch.WFs f → Branch.WFs w)

theorem iteErr_typeError {a b : Shape} {e : PyErr} (h : iteErr a b = some e) : e.isTypeError = true := by
  unfold iteErr at h
  split at h
  · cases h
  · split at h <;> (injection h with h; subst h; rfl)

theorem ite_bv_ok (sel : Bool) (x y : BVal) (i : Nat) (h : x.size = y.size) :
    ∃ k i', returnType sel (.bv x) (.bv y) i = .ok (.vec k x.size, i') ∧
      (k = if x.kind = y.kind then x.kind else .poly i x.kind y.kind sel) := by
  by_cases hk : x.kind = y.kind
  · exact ⟨x.kind, i, by simp [returnType, hk, h]; rfl, by simp [hk]⟩
  · exact ⟨.poly i x.kind y.kind sel, i + 1, by
      simp [returnType, hk, h, polyVector, bind, StateT.bind, Except.bind, pure, StateT.pure,
        Except.pure], by simp [hk]⟩

mutual
theorem ite_phases (sel : Bool) : ∀ (t f : Branch) (i : Nat),
    (compat (shape t) (shape f) = true → IteOK sel t f i) ∧
    (compat (shape t) (shape f) = false → ∃ e, returnType sel t f i = .error e ∧
      iteErr (shape t) (shape f) = some e)
  | .bit a, .bit b, i => by
    refine ⟨fun _ => ⟨.bit, i, .bit (if sel then a else b), .bit (if sel then a else b), rfl, ?_, ?_,
      fun _ _ => ?_, fun _ _ _ => ?_, fun _ _ => ?_⟩, fun h => by simp [shape, compat] at h⟩
    · cases sel <;> rfl
    · cases sel <;> rfl
    · cases sel <;> simp [Agrees]
    · cases sel <;> rfl
    · trivial
  | .bv x, .bv y, i => by
    constructor
    · intro h
      have h : x.size = y.size := by simpa [shape, compat] using h
      obtain ⟨k, i', h1, h2⟩ := ite_bv_ok sel x y i h
      refine ⟨_, i', .bv (if sel then x else y), .bv ⟨k, x.size, (if sel then x else y).value % 2 ^ x.size⟩,
        h1, ?_, ?_, fun hx hy => ?_, fun hx hy hs => ?_, fun hx hy => ?_⟩
      · cases sel <;> rfl
      · simp [coerceBranch, Branch.toObj, mkBV_bv, bind, Except.bind, pure, Except.pure]
      · have hx : x.WF := hx
        have hy : y.WF := hy
        have e1 := hx.mod_eq
        have e2 := hy.mod_eq
        cases sel <;> simp_all [Agrees]
      · have hx : x.WF := hx
        have hy : y.WF := hy
        have e1 := hx.mod_eq
        have e2 := hy.mod_eq
        have hs : x.kind = y.kind ∧ x.size = y.size := hs
        rw [h2, if_pos hs.1]
        cases sel
        · simp [h, hs.1, e2]
        · simp [e1]
      · exact mod_WF _ _ _
    · intro h
      have h : ¬ x.size = y.size := by simpa [shape, compat] using h
      refine ⟨.inconsistentSize, ?_, by simp [iteErr, shape, compat, h]⟩
      simp [returnType, h, polyVector, bind, StateT.bind, Except.bind]
  | .tup l, .tup m, i => by
    have ih := ites_phases sel l m i
    constructor
    · intro h
      have h : compats (shapes l) (shapes m) = true := by simpa [shape, compat] using h
      have hl := compats_length l m h
      obtain ⟨r, i', v, w, h1, h2, h3, h4, h5, h6, h7, h8⟩ := ih.1 h
      refine ⟨.tup r, i', .tup v, .tup w, ?_, ?_, ?_, fun hx hy => ?_, fun hx hy hs => ?_, fun hx hy => ?_⟩
      · simp [returnType, hl, h1]
      · simp [pushIte, hl, h2, bind, Except.bind, pure, Except.pure]
      · simp [coerceBranch, h4, h5, h3, bind, Except.bind, pure, Except.pure]
      · have := h6 hx hy; cases sel <;> exact this
      · have := h7 hx hy hs; cases sel <;> simp_all
      · exact h8 hx hy
    · intro h
      have h : compats (shapes l) (shapes m) = false := by simpa [shape, compat] using h
      refine ⟨.typeError, ?_, by simp [iteErr, shape, compat, h]⟩
      by_cases hl : l.length = m.length
      · obtain ⟨e, he, ht⟩ := ih.2 h hl
        simp [returnType, hl, he, ht]
      · simp [returnType, hl, pyLift, Except.map]
  | .proto c x, .proto c' y, i => by
    constructor
    · intro h
      have h : c = c' := by simpa [shape, compat] using h
      subst h
      refine ⟨.fromBV c, i, .bv (if sel then x else y),
        .proto c ⟨c.kind, c.size, (if sel then x else y).value % 2 ^ c.size⟩, ?_, ?_, ?_,
        fun hx hy => ?_, fun hx hy hs => ?_, fun hx hy => ?_⟩
      · simp [returnType]; rfl
      · simp [pushIte]
      · simp [coerceBranch, Branch.toObj, mkBV_bv, bind, Except.bind, pure, Except.pure]
      · obtain ⟨hx, hxs, -⟩ := hx
        obtain ⟨hy, hys, -⟩ := hy
        have e1 := hx.mod_eq
        have e2 := hy.mod_eq
        cases sel <;> simp_all [Agrees]
      · obtain ⟨hx, hxs, hxk⟩ := hx
        obtain ⟨hy, hys, hyk⟩ := hy
        have e1 := hx.mod_eq
        have e2 := hy.mod_eq
        cases sel
        · simp [← hys, ← hyk, e2]
        · simp [← hxs, ← hxk, e1]
      · exact ⟨mod_WF _ _ _, rfl, rfl⟩
    · intro h
      have h : ¬ c = c' := by simpa [shape, compat] using h
      exact ⟨.typeError, by simp [returnType, h, pyLift, Except.map], by simp [iteErr, shape, compat, h]⟩
  | .other _, f, i => by
    refine ⟨fun h => by cases f <;> simp [shape, compat] at h, fun _ => ⟨.typeError, ?_, ?_⟩⟩
    · cases f <;> simp [returnType, pyLift, Except.map]
    · cases f <;> simp [iteErr, shape, compat]
  | .bit _, .bv _, i | .bit _, .tup _, i | .bit _, .proto _ _, i | .bit _, .other _, i
  | .bv _, .bit _, i | .bv _, .tup _, i | .bv _, .proto _ _, i | .bv _, .other _, i
  | .tup _, .bit _, i | .tup _, .bv _, i | .tup _, .proto _ _, i | .tup _, .other _, i
  | .proto _ _, .bit _, i | .proto _ _, .bv _, i | .proto _ _, .tup _, i | .proto _ _, .other _, i => by
    refine ⟨fun h => by simp [shape, compat] at h, fun _ => ⟨.typeError, ?_, ?_⟩⟩
    · simp [returnType, pyLift, Except.map]
    · simp [iteErr, shape, compat]
theorem ites_phases (sel : Bool) : ∀ (l m : List Branch) (i : Nat),
    (compats (shapes l) (shapes m) = true → ItesOK sel l m i) ∧
    (compats (shapes l) (shapes m) = false → l.length = m.length →
      ∃ e, returnTypes sel l m i = .error e ∧ e.isTypeError = true)
  | [], [], i => by
    refine ⟨fun _ => ⟨[], i, [], [], rfl, rfl, rfl, rfl, rfl, fun _ _ => ?_, fun _ _ _ => ?_,
      fun _ _ => trivial⟩, fun h => by simp [shapes, compats] at h⟩
    · cases sel <;> trivial
    · cases sel <;> rfl
  | [], _ :: _, i => ⟨fun h => by simp [shapes, compats] at h, fun _ h => by simp at h⟩
  | _ :: _, [], i => ⟨fun h => by simp [shapes, compats] at h, fun _ h => by simp at h⟩
  | t :: l, f :: m, i => by
    have ih := ite_phases sel t f i
    constructor
    · intro h
      simp only [shapes, compats, Bool.and_eq_true] at h
      obtain ⟨r, i', v, w, h1, h2, h3, h4, h5, h6⟩ := ih.1 h.1
      obtain ⟨rs, i'', vs, ws, g1, g2, g3, g4, g5, g6, g7, g8⟩ := (ites_phases sel l m i').1 h.2
      refine ⟨r :: rs, i'', v :: vs, w :: ws, ?_, ?_, ?_, by simp [g4], by simp [g5],
        fun hx hy => ?_, fun hx hy hs => ?_, fun hx hy => ?_⟩
      · simp [returnTypes, bind, StateT.bind, h1, g1, Except.bind, pure, StateT.pure, Except.pure]
      · simp [pushItes, h2, g2, bind, Except.bind, pure, Except.pure]
      · simp [coerceBranches, h3, g3, bind, Except.bind, pure, Except.pure]
      · have a := h4 hx.1 hy.1
        have b := g6 hx.2 hy.2
        cases sel <;> exact ⟨a, b⟩
      · have a := h5 hx.1 hy.1 hs.1
        have b := g7 hx.2 hy.2 hs.2
        cases sel <;> simp_all
      · exact ⟨h6 hx.1 hy.1, g8 hx.2 hy.2⟩
    · intro h hl
      simp only [shapes, compats] at h
      by_cases hc : compat (shape t) (shape f) = true
      · obtain ⟨r, i', v, w, h1, -⟩ := ih.1 hc
        rw [hc, Bool.true_and] at h
        obtain ⟨e, he, ht⟩ := (ites_phases sel l m i').2 h (by simpa using hl)
        exact ⟨e, by simp [returnTypes, bind, StateT.bind, h1, he, Except.bind], ht⟩
      · obtain ⟨e, he, ht⟩ := ih.2 (by simpa using hc)
        exact ⟨e, by simp [returnTypes, bind, StateT.bind, he, Except.bind], iteErr_typeError ht⟩
end

/-- The exception of an outcome. -/
def errOf {α : Type} : PyM α → Option PyErr
  | .ok _ => none
  | .error e => some e

/-- **C28** whether `c.ite(t, f)` raises, and what, is a function of the shapes and widths of `t` and
`f`: the condition and all values are irrelevant. -/
theorem C28_errors (sel : Bool) (t f : Branch) (i : Nat) :
    errOf (ite sel t f i) = iteErr (shape t) (shape f) := by
  have h := ite_phases sel t f i
  by_cases hc : compat (shape t) (shape f) = true
  · obtain ⟨r, i', v, w, h1, h2, h3, -⟩ := h.1 hc
    have : ite sel t f i = .ok (w, i') := by
      simp [ite, bind, StateT.bind, h1, Except.bind, h2, h3, pyLift, Except.map]
    rw [this]; simp [errOf, iteErr, hc]
  · obtain ⟨e, he, ht⟩ := h.2 (by simpa using hc)
    rw [ht]; simp [ite, bind, StateT.bind, he, Except.bind, errOf]

/-- **C28** restated: two calls with branches of equal shapes fail or succeed together. -/
theorem C28_condition_independent (sel sel' : Bool) {t f t' f' : Branch} (i i' : Nat)
    (ht : shape t = shape t') (hf : shape f = shape f') :
    errOf (ite sel t f i) = errOf (ite sel' t' f' i') := by
  rw [C28_errors, C28_errors, ht, hf]

example : iteErr (shape (.tup [.bv ⟨.root .bv, 8, 1⟩, .bit true]))
    (shape (.tup [.bv ⟨.root .bv, 4, 1⟩, .bit true])) = some .typeError := by
  simp [iteErr, shape, shapes, compat, compats]
example : iteErr (shape (.bv ⟨.root .bv, 8, 1⟩)) (shape (.bv ⟨.root .sint, 4, 1⟩))
    = some .inconsistentSize := by simp [iteErr, shape, compat]

/-- **C27** whenever `c.ite(t, f)` returns, it returns the selected branch: same tuple structure,
same widths, same values at every depth; and if the branches have the same types, exactly that
branch (including its classes). -/
theorem C27_selects (sel : Bool) {t f : Branch} (ht : t.WF) (hf : f.WF) (i : Nat) {w : Branch} {i' : Nat}
    (h : ite sel t f i = .ok (w, i')) :
    Agrees w (if sel then t else f) ∧ (SameTypes t f → w = if sel then t else f) ∧ w.WF := by
  have hp := ite_phases sel t f i
  by_cases hc : compat (shape t) (shape f) = true
  · obtain ⟨r, i'', v, w', h1, h2, h3, h4, h5, h6⟩ := hp.1 hc
    have : ite sel t f i = .ok (w', i'') := by
      simp [ite, bind, StateT.bind, h1, Except.bind, h2, h3, pyLift, Except.map]
    rw [this] at h
    injection h with h; injection h with ha hb; subst ha
    exact ⟨h4 ht hf, h5 ht hf, h6 ht hf⟩
  · obtain ⟨e, he, -⟩ := hp.2 (by simpa using hc)
    simp [ite, bind, StateT.bind, he, Except.bind] at h

/-- **C27** branches of compatible shapes: it does return. -/
theorem C27_total (sel : Bool) {t f : Branch} (i : Nat)
    (hs : compat (shape t) (shape f) = true) : ∃ w i', ite sel t f i = .ok (w, i') := by
  have h := C28_errors sel t f i
  cases hr : ite sel t f i with
  | ok p => exact ⟨p.1, p.2, rfl⟩
  | error e => rw [hr] at h; simp [errOf, iteErr, hs] at h

example : Branch.WF (.tup [.bv ⟨.root .bv, 8, 1⟩, .tup [.bit true]]) ∧
    SameTypes (.tup [.bv ⟨.root .bv, 8, 1⟩, .tup [.bit true]])
      (.tup [.bv ⟨.root .bv, 8, 7⟩, .tup [.bit false]]) := by
  simp [Branch.WF, Branch.WFs, SameTypes, SameTypesAll, BVal.WF]

/-- **C27** two vectors. -/
theorem C27_vec (sel : Bool) {x y : BVal} (hx : x.WF) (hy : y.WF) (hs : x.size = y.size) (i : Nat) :
    ∃ k i', ite sel (.bv x) (.bv y) i =
        .ok (.bv ⟨k, x.size, if sel then x.value else y.value⟩, i') ∧
      k = if x.kind = y.kind then x.kind else .poly i x.kind y.kind sel := by
  obtain ⟨k, i', h1, h2⟩ := ite_bv_ok sel x y i hs
  have e2 := hy.mod_eq
  refine ⟨k, i', ?_, h2⟩
  cases sel
  · simp [ite, bind, StateT.bind, h1, Except.bind, pushIte, coerceBranch, pyLift, Except.map,
      Branch.toObj, mkBV_bv, pure, Except.pure, hs, e2]
  · simp [ite, bind, StateT.bind, h1, Except.bind, pushIte, coerceBranch, pyLift, Except.map,
      Branch.toObj, mkBV_bv, pure, Except.pure, hx.mod_eq]

/-- **C27** a vector condition selects by being nonzero. -/
theorem C27_vector_condition (x : BVal) (t f : Branch) (i : Nat) :
    x.ite t f i = ite (decide (x.value ≠ 0)) t f i := by
  have h : x.bvne (.int 0) = .ok (decide (x.value ≠ 0)) := by
    rw [C09_bvne]
    simp [operand, Obj.denotes, wrap, Except.map]
  simp [BVal.ite, bind, StateT.bind, h, pyLift, Except.map, Except.bind]

end HW
