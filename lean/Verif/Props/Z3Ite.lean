import Verif.Props.Z3Struct
import Verif.Props.Ite

/-!
# Property C96: `ite` of the z3 family
-/

namespace HW
open Spec Z3
open Smt (toI toI_bounds toI_mod ok_bind)

/-- `iteF` on branches of the class of the result. -/
theorem iteF_rel {e : Env} {c : BoolE} {C : Bool} (hc : Z3.DenBit e c C) {t f : ZBV} {T F : BVal} (ht : Z3.Den e t T)
    (hf : Z3.Den e f F) (hs : f.size = t.size) :
    ∃ z, iteF c t.root t.size t f = .ok z ∧ Z3.Den e z ⟨T.kind, T.size, if C then T.value else F.value⟩ ∧
      z.root = t.root ∧ z.size = t.size := by
  obtain ⟨r, n, d, rfl, rfl, hn⟩ := ht.cases
  obtain ⟨r', m, d', rfl, rfl, hm⟩ := hf.cases
  dsimp only at hs ⊢
  subst hs
  refine ⟨⟨r, m, ⟨m, fun e => if c e then d e else d' e⟩⟩, ?_, ?_, rfl, rfl⟩
  · simp only [iteF, zIf_ok, ok_bind, bvF_ok r _ hn]
  · have hc : c e = C := hc
    refine Den.intro r _ hn ?_
    rw [hc]
    cases C <;> rfl

/-- **C96** two vectors of one class: the selected one, as in the concrete family. -/
theorem C96_select {e : Env} {c : BoolE} {C : Bool} (hc : Z3.DenBit e c C) {t f : ZBV} {T F : BVal} (ht : Z3.Den e t T)
    (hf : Z3.Den e f F) (hr : f.root = t.root) (hs : f.size = t.size) (i : Nat) :
    ∃ z, zIte c (.bv t) (.bv f) = .ok z ∧ Z3.Den e z (if C then T else F) ∧
      ite C (.bv T) (.bv F) i = .ok (.bv (if C then T else F), i) := by
  obtain ⟨z, h1, h2, -⟩ := iteF_rel hc ht hf hs
  have hk : F.kind = T.kind := by rw [hf.kind_eq, ht.kind_eq, hr]
  have hz : F.size = T.size := by rw [hf.size_eq, ht.size_eq, hs]
  refine ⟨z, ?_, ?_, ?_⟩
  · simp only [zIte, hr, hs, and_self, not_true, if_false, h1]
  · cases C
    · obtain ⟨a, b, v⟩ := F
      dsimp only at hk hz
      subst hk hz
      exact h2
    · exact h2
  · have hrt : returnType C (.bv T) (.bv F) i = .ok (.vec T.kind T.size, i) := by
      simp [returnType, hk, hz, pure, StateT.pure, Except.pure]
    have hm := ht.WF.mod_eq
    have hm' := hf.WF.mod_eq
    cases C
    · simp [ite, bind, StateT.bind, hrt, Except.bind, pushIte, coerceBranch, pyLift, Except.map,
        Branch.toObj, mkBV_bv, pure, Except.pure, ← hk, ← hz, hm']
    · simp [ite, bind, StateT.bind, hrt, Except.bind, pushIte, coerceBranch, pyLift, Except.map,
        Branch.toObj, mkBV_bv, pure, Except.pure, hm]

/-- **C96** two vectors of different classes or widths: `TypeError`.  (In the concrete family vectors of one
width and different classes give a polymorphic vector, C29.) -/
theorem C96_classes (c : BoolE) {t f : ZBV} (h : ¬ (t.root = f.root ∧ t.size = f.size)) :
    zIte c (.bv t) (.bv f) = .error .typeError := by
  simp only [zIte, h, not_false_eq_true, if_true]

/-- **C96** one vector: the other branch is converted to its class first, whichever is selected. -/
theorem C96_convert {e : Env} {c : BoolE} {C : Bool} (hc : Z3.DenBit e c C) {x : ZBV} {X : BVal} {o : ZObj} {O : Obj}
    (hx : Z3.Den e x X) (ho : Z3.DenObj e o O) (hf : o.Fits x.size) (hno : ∀ y, o ≠ .bv y) :
    RelE (Z3.Den e) (zIte c (.bv x) o)
      ((operand X.size O).map fun b => ⟨X.kind, X.size, if C then X.value else b⟩) ∧
    RelE (Z3.Den e) (zIte c o (.bv x))
      ((operand X.size O).map fun b => ⟨X.kind, X.size, if C then b else X.value⟩) := by
  have hm := mkZBV_rel x.root hx.pos ho hf
  have hn := hx.size_eq
  have e1 : zIte c (.bv x) o = (mkZBV x.root x.size o >>= fun y => iteF c x.root x.size x y) := by
    cases o <;> first | rfl | exact absurd rfl (hno _)
  have e2 : zIte c o (.bv x) = (mkZBV x.root x.size o >>= fun y => iteF c x.root x.size y x) := by
    cases o <;> first | rfl | exact absurd rfl (hno _)
  have hop : HW.mkBV (.root x.root) x.size O = (operand X.size O).map fun b => ⟨.root x.root, x.size, b⟩ := by
    rw [mkBV_eq, hn]
    cases ho with
    | bv => exact absurd rfl (hno _)
    | @other j b => cases j <;> rfl
    | _ => rfl
  rw [e1, e2]
  rw [hop] at hm
  cases hq : operand X.size O with
  | error er =>
    rw [hq] at hm
    obtain ⟨er', h1, h2⟩ := hm.error_right
    rw [h1]
    exact ⟨h2, h2⟩
  | ok b =>
    rw [hq] at hm
    obtain ⟨y, h1, h2⟩ := hm.ok_right
    rw [h1]
    have hy := h2.attrs rfl
    simp only [ok_bind]
    obtain ⟨z, g1, g2, -⟩ := iteF_rel hc hx h2 hy.2
    obtain ⟨w, k1, k2, -⟩ := iteF_rel hc h2 hx hy.2.symm
    rw [hy.1, hy.2] at k1
    rw [g1, k1]
    refine ⟨g2, ?_⟩
    simp only [RelE, Except.map]
    rw [hx.kind_eq, hn]
    exact k2

/-- The width an object that is no vector gets when no class says one. -/
def bareWidth : Obj → Nat
  | .seq l => l.length
  | .bit _ => 1
  | o => max (pyBitLength (o.denotes.getD 0)) 1

theorem mkUnsized_rel {e : Env} {o : ZObj} {O : Obj} (ho : Z3.DenObj e o O) (hf : o.Fits (bareWidth O))
    (hw : 0 < bareWidth O) (hno : ∀ y, o ≠ .bv y) {v : Int} (hv : O.denotes = some v) :
    ∃ z, mkUnsized o = .ok z ∧ Z3.Den e z ⟨.root .bv, bareWidth O, wrap (bareWidth O) v⟩ := by
  have key := mkZBV_rel .bv hw ho hf
  have hop : HW.mkBV (.root .bv) (bareWidth O) O = .ok ⟨.root .bv, bareWidth O, wrap (bareWidth O) v⟩ := by
    rw [mkBV_eq]
    cases ho with
    | bv => exact absurd rfl (hno _)
    | @other j b => cases j with
      | none => cases hv
      | some => cases hv; rfl
    | _ => cases hv; rfl
  rw [hop] at key
  have e1 : mkUnsized o = mkZBV .bv (bareWidth O) o := by
    cases ho with
    | bv => exact absurd rfl (hno _)
    | @other j b => cases j with
      | none => cases hv
      | some => rfl
    | @seq l L h =>
      have hl : l.length = L.length := h.length_eq
      have hw : 0 < L.length := hw
      simp only [mkUnsized, bareWidth, hl, Nat.max_eq_left (show 1 ≤ L.length by omega)]
    | @bool b => cases b <;> rfl
    | _ => rfl
  rw [e1]
  exact key.ok_right

/-- **C96** no vector among the branches: both become vectors of their own width (`bit_length` for ints, 1
for bits, the length for sequences), the shorter one is zero-extended, and the result is a vector. -/
theorem C96_bare {e : Env} {c : BoolE} {C : Bool} (hc : Z3.DenBit e c C) {t f : ZObj} {T F : Obj} {v w : Int}
    (ht : Z3.DenObj e t T) (hf : Z3.DenObj e f F) (htf : t.Fits (bareWidth T)) (hff : f.Fits (bareWidth F))
    (htw : 0 < bareWidth T) (hfw : 0 < bareWidth F) (htn : ∀ y, t ≠ .bv y) (hfn : ∀ y, f ≠ .bv y)
    (hv : T.denotes = some v) (hw : F.denotes = some w) :
    ∃ z, zIte c t f = .ok z ∧ Z3.Den e z ⟨.root .bv, max (bareWidth T) (bareWidth F),
      if C then wrap (bareWidth T) v else wrap (bareWidth F) w⟩ := by
  have e1 : zIte c t f = iteUnsized c t f := by
    cases t <;> cases f <;> first | rfl | exact absurd rfl (htn _) | exact absurd rfl (hfn _)
  obtain ⟨a, ha, had⟩ := mkUnsized_rel ht htf htw htn hv
  obtain ⟨b, hb, hbd⟩ := mkUnsized_rel hf hff hfw hfn hw
  have hat := had.attrs rfl
  have hbt := hbd.attrs rfl
  rw [e1]
  simp only [iteUnsized, ha, hb, ok_bind, hat.1, hat.2, hbt.2]
  generalize hm : bareWidth T = m at *
  generalize hn : bareWidth F = n at *
  have hzm : ∀ {p q : Nat} {u : Int}, wrap p u < 2 ^ (p + q) := by
    intro p q u
    have h1 : wrap p u < 2 ^ p := Int.emod_lt_of_pos _ (two_pow_pos p)
    have h2 : (2 : Int) ^ p ≤ 2 ^ (p + q) := by exact_mod_cast Nat.pow_le_pow_right (by omega) (by omega)
    omega
  rcases lt_trichotomy m n with h | h | h
  · rw [if_neg (by omega), if_pos (by omega)]
    have hz := zext_rel had ((n : Int) - m)
    rw [C17_zext had.WF, if_neg (by omega)] at hz
    obtain ⟨y, hy, hyd⟩ := hz.ok_right
    have hyt := hyd.attrs rfl
    dsimp only at hyt hyd
    have hnn : m + ((n : Int) - m).toNat = n := by omega
    rw [hnn] at hyt hyd
    obtain ⟨z, h1, h2, -⟩ := iteF_rel hc hyd hbd (by rw [hbt.2, hyt.2])
    rw [show -((m : Int) - n) = (n : Int) - m by omega, hy]
    simp only [ok_bind]
    exact ⟨z, h1, by rw [Nat.max_eq_right (by omega)]; exact h2⟩
  · subst h
    rw [if_neg (by omega), if_neg (by omega)]
    obtain ⟨z, h1, h2, -⟩ := iteF_rel hc had hbd (by rw [hbt.2, hat.2])
    rw [hat.1, hat.2] at h1
    exact ⟨z, h1, by rw [Nat.max_self]; exact h2⟩
  · rw [if_pos (by omega)]
    have hz := zext_rel hbd ((m : Int) - n)
    rw [C17_zext hbd.WF, if_neg (by omega)] at hz
    obtain ⟨y, hy, hyd⟩ := hz.ok_right
    have hyt := hyd.attrs rfl
    dsimp only at hyt hyd
    have hnn : n + ((m : Int) - n).toNat = m := by omega
    rw [hnn] at hyt hyd
    obtain ⟨z, h1, h2, -⟩ := iteF_rel hc had hyd (by rw [hat.2, hyt.2])
    rw [hat.1, hat.2] at h1
    rw [hy]
    simp only [ok_bind]
    exact ⟨z, h1, by rw [Nat.max_eq_left (by omega)]; exact h2⟩

/-- **C96** two bits give a `z3BitVector[1]`, where the concrete family gives a `Bit`. -/
theorem C96_bits {e : Env} {c t f : BoolE} {C T F : Bool} (hc : Z3.DenBit e c C) (ht : Z3.DenBit e t T)
    (hf : Z3.DenBit e f F) (i : Nat) :
    (∃ z, zIte c (.bit t) (.bit f) = .ok z ∧ Z3.Den e z ⟨.root .bv, 1, if (if C then T else F) then 1 else 0⟩) ∧
    ite C (.bit T) (.bit F) i = .ok (.bit (if C then T else F), i) := by
  constructor
  · obtain ⟨z, h1, h2⟩ := C96_bare hc (.bit ht) (.bit hf) trivial trivial Nat.one_pos Nat.one_pos nofun nofun rfl rfl
    refine ⟨z, h1, ?_⟩
    have e1 : (if C then wrap (bareWidth (.bit T)) (if T then 1 else 0) else wrap (bareWidth (.bit F)) (if F then 1 else 0)) =
        (if (if C then T else F) then (1 : Int) else 0) := by cases C <;> cases T <;> cases F <;> rfl
    rw [e1] at h2
    exact h2
  · cases C <;> cases T <;> cases F <;> rfl

/-- **C96** non-negative ints are represented exactly. -/
theorem C96_ints {e : Env} {c : BoolE} {C : Bool} (hc : Z3.DenBit e c C) {v w : Int} (hv : 0 ≤ v) (hw : 0 ≤ w) :
    ∃ z, zIte c (.int v) (.int w) = .ok z ∧
      Z3.Den e z ⟨.root .bv, max (max (pyBitLength v) 1) (max (pyBitLength w) 1), if C then v else w⟩ := by
  have key : ∀ v : Int, 0 ≤ v → wrap (bareWidth (.int v)) v = v := by
    intro v hv
    have h1 : v < 2 ^ pyBitLength v := by
      unfold pyBitLength
      split
      · omega
      · have := Nat.lt_log2_self (n := v.natAbs)
        have h3 : v = (v.natAbs : Int) := by omega
        rw [h3]
        exact_mod_cast this
    have h2 : (2 : Int) ^ pyBitLength v ≤ 2 ^ max (pyBitLength v) 1 := by
      exact_mod_cast Nat.pow_le_pow_right (by omega) (by omega)
    exact Int.emod_eq_of_lt hv (lt_of_lt_of_le h1 h2)
  obtain ⟨z, h1, h2⟩ := C96_bare (t := .int v) (f := .int w) hc .int .int trivial trivial
    (Nat.lt_of_lt_of_le Nat.one_pos (Nat.le_max_right _ _)) (Nat.lt_of_lt_of_le Nat.one_pos (Nat.le_max_right _ _))
    nofun nofun rfl rfl
  rw [key v hv, key w hw] at h2
  exact ⟨z, h1, h2⟩

/-- **C96** a vector as the condition: nonzero selects the first branch. -/
theorem C96_vector_condition {e : Env} {x t f : ZBV} {X T F : BVal} (hx : Z3.Den e x X) (ht : Z3.Den e t T)
    (hf : Z3.Den e f F) (hr : f.root = t.root) (hs : f.size = t.size) :
    ∃ z, x.ite (.bv t) (.bv f) = .ok z ∧ Z3.Den e z (if X.value ≠ 0 then T else F) := by
  have h := C92_bvne e x X (.int 0) (.int 0) hx .int trivial
  rw [C09_bvne] at h
  have hop : operand X.size (.int 0) = .ok 0 := by simp [operand, Obj.denotes, wrap]
  rw [hop] at h
  obtain ⟨c, h1, h2⟩ := h.ok_right
  obtain ⟨z, h3, h4, -⟩ := C96_select h2 ht hf hr hs 0
  refine ⟨z, by simp only [ZBV.ite, h1, ok_bind, h3], ?_⟩
  simpa using h4

/-- **C96 refuted**: `ite` of the z3 family is not that of the concrete one: bits become vectors, a branch of
another class raises, and a negative int loses its sign: `c.ite(-1, 5)` with true `c` is 1 at width 3, while
`x.ite(...)` of the same two ints written as `BitVector[3]` is 7. -/
theorem C96_refuted :
    (∃ (c : BoolE) (z : ZBV), zIte c (.bit c) (.bit c) = .ok z) ∧
    zIte (fun _ => true) (.bv (zSym .uint 4 'x')) (.bv (zSym .bv 4 'y')) = .error .typeError ∧
    (∃ w i, ite true (.bv ⟨.root .uint, 4, 9⟩) (.bv ⟨.root .bv, 4, 2⟩) 0 = .ok (w, i)) ∧
    (∃ z, zIte (fun _ => true) (.int (-1)) (.int 5) = .ok z ∧ Z3.Den zEnv9 z ⟨.root .bv, 3, 1⟩) ∧
    mkBV (.root .bv) 3 (.int (-1)) = .ok ⟨.root .bv, 3, 7⟩ := by
  refine ⟨?_, C96_classes _ (by decide), ?_, ?_, by decide⟩
  · obtain ⟨⟨z, hz, -⟩, -⟩ := C96_bits (e := zEnv9) (c := fun _ => true) (t := fun _ => true) (f := fun _ => true) rfl rfl rfl 0
    exact ⟨_, z, hz⟩
  · obtain ⟨k, i', h, -⟩ := C27_vec true (x := ⟨.root .uint, 4, 9⟩) (y := ⟨.root .bv, 4, 2⟩) (by decide) (by decide) rfl 0
    exact ⟨_, _, h⟩
  · obtain ⟨z, h1, h2⟩ := C96_bare (e := zEnv9) (c := fun _ => true) (t := .int (-1)) (f := .int 5) rfl .int .int trivial trivial
      (by decide) (by decide) nofun nofun rfl rfl
    exact ⟨z, h1, h2⟩

example : Z3.Den zEnv9 (zSym .sint 4 'x') ⟨.root .sint, 4, 9⟩ ∧ Z3.Den zEnv9 (zSym .sint 4 'y') ⟨.root .sint, 4, 2⟩ ∧
    (zSym .sint 4 'y').root = (zSym .sint 4 'x').root ∧
    ZObj.Fits (bareWidth (.seq [true, false])) (.seq [.bool true, .int 0]) := by
  refine ⟨⟨rfl, rfl, by decide, _, rfl, by decide⟩, ⟨rfl, rfl, by decide, _, rfl, by decide⟩, rfl, rfl, ?_⟩
  intro v hv
  simp at hv
  exact .inl hv

end HW
