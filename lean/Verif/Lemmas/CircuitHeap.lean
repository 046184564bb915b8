import Verif.Model.CircuitHeap
import Verif.Lemmas.CircuitFamilies

/-! Circuits with assignments, run with two related families. -/

namespace HW.Circuit
open HW

/-- The same object of related values. -/
def ObjRel {V W : Type} (RV : V → W → Prop) (x : Nat × V) (y : Nat × W) : Prop := x.1 = y.1 ∧ RV x.2 y.2

structure HSim (F G : HFamily) (E : PyErr → PyErr → Prop) (RV : F.V → G.V → Prop) (RB : F.B → G.B → Prop) : Prop
    extends Sim F.toFamily G.toFamily E RV RB where
  setitem : ∀ {x y i o p}, RV x y → OpndRel RV RB o p → RelP E RV (F.setitem x i o) (G.setitem y i p)

theorem deref_rel {V W B C : Type} {RV : V → W → Prop} {RB : B → C → Prop} {s : List (HReg V B)} {t : List (HReg W C)}
    (h : List.Forall₂ (RegRel (ObjRel RV) RB) s t) : List.Forall₂ (RegRel RV RB) (deref s) (deref t) := by
  induction h with
  | nil => exact .nil
  | cons hx _ ih =>
    refine .cons ?_ ih
    cases hx with
    | vec h => exact .vec h.2
    | bit h => exact .bit h

theorem tag_rel {V W B C : Type} {RV : V → W → Prop} {RB : B → C → Prop} {s : List (Reg V B)} {t : List (Reg W C)}
    (h : List.Forall₂ (RegRel RV RB) s t) (n : Nat) : List.Forall₂ (RegRel (ObjRel RV) RB) (tag n s) (tag n t) := by
  induction h generalizing n with
  | nil => exact .nil
  | cons hx _ ih =>
    cases hx with
    | vec h => exact .cons (.vec ⟨rfl, h⟩) (ih _)
    | bit h => exact .cons (.bit h) (ih _)

theorem assign_rel {V W B C : Type} {RV : V → W → Prop} {RB : B → C → Prop} {s : List (HReg V B)} {t : List (HReg W C)}
    (h : List.Forall₂ (RegRel (ObjRel RV) RB) s t) (a : Nat) {x : V} {y : W} (hxy : RV x y) :
    List.Forall₂ (RegRel (ObjRel RV) RB) (s.map (HReg.assign a x)) (t.map (HReg.assign a y)) := by
  induction h with
  | nil => exact .nil
  | cons hx _ ih =>
    refine .cons ?_ ih
    cases hx with
    | @vec u v h =>
      unfold HReg.assign
      dsimp only
      rw [h.1]
      by_cases hv : v.1 = a
      · rw [if_pos hv, if_pos hv]; exact .vec ⟨rfl, hxy⟩
      · rw [if_neg hv, if_neg hv]; exact .vec h
    | bit h => exact .bit h

namespace HSim
variable {F G : HFamily} {E : PyErr → PyErr → Prop} {RV : F.V → G.V → Prop} {RB : F.B → G.B → Prop}
  (H : HSim F G E RV RB)

theorem get_rel {s : List (HReg F.V F.B)} {t : List (HReg G.V G.B)} (h : List.Forall₂ (RegRel (ObjRel RV) RB) s t) (x : Nat) :
    (s[x]? = none ∧ t[x]? = none) ∨ ∃ a b, s[x]? = some a ∧ t[x]? = some b ∧ RegRel (ObjRel RV) RB a b := by
  have hl := h.length_eq
  by_cases hi : x < s.length
  · exact .inr ⟨_, _, List.getElem?_eq_getElem hi, List.getElem?_eq_getElem (hl ▸ hi), h.get hi (hl ▸ hi)⟩
  · exact .inl ⟨List.getElem?_eq_none (by omega), List.getElem?_eq_none (by omega)⟩

include H

theorem hstep_rel {s : List (HReg F.V F.B)} {t : List (HReg G.V G.B)} (h : List.Forall₂ (RegRel (ObjRel RV) RB) s t)
    (i : HInstr) : RelP E (List.Forall₂ (RegRel (ObjRel RV) RB)) (hstep F (fresh F) s i) (hstep G (fresh G) t i) := by
  have hd := deref_rel h
  cases i with
  | op i =>
    refine (H.toSim.step_rel hd i).bind fun u v huv => ?_
    rw [h.length_eq]
    exact List.rel_append h (tag_rel (List.forall₂_drop _ huv) _)
  | name x =>
    simp only [hstep]
    rcases get_rel h x with ⟨h1, h2⟩ | ⟨a, b, h1, h2, h3⟩
    · rw [h1, h2]
      exact H.refl _
    · rw [h1, h2]
      exact List.rel_append h (.cons h3 .nil)
  | set x i v =>
    refine (H.toSim.readArg_rel hd v).bind fun o p ho => ?_
    rcases get_rel h x with ⟨h1, h2⟩ | ⟨a, b, h1, h2, h3⟩
    · rw [h1, h2]
      exact H.refl _
    · rw [h1, h2]
      cases h3 with
      | @vec u v h3 =>
        obtain ⟨a, u⟩ := u
        obtain ⟨b, v⟩ := v
        obtain ⟨rfl, h3⟩ := h3
        exact (H.setitem h3 ho).bind fun x y hxy => assign_rel h a hxy
      | bit => exact H.refl _

theorem hrun_rel (p : List HInstr) : ∀ {s : List (HReg F.V F.B)} {t : List (HReg G.V G.B)},
    List.Forall₂ (RegRel (ObjRel RV) RB) s t →
    RelP E (List.Forall₂ (RegRel (ObjRel RV) RB)) (hrun F (fresh F) s p) (hrun G (fresh G) t p) := by
  induction p with
  | nil => intro s t h; exact h
  | cons i p ih => intro s t h; exact (H.hstep_rel h i).bind fun a b hab => ih hab

end HSim

theorem setitem_inv {S : Smt.Simplifier} {x y : Smt.SBV} {i : Int} {o : Smt.SObj} (h : x.setitem S i o = .ok y) :
    y.kind = x.kind ∧ y.size = x.size := by
  unfold Smt.SBV.setitem at h
  split at h
  · cases h
  · dsimp only at h
    generalize (if i < 0 then (x.size : Int) + i else i) = j at h
    split at h
    · cases h
    · obtain ⟨_, -, h⟩ := bind_ok h
      obtain ⟨_, -, h⟩ := bind_ok h
      obtain ⟨_, -, h⟩ := bind_ok h
      obtain ⟨_, -, h⟩ := bind_ok h
      obtain ⟨_, -, h⟩ := bind_ok h
      obtain ⟨_, -, h⟩ := bind_ok h
      obtain ⟨_, -, h⟩ := bind_ok h
      obtain ⟨_, -, h⟩ := bind_ok h
      cases h
      exact ⟨rfl, rfl⟩

theorem smt_hsim (e : Smt.Env) (S : Smt.Simplifier) : HSim (smtH S) concreteH (· = ·) (SVec e) (Smt.DenBit e) where
  toSim := smt_sim e S
  setitem := by
    intro x X i o p hx ho
    obtain ⟨⟨r, hr⟩, hn⟩ := hx.2
    refine toVec (r := r) (C36_setitem S hx.1 i (sOpnd ho).1) fun y hy => ?_
    obtain ⟨h1, h2⟩ := setitem_inv (S := S) hy
    exact ⟨h1.trans hr, by omega⟩

theorem z3_hsim (e : Z3.Env) : HSim z3H concreteH ZErr (Z3.Den e) (Z3.DenBit e) where
  toSim := z3_sim e
  setitem hx ho := z3P (C94_setitem hx _ (zOpnd ho).1)

end HW.Circuit
