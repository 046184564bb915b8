import Verif.Model.Circuit
import Mathlib.Data.List.Forall2

/-! Circuits run with two families whose methods are related. -/

namespace HW.Circuit
open HW

/-- Both return and the results are related, or both raise, related exceptions. -/
def RelP {α β : Type} (E : PyErr → PyErr → Prop) (R : α → β → Prop) : PyM α → PyM β → Prop
  | .ok a, .ok b => R a b
  | .error e, .error e' => E e e'
  | _, _ => False

theorem RelP.ok_left {E : PyErr → PyErr → Prop} {α β : Type} {R : α → β → Prop} {a : Except PyErr α} {b : Except PyErr β}
    (h : RelP E R a b) {x : α} (hx : a = .ok x) : ∃ y, b = .ok y ∧ R x y := by
  subst hx
  cases b with
  | error => exact h.elim
  | ok y => exact ⟨y, rfl, h⟩

theorem RelP.ok_right {E : PyErr → PyErr → Prop} {α β : Type} {R : α → β → Prop} {a : Except PyErr α} {b : Except PyErr β}
    (h : RelP E R a b) {y : β} (hy : b = .ok y) : ∃ x, a = .ok x ∧ R x y := by
  subst hy
  cases a with
  | error => exact h.elim
  | ok x => exact ⟨x, rfl, h⟩

theorem RelP.bind {α β α' β' : Type} {E : PyErr → PyErr → Prop} {R : α → β → Prop} {R' : α' → β' → Prop}
    {m : PyM α} {M : PyM β} {f : α → PyM α'} {F : β → PyM β'} (h : RelP E R m M)
    (hf : ∀ a b, R a b → RelP E R' (f a) (F b)) : RelP E R' (m >>= f) (M >>= F) := by
  cases m <;> cases M <;> simp only [RelP] at h
  · exact h
  · exact hf _ _ h

theorem RelP.mono {α β : Type} {E : PyErr → PyErr → Prop} {R R' : α → β → Prop} {m : PyM α} {M : PyM β}
    (h : RelP E R m M) (hf : ∀ a b, R a b → R' a b) : RelP E R' m M := by
  cases m <;> cases M <;> simp only [RelP] at h ⊢
  · exact h
  · exact hf _ _ h

section
variable {V W B C : Type} (RV : V → W → Prop) (RB : B → C → Prop)

inductive OpndRel : Opnd V B → Opnd W C → Prop
  | vec {x y} : RV x y → OpndRel (.vec x) (.vec y)
  | bit {x y} : RB x y → OpndRel (.bit x) (.bit y)
  | int {v} : OpndRel (.int v) (.int v)

inductive RegRel : Reg V B → Reg W C → Prop
  | vec {x y} : RV x y → RegRel (.vec x) (.vec y)
  | bit {x y} : RB x y → RegRel (.bit x) (.bit y)
end

/-- Every method of `F` is related to that of `G`, under the caller's `assert`. -/
structure Sim (F G : Family) (E : PyErr → PyErr → Prop) (RV : F.V → G.V → Prop) (RB : F.B → G.B → Prop) : Prop where
  refl : ∀ e, E e e
  size : ∀ {x y}, RV x y → F.size x = G.size y
  sameClass : ∀ {x y x' y'}, RV x y → RV x' y' → F.sameClass x x' = G.sameClass y y'
  const : ∀ r n v, 0 < n → RelP E RV (F.const r n v) (G.const r n v)
  un : ∀ op {x y}, RV x y → RelP E RV (F.un op x) (G.un op y)
  bin : ∀ op {x y o p}, RV x y → OpndRel RV RB o p → RelP E RV (F.bin op x o) (G.bin op y p)
  cmp : ∀ op {x y o p}, RV x y → OpndRel RV RB o p → RelP E RB (F.cmp op x o) (G.cmp op y p)
  rol : ∀ {x y} {k : Int}, RV x y → 0 ≤ k → k ≤ G.size y → RelP E RV (F.rol x k) (G.rol y k)
  ror : ∀ {x y} {k : Int}, RV x y → 0 ≤ k → k ≤ G.size y → RelP E RV (F.ror x k) (G.ror y k)
  zext : ∀ {x y k}, RV x y → RelP E RV (F.zext x k) (G.zext y k)
  sext : ∀ {x y k}, RV x y → k ≠ 0 → RelP E RV (F.sext x k) (G.sext y k)
  slice : ∀ {x y} {lo hi : Int}, RV x y → 0 ≤ lo → lo < hi → hi ≤ G.size y → RelP E RV (F.slice x lo hi) (G.slice y lo hi)
  index : ∀ {x y i}, RV x y → RelP E RB (F.index x i) (G.index y i)
  concat : ∀ {x y x' y'}, RV x y → RV x' y' → RelP E RV (F.concat x x') (G.concat y y')
  adc : ∀ {x y o p c d}, RV x y → OpndRel RV RB o p → OpndRel RV RB c d →
    RelP E (fun r s => RV r.1 s.1 ∧ RB r.2 s.2) (F.adc x o c) (G.adc y p d)
  signed : ∀ {x y}, RV x y → F.signed x = G.signed y
  opA : ∀ op {x y o p}, RV x y → OpndRel RV RB o p → fitsOp G y p = true → ¬ (G.signed y = true ∧ (op = .fdiv ∨ op = .mod)) →
    RelP E RV (F.opA op x o) (G.opA op y p)
  opC : ∀ op {x y o p}, RV x y → OpndRel RV RB o p → fitsOp G y p = true → RelP E RB (F.opC op x o) (G.opC op y p)
  bit : ∀ op {a b a' b'}, RB a b → RB a' b' → RelP E RB (F.bit op a a') (G.bit op b b')
  bitNot : ∀ {a b}, RB a b → RelP E RB (F.bitNot a) (G.bitNot b)
  mux : ∀ {c d x y x' y'}, RB c d → RV x y → RV x' y' → G.sameClass y y' = true →
    RelP E RV (F.mux c x x') (G.mux d y y')

namespace Sim
variable {F G : Family} {E : PyErr → PyErr → Prop} {RV : F.V → G.V → Prop} {RB : F.B → G.B → Prop}
  (H : Sim F G E RV RB) {s : List (Reg F.V F.B)} {t : List (Reg G.V G.B)} (h : List.Forall₂ (RegRel RV RB) s t)
include H

theorem check_rel {α β : Type} {R : α → β → Prop} {c d : Prop} [Decidable c] [Decidable d] {m : PyM α} {M : PyM β}
    (hc : c ↔ d) (hm : d → RelP E R m M) : RelP E R (check c >>= fun _ => m) (check d >>= fun _ => M) := by
  unfold check
  by_cases hd : d
  · rw [if_pos hd, if_pos (hc.2 hd)]; exact hm hd
  · rw [if_neg hd, if_neg (fun h => hd (hc.1 h))]; exact H.refl _

omit h in
theorem fits_rel {x : F.V} {y : G.V} {o : Opnd F.V F.B} {p : Opnd G.V G.B} (hx : RV x y) (ho : OpndRel RV RB o p) :
    fitsOp F x o = fitsOp G y p := by
  cases ho with
  | vec h => exact H.sameClass hx h
  | bit => rfl
  | int => rfl

include h

theorem read_rel (i : Nat) : RelP E (RegRel RV RB) (read F s i) (read G t i) := by
  unfold read
  have hl := h.length_eq
  by_cases hi : i < s.length
  · rw [List.getElem?_eq_getElem hi, List.getElem?_eq_getElem (hl ▸ hi)]
    exact h.get hi (hl ▸ hi)
  · rw [List.getElem?_eq_none (by omega), List.getElem?_eq_none (by omega)]
    exact H.refl _

theorem readV_rel (i : Nat) : RelP E RV (readV F s i) (readV G t i) := by
  refine (H.read_rel h i).bind fun a b hab => ?_
  cases hab with
  | vec hx => exact hx
  | bit => exact H.refl _

theorem readB_rel (i : Nat) : RelP E RB (readB F s i) (readB G t i) := by
  refine (H.read_rel h i).bind fun a b hab => ?_
  cases hab with
  | vec => exact H.refl _
  | bit hx => exact hx

theorem readArg_rel (a : Arg) : RelP E (OpndRel RV RB) (readArg F s a) (readArg G t a) := by
  cases a with
  | int v => exact .int
  | reg i =>
    refine (H.read_rel h i).bind fun a b hab => ?_
    cases hab with
    | vec hx => exact .vec hx
    | bit hx => exact .bit hx

omit H in
theorem putV_rel {x : F.V} {y : G.V} (hx : RV x y) : List.Forall₂ (RegRel RV RB) (putV F s x) (putV G t y) :=
  List.rel_append h (.cons (.vec hx) .nil)

omit H in
theorem putB_rel {x : F.B} {y : G.B} (hx : RB x y) : List.Forall₂ (RegRel RV RB) (putB F s x) (putB G t y) :=
  List.rel_append h (.cons (.bit hx) .nil)

theorem step_rel (i : Instr) : RelP E (List.Forall₂ (RegRel RV RB)) (step F s i) (step G t i) := by
  have okV : ∀ {m : PyM F.V} {M : PyM G.V}, RelP E RV m M →
      RelP E (List.Forall₂ (RegRel RV RB)) (do return putV F s (← m)) (do return putV G t (← M)) :=
    fun hm => hm.bind fun a b hab => putV_rel h hab
  have okB : ∀ {m : PyM F.B} {M : PyM G.B}, RelP E RB m M →
      RelP E (List.Forall₂ (RegRel RV RB)) (do return putB F s (← m)) (do return putB G t (← M)) :=
    fun hm => hm.bind fun a b hab => putB_rel h hab
  cases i with
  | const r n v => exact H.check_rel Iff.rfl fun hn => okV (H.const r n v hn)
  | un op x => exact (H.readV_rel h x).bind fun a b hx => okV (H.un op hx)
  | bin op x y =>
    exact (H.readV_rel h x).bind fun a b hx => (H.readArg_rel h y).bind fun o p ho => okV (H.bin op hx ho)
  | cmp op x y =>
    exact (H.readV_rel h x).bind fun a b hx => (H.readArg_rel h y).bind fun o p ho => okB (H.cmp op hx ho)
  | rol x k =>
    exact (H.readV_rel h x).bind fun a b hx => H.check_rel (by rw [H.size hx]) fun hc => okV (H.rol hx hc.1 hc.2)
  | ror x k =>
    exact (H.readV_rel h x).bind fun a b hx => H.check_rel (by rw [H.size hx]) fun hc => okV (H.ror hx hc.1 hc.2)
  | zext x k => exact (H.readV_rel h x).bind fun a b hx => okV (H.zext hx)
  | sext x k =>
    exact (H.readV_rel h x).bind fun a b hx => H.check_rel Iff.rfl fun hc => okV (H.sext hx hc)
  | slice x lo hi =>
    exact (H.readV_rel h x).bind fun a b hx =>
      H.check_rel (by rw [H.size hx]) fun hc => okV (H.slice hx hc.1 hc.2.1 hc.2.2)
  | index x i => exact (H.readV_rel h x).bind fun a b hx => okB (H.index hx)
  | concat x y =>
    exact (H.readV_rel h x).bind fun a b hx => (H.readV_rel h y).bind fun o p ho => okV (H.concat hx ho)
  | adc x y c =>
    refine (H.readV_rel h x).bind fun a b hx => (H.readArg_rel h y).bind fun o p ho =>
      (H.readArg_rel h c).bind fun c d hc => (H.adc hx ho hc).bind fun r r' hr => ?_
    exact putB_rel (putV_rel h hr.1) hr.2
  | opA op x y =>
    exact (H.readV_rel h x).bind fun a b hx => (H.readArg_rel h y).bind fun o p ho =>
      H.check_rel (by rw [H.fits_rel hx ho, H.signed hx]) fun hc => okV (H.opA op hx ho hc.1 hc.2)
  | opC op x y =>
    exact (H.readV_rel h x).bind fun a b hx => (H.readArg_rel h y).bind fun o p ho =>
      H.check_rel (by rw [H.fits_rel hx ho]) fun hc => okB (H.opC op hx ho hc)
  | bit op a b =>
    exact (H.readB_rel h a).bind fun a b hx => (H.readB_rel h _).bind fun o p ho => okB (H.bit op hx ho)
  | bitNot a => exact (H.readB_rel h a).bind fun a b hx => okB (H.bitNot hx)
  | mux c t f =>
    exact (H.readB_rel h c).bind fun c d hc => (H.readV_rel h t).bind fun a b hx =>
      (H.readV_rel h f).bind fun o p ho => H.check_rel (by rw [H.sameClass hx ho]) fun hs => okV (H.mux hc hx ho hs)

omit h in
/-- A circuit is related to itself. -/
theorem run_rel (p : List Instr) : ∀ {s : List (Reg F.V F.B)} {t : List (Reg G.V G.B)},
    List.Forall₂ (RegRel RV RB) s t → RelP E (List.Forall₂ (RegRel RV RB)) (run F s p) (run G t p) := by
  induction p with
  | nil => intro s t h; exact h
  | cons i p ih => intro s t h; exact (H.step_rel h i).bind fun a b hab => ih hab

end Sim
end HW.Circuit
