import Verif.Model.Adt.Equal
import Verif.Lemmas.CircuitFamilies

/-! `==` of ADT values over two families whose methods are related. -/

namespace HW.Adt
open HW Circuit

section
variable {V W B C : Type} (RV : V → W → Prop) (RB : B → C → Prop)

mutual
/-- The same value, with related leaves. -/
def SRel : SVal V B → SVal W C → Prop
  | .vec i x, .vec j y => i = j ∧ RV x y
  | .bit i a, .bit j b => i = j ∧ RB a b
  | .enum i e k, .enum j e' k' => i = j ∧ e = e' ∧ k = k'
  | .tup i T a vs, .tup j T' a' ws => i = j ∧ T = T' ∧ a = a' ∧ SRels vs ws
  | .sum i T v, .sum j T' w => i = j ∧ T = T' ∧ SRel v w
  | .tag i T k v, .tag j T' k' w => i = j ∧ T = T' ∧ k = k' ∧ SRel v w
  | _, _ => False
def SRels : List (SVal V B) → List (SVal W C) → Prop
  | [], [] => True
  | v :: vs, w :: ws => SRel v w ∧ SRels vs ws
  | _, _ => False
end

variable {RV RB} in
theorem SRels.length : ∀ {vs : List (SVal V B)} {ws : List (SVal W C)}, SRels RV RB vs ws → vs.length = ws.length
  | [], [], _ => rfl
  | _ :: _, _ :: _, h => congrArg (· + 1) (SRels.length (by rw [SRels] at h; exact h.2))
  | [], _ :: _, h => (by simp [SRels] at h)
  | _ :: _, [], h => (by simp [SRels] at h)

/-- The same Python bool, or related bits. -/
inductive EResRel : ERes B → ERes C → Prop
  | py {b} : EResRel (.py b) (.py b)
  | bit {a b} : RB a b → EResRel (.bit a) (.bit b)
end

section
variable {V B : Type} (al : Bool)

mutual
/-- No bit is compared with a vector, and a leaf is compared with an ADT value only if `al`. -/
def Comp : SVal V B → SVal V B → Prop
  | .vec _ _, .vec _ _ => True
  | .bit _ _, .bit _ _ => True
  | .vec _ _, .bit _ _ => False
  | .bit _ _, .vec _ _ => False
  | .vec _ _, _ => al = true
  | .bit _ _, _ => al = true
  | _, .vec _ _ => al = true
  | _, .bit _ _ => al = true
  | .tup _ _ _ vs, .tup _ _ _ ws => Comps vs ws
  | .sum _ _ v, .sum _ _ w => Comp v w
  | .sum _ _ v, .tag _ _ _ w => Comp v w
  | .tag _ _ _ v, .sum _ _ w => Comp v w
  | .tag _ _ i v, .tag _ _ j w => i = j → Comp v w
  | _, _ => True
def Comps : List (SVal V B) → List (SVal V B) → Prop
  | v :: vs, w :: ws => Comp v w ∧ Comps vs ws
  | _, _ => True
end
end

/-- A tuple or product occurs in the value. -/
def SVal.hasTup {V B : Type} : SVal V B → Bool
  | .tup _ _ _ _ => true
  | .sum _ _ v => v.hasTup
  | .tag _ _ _ v => v.hasTup
  | _ => false

theorem SRel.id {V W B C : Type} {RV : V → W → Prop} {RB : B → C → Prop} {x : SVal V B} {X : SVal W C}
    (h : SRel RV RB x X) : x.id = X.id := by
  cases x <;> cases X <;> simp only [SRel] at h <;> exact h.1

theorem SRel.cls {V W B C : Type} {RV : V → W → Prop} {RB : B → C → Prop} {x : SVal V B} {X : SVal W C}
    (h : SRel RV RB x X) : x.cls? = X.cls? := by
  cases x <;> cases X <;> simp only [SRel] at h
  case vec => rfl
  case bit => rfl
  case enum => exact congrArg (fun e => some (Ty.enum e)) h.2.1
  case tup => exact congrArg some h.2.1
  case sum => exact congrArg some h.2.1
  case tag => exact congrArg some h.2.1

section
variable {F G : Family} {E : PyErr → PyErr → Prop} {RV : F.V → G.V → Prop} {RB : F.B → G.B → Prop}
  (H : Sim F G E RV RB) (HC : ∀ {x y X Y}, RV x X → RV y Y → RelP E RB (F.opC .eq x (.vec y)) (G.opC .eq X (.vec Y)))
  {T : Truth F} {U : Truth G} {L : LeafEq F} {M : LeafEq G} (W : World) {al : Bool}
include HC in
theorem leafVV {x y : F.V} {X Y : G.V} (hx : RV x X) (hy : RV y Y) (f : Bool) :
    RelP E (EResRel RB) (leafEqF F L f (.vec x) (.vec y)) (leafEqF G M f (.vec X) (.vec Y)) := by
  cases f
  · exact (HC hx hy).bind fun _ _ h => .bit h
  · exact (HC hy hx).bind fun _ _ h => .bit h

include H in
theorem leafBB {x y : F.B} {X Y : G.B} (hx : RB x X) (hy : RB y Y) (f : Bool) :
    RelP E (EResRel RB) (leafEqF F L f (.bit x) (.bit y)) (leafEqF G M f (.bit X) (.bit Y)) := by
  cases f
  · exact (H.bit .eq hx hy).bind fun _ _ h => .bit h
  · exact (H.bit .eq hy hx).bind fun _ _ h => .bit h

variable (ha : al = true → RelP E (· = ·) L.alien M.alien)
include ha in
theorem alien_rel (h : al = true) : RelP E (EResRel RB) (do return .py (← L.alien)) (do return .py (← M.alien)) :=
  (ha h).bind fun _ _ h => h ▸ .py

include H HC ha
mutual
/-- Either a truth value was asked for that there is not, inside a tuple, or the results are related. -/
theorem seqv_rel {x y : SVal F.V F.B} {X Y : SVal G.V G.B} (hT : x.hasTup = true → ∀ b, T.bit b = .error .typeError)
    (f : Bool) (hx : SRel RV RB x X) (hy : SRel RV RB y Y) (hc : Comp al X Y) :
    (x.hasTup = true ∧ SVal.eqv F T L W f x y = .error .typeError) ∨
      RelP E (EResRel RB) (SVal.eqv F T L W f x y) (SVal.eqv G U M W f X Y) := by
  match x, X, hx with
  | .vec _ x, .vec _ X, hx =>
    right
    match y, Y, hy with
    | .vec _ y, .vec _ Y, hy => exact leafVV HC hx.2 hy.2 f
    | .bit _ _, .bit _ _, _ => exact hc.elim
    | .enum .., .enum .., _ => exact alien_rel ha hc
    | .tup .., .tup .., _ => exact alien_rel ha hc
    | .sum .., .sum .., _ => exact alien_rel ha hc
    | .tag .., .tag .., _ => exact alien_rel ha hc
  | .bit _ x, .bit _ X, hx =>
    right
    match y, Y, hy with
    | .vec _ y, .vec _ Y, hy => exact hc.elim
    | .bit _ y, .bit _ Y, hy => exact leafBB H hx.2 hy.2 f
    | .enum .., .enum .., _ => exact alien_rel ha hc
    | .tup .., .tup .., _ => exact alien_rel ha hc
    | .sum .., .sum .., _ => exact alien_rel ha hc
    | .tag .., .tag .., _ => exact alien_rel ha hc
  | .enum _ e k, .enum _ _ _, hx =>
    right
    obtain ⟨-, rfl, rfl⟩ := hx
    match y, Y, hy with
    | .vec _ _, .vec _ _, hy => exact alien_rel ha hc
    | .bit _ _, .bit _ _, hy => exact alien_rel ha hc
    | .enum _ e' k', .enum _ _ _, hy =>
      obtain ⟨-, rfl, rfl⟩ := hy
      simp only [SVal.eqv]
      cases decides W f (.enum e) (.enum e') <;> exact .py
    | .tup .., .tup .., _ => exact .py
    | .sum .., .sum .., _ => exact .py
    | .tag .., .tag .., _ => exact .py
  | .tup _ T1 a vs, .tup _ _ _ Vs, hx =>
    obtain ⟨-, rfl, rfl, hx⟩ := hx
    match y, Y, hy with
    | .vec _ _, .vec _ _, hy => exact .inr (alien_rel ha hc)
    | .bit _ _, .bit _ _, hy => exact .inr (alien_rel ha hc)
    | .enum .., .enum .., _ => exact .inr .py
    | .tup _ T2 b ws, .tup _ _ _ Ws, hy =>
      obtain ⟨-, rfl, rfl, hy⟩ := hy
      simp only [SVal.eqv]
      cases decides W f T1 T2 with
      | none => exact .inr .py
      | some f' =>
        dsimp only
        by_cases hab : a = b
        · rw [if_pos hab, if_pos hab, SRels.length hx, SRels.length hy]
          by_cases hl : a = true ∧ Vs.length ≠ Ws.length
          · rw [if_pos hl, if_pos hl]; exact .inr .py
          · rw [if_neg hl, if_neg hl]
            rcases seqvs_rel (hT rfl) f' hx hy hc with h | h
            · exact .inl ⟨rfl, by rw [h]; rfl⟩
            · exact .inr (h.bind fun _ _ h => h ▸ .py)
        · rw [if_neg hab, if_neg hab]; exact .inr .py
    | .sum .., .sum .., _ => exact .inr .py
    | .tag .., .tag .., _ => exact .inr .py
  | .sum _ T1 v, .sum _ _ V, hx =>
    obtain ⟨-, rfl, hx⟩ := hx
    match y, Y, hy with
    | .vec _ _, .vec _ _, hy => exact .inr (alien_rel ha hc)
    | .bit _ _, .bit _ _, hy => exact .inr (alien_rel ha hc)
    | .enum .., .enum .., _ => exact .inr .py
    | .tup .., .tup .., _ => exact .inr .py
    | .sum _ T2 w, .sum _ _ _, hy =>
      obtain ⟨-, rfl, hy⟩ := hy
      simp only [SVal.eqv]
      cases decides W f T1 T2 with
      | none => exact .inr .py
      | some f' => exact seqv_rel (x := v) hT f' hx hy hc
    | .tag _ T2 _ w, .tag _ _ _ _, hy =>
      obtain ⟨-, rfl, rfl, hy⟩ := hy
      simp only [SVal.eqv]
      cases decides W f T1 T2 with
      | none => exact .inr .py
      | some f' => cases f' with
        | true => exact .inr .py
        | false => exact seqv_rel (x := v) hT false hx hy hc
  | .tag _ T1 i v, .tag _ _ _ V, hx =>
    obtain ⟨-, rfl, rfl, hx⟩ := hx
    match y, Y, hy with
    | .vec _ _, .vec _ _, hy => exact .inr (alien_rel ha hc)
    | .bit _ _, .bit _ _, hy => exact .inr (alien_rel ha hc)
    | .enum .., .enum .., _ => exact .inr .py
    | .tup .., .tup .., _ => exact .inr .py
    | .sum _ T2 w, .sum _ _ _, hy =>
      obtain ⟨-, rfl, hy⟩ := hy
      simp only [SVal.eqv]
      cases decides W f T1 T2 with
      | none => exact .inr .py
      | some f' => cases f' with
        | false => exact .inr .py
        | true => exact seqv_rel (x := v) hT true hx hy hc
    | .tag _ T2 j w, .tag _ _ _ _, hy =>
      obtain ⟨-, rfl, rfl, hy⟩ := hy
      simp only [SVal.eqv]
      cases decides W f T1 T2 with
      | none => exact .inr .py
      | some f' =>
        dsimp only
        by_cases hij : i = j
        · rw [if_pos hij, if_pos hij]; exact seqv_rel (x := v) hT f' hx hy (hc hij)
        · rw [if_neg hij, if_neg hij]; exact .inr .py
theorem seqvs_rel {xs ys : List (SVal F.V F.B)} {Xs Ys : List (SVal G.V G.B)} (hT : ∀ b, T.bit b = .error .typeError)
    (f : Bool) (hx : SRels RV RB xs Xs) (hy : SRels RV RB ys Ys) (hc : Comps al Xs Ys) :
    SVal.eqvs F T L W f xs ys = .error .typeError ∨
      RelP E (· = ·) (SVal.eqvs F T L W f xs ys) (SVal.eqvs G U M W f Xs Ys) := by
  match xs, Xs, hx, ys, Ys, hy with
  | [], [], _, [], [], _ => exact .inr rfl
  | [], [], _, _ :: _, _ :: _, _ => exact .inr rfl
  | _ :: _, _ :: _, _, [], [], _ => exact .inr rfl
  | x :: xs, X :: Xs, hx, y :: ys, Y :: Ys, hy =>
    have ih := seqvs_rel hT f hx.2 hy.2 hc.2
    simp only [SVal.eqvs]
    by_cases hi : x.id = y.id
    · rw [if_pos hi, if_pos (hx.1.id ▸ hy.1.id ▸ hi)]; exact ih
    · rw [if_neg hi, if_neg (hx.1.id ▸ hy.1.id ▸ hi)]
      rcases seqv_rel (x := x) (fun _ => hT) f hx.1 hy.1 hc.1 with ⟨-, h⟩ | h
      · left; rw [h]; rfl
      · revert h
        cases SVal.eqv F T L W f x y with
        | error e => cases SVal.eqv G U M W f X Y with
          | error e' => exact fun h => .inr h
          | ok => exact fun h => h.elim
        | ok r => cases SVal.eqv G U M W f X Y with
          | error e' => exact fun h => h.elim
          | ok r' =>
            intro h
            cases h with
            | @py b =>
              cases b with
              | false => exact .inr rfl
              | true => exact ih
            | bit h => left; show (T.bit _ >>= _) = _; rw [hT]; rfl
end
end

end HW.Adt
