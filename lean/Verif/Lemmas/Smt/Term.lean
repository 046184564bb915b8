import Verif.Model.Smt.Term
import Verif.Lemmas.Methods

/-! Sorts and values of SMT terms; `BitVec` operations as integer operations. -/

namespace HW.Smt
open HW.Spec

theorem UOp.eval_ty {op : UOp} {v r : Val} (h : op.eval v = some r) : op.ty? v.ty = some r.ty := by
  cases op <;> cases v <;>
    first
    | (simp [UOp.eval] at h; done)
    | (simp only [UOp.eval, Option.some.injEq] at h; subst h; rfl)
    | (simp only [UOp.eval] at h; split at h
       · rename_i hc; cases h; simp [UOp.ty?, Val.ty, hc]
       · cases h)

theorem UOp.ty_eval {op : UOp} {v : Val} {τ : Ty} (h : op.ty? v.ty = some τ) :
    ∃ r, op.eval v = some r ∧ r.ty = τ := by
  cases op <;> cases v <;>
    first
    | (simp [UOp.ty?, Val.ty] at h; done)
    | (simp only [UOp.ty?, Val.ty, Option.some.injEq] at h; subst h; exact ⟨_, rfl, rfl⟩)
    | (simp only [UOp.ty?, Val.ty] at h; split at h
       · rename_i hc; cases h; simp [UOp.eval, Val.ty, hc]
       · cases h)

theorem BOp.eval_ty {op : BOp} {a b r : Val} (h : op.eval a b = some r) : op.ty? a.ty b.ty = some r.ty := by
  cases a <;> cases b <;> simp only [BOp.eval] at h <;> try (cases h)
  · cases op <;> simp at h <;> subst h <;> rfl
  · cases op <;> simp at h <;> subst h <;> rfl
  · rename_i w x w' y
    by_cases hw : w' = w
    · subst hw
      cases op <;> simp [BOp.bv?, BOp.rel?] at h <;> subst h <;> simp [BOp.ty?, Val.ty]
    · cases op <;> simp [hw] at h
      subst h; simp [BOp.ty?, Val.ty]

theorem BOp.ty_eval {op : BOp} {a b : Val} {τ : Ty} (h : op.ty? a.ty b.ty = some τ) :
    ∃ r, op.eval a b = some r ∧ r.ty = τ := by
  cases a with
  | bool x => cases b <;> cases op <;> simp [BOp.ty?, Val.ty] at h <;> subst h <;> exact ⟨_, rfl, rfl⟩
  | int x => cases b <;> cases op <;> simp [BOp.ty?, Val.ty] at h <;> subst h <;> exact ⟨_, rfl, rfl⟩
  | bv w x =>
    cases b with
    | bool y => cases op <;> simp [BOp.ty?, Val.ty] at h
    | int y => cases op <;> simp [BOp.ty?, Val.ty] at h
    | bv w' y =>
      by_cases hw : w = w'
      · subst hw
        cases op <;> simp [BOp.ty?, Val.ty] at h <;> subst h <;>
          simp [BOp.eval, BOp.bv?, BOp.rel?, Val.ty]
      · have hw' : ¬ w' = w := fun h => hw h.symm
        cases op <;> simp [BOp.ty?, Val.ty, hw] at h
        subst h; simp [BOp.eval, Val.ty]

theorem Env.get_ty (e : Env) (n : Name) (τ : Ty) : (e.get n τ).ty = τ := by cases τ <;> rfl

theorem eval_ty {e : Env} : ∀ {t : Term} {v : Val}, t.eval e = some v → t.ty? = some v.ty
  | .sym n τ, v, h => by simp only [Term.eval, Option.some.injEq] at h; subst h; simp [Term.ty?, Env.get_ty]
  | .boolC b, v, h => by simp only [Term.eval, Option.some.injEq] at h; subst h; rfl
  | .intC b, v, h => by simp only [Term.eval, Option.some.injEq] at h; subst h; rfl
  | .bvC x w, v, h => by
    simp only [Term.eval] at h
    split at h <;> cases h
    simp [Term.ty?, *, Val.ty]
  | .un op t, v, h => by
    simp only [Term.eval, Option.bind_eq_some_iff] at h
    obtain ⟨a, ha, hv⟩ := h
    simp only [Term.ty?, eval_ty ha, Option.bind_some, UOp.eval_ty hv]
  | .bin op a b, v, h => by
    simp only [Term.eval, Option.bind_eq_some_iff] at h
    obtain ⟨x, hx, y, hy, hv⟩ := h
    simp only [Term.ty?, eval_ty hx, eval_ty hy, Option.bind_some, BOp.eval_ty hv]
  | .ite c t f, v, h => by
    simp only [Term.eval] at h
    split at h
    · rename_i b x y hc hx hy
      split at h
      · rename_i hxy
        have hb : (Val.bool b).ty = .bool := rfl
        simp only [Term.ty?, eval_ty hc, eval_ty hx, eval_ty hy, hb]
        cases h
        cases b <;> simp [hxy]
      · cases h
    · cases h

theorem ty_eval (e : Env) : ∀ {t : Term} {τ : Ty}, t.ty? = some τ → ∃ v, t.eval e = some v ∧ v.ty = τ
  | .sym n τ, _, h => by simp only [Term.ty?, Option.some.injEq] at h; subst h; exact ⟨_, rfl, Env.get_ty _ _ _⟩
  | .boolC b, _, h => by simp only [Term.ty?, Option.some.injEq] at h; subst h; exact ⟨_, rfl, rfl⟩
  | .intC b, _, h => by simp only [Term.ty?, Option.some.injEq] at h; subst h; exact ⟨_, rfl, rfl⟩
  | .bvC x w, τ, h => by
    simp only [Term.ty?] at h
    split at h <;> cases h
    exact ⟨_, by simp [Term.eval, *]; rfl, rfl⟩
  | .un op t, τ, h => by
    simp only [Term.ty?, Option.bind_eq_some_iff] at h
    obtain ⟨a, ha, hv⟩ := h
    obtain ⟨v, hv1, rfl⟩ := ty_eval e ha
    obtain ⟨r, hr, hr'⟩ := UOp.ty_eval hv
    exact ⟨r, by simp [Term.eval, hv1, hr], hr'⟩
  | .bin op a b, τ, h => by
    simp only [Term.ty?, Option.bind_eq_some_iff] at h
    obtain ⟨x, hx, y, hy, hv⟩ := h
    obtain ⟨v, hv1, rfl⟩ := ty_eval e hx
    obtain ⟨w, hw1, rfl⟩ := ty_eval e hy
    obtain ⟨r, hr, hr'⟩ := BOp.ty_eval hv
    exact ⟨r, by simp [Term.eval, hv1, hw1, hr], hr'⟩
  | .ite c t f, τ, h => by
    simp only [Term.ty?] at h
    split at h
    · rename_i x y hc hx hy
      split at h
      · rename_i hxy
        cases h
        obtain ⟨vc, hc1, hc2⟩ := ty_eval e hc
        obtain ⟨vx, hx1, rfl⟩ := ty_eval e hx
        obtain ⟨vy, hy1, rfl⟩ := ty_eval e hy
        cases vc with
        | bool b =>
          refine ⟨if b then vx else vy, by simp [Term.eval, hc1, hx1, hy1, hxy], ?_⟩
          cases b <;> simp [hxy]
        | int _ => cases hc2
        | bv _ _ => cases hc2
      · cases h
    · cases h

theorem node_ok {e : Env} {t : Term} {v : Val} (h : t.eval e = some v) : node t = .ok t := by
  simp [node, eval_ty h]

/-! ### vectors as integers -/

/-- Unsigned reading. -/
def toI {w : Nat} (x : BitVec w) : Int := x.toNat

theorem toI_bounds {w : Nat} (x : BitVec w) : 0 ≤ toI x ∧ toI x < 2 ^ w := by
  unfold toI
  have := x.isLt
  exact ⟨by omega, by exact_mod_cast this⟩

theorem toI_mod {w : Nat} (x : BitVec w) : toI x % 2 ^ w = toI x :=
  Int.emod_eq_of_lt (toI_bounds x).1 (toI_bounds x).2

theorem toI_inj {w : Nat} {x y : BitVec w} : toI x = toI y ↔ x = y := by
  unfold toI
  rw [Int.natCast_inj, BitVec.toNat_inj]

theorem toI_cast {w w' : Nat} (h : w = w') (x : BitVec w) : toI (h ▸ x : BitVec w') = toI x := by
  subst h; rfl

theorem ibit_toI {w : Nat} (x : BitVec w) (i : Nat) : ibit (toI x) i = x.toNat.testBit i :=
  ibit_ofNat _ _

theorem toI_ofNat {w v : Nat} (h : v < 2 ^ w) : toI (BitVec.ofNat w v) = v := by
  unfold toI; rw [BitVec.toNat_ofNat, Nat.mod_eq_of_lt h]

theorem toInt_signed {w : Nat} (x : BitVec w) : x.toInt = signed w (toI x) := by
  rw [BitVec.toInt_eq_toNat_cond, signed, toI]
  have : (2 * (x.toNat : Int) < 2 ^ w) ↔ (2 * x.toNat < 2 ^ w) := by exact_mod_cast Iff.rfl
  simp only [this]
  split <;> simp

theorem toI_ofInt {w : Nat} (v : Int) : toI (BitVec.ofInt w v) = v % 2 ^ w := by
  unfold toI
  rw [BitVec.toNat_ofInt]
  rw [Int.toNat_of_nonneg (Int.emod_nonneg _ (by have := two_pow_pos w; push_cast; omega))]
  push_cast; rfl

theorem toI_of_toInt {w : Nat} (x : BitVec w) : toI x = x.toInt % 2 ^ w := by
  rw [← toI_ofInt, BitVec.ofInt_toInt]

theorem toI_and {w : Nat} (x y : BitVec w) : toI (x &&& y) = pyAnd (toI x) (toI y) % 2 ^ w := by
  apply ibit_ext; intro i
  rw [ibit_emod, ibit_pyAnd, ibit_toI, ibit_toI, ibit_toI, BitVec.toNat_and, Nat.testBit_and]
  by_cases h : i < w
  · simp [h]
  · simp [h, BitVec.testBit_toNat, BitVec.getLsbD_of_ge x i (by omega)]

theorem toI_or {w : Nat} (x y : BitVec w) : toI (x ||| y) = pyOr (toI x) (toI y) % 2 ^ w := by
  apply ibit_ext; intro i
  rw [ibit_emod, ibit_pyOr, ibit_toI, ibit_toI, ibit_toI, BitVec.toNat_or, Nat.testBit_or]
  by_cases h : i < w
  · simp [h]
  · simp [h, BitVec.testBit_toNat, BitVec.getLsbD_of_ge x i (by omega), BitVec.getLsbD_of_ge y i (by omega)]

theorem toI_xor {w : Nat} (x y : BitVec w) : toI (x ^^^ y) = pyXor (toI x) (toI y) % 2 ^ w := by
  apply ibit_ext; intro i
  rw [ibit_emod, ibit_pyXor, ibit_toI, ibit_toI, ibit_toI, BitVec.toNat_xor, Nat.testBit_xor]
  by_cases h : i < w
  · simp [h]
  · simp [h, BitVec.testBit_toNat, BitVec.getLsbD_of_ge x i (by omega), BitVec.getLsbD_of_ge y i (by omega)]

theorem toI_not {w : Nat} (x : BitVec w) : toI (~~~x) = pyNot (toI x) % 2 ^ w := by
  apply ibit_ext; intro i
  rw [ibit_emod, ibit_pyNot, ibit_toI, ibit_toI, BitVec.testBit_toNat, BitVec.testBit_toNat, BitVec.getLsbD_not]

theorem toI_add {w : Nat} (x y : BitVec w) : toI (x + y) = (toI x + toI y) % 2 ^ w := by
  simp [toI, BitVec.toNat_add]

theorem toI_neg {w : Nat} (x : BitVec w) : toI (-x) = (- toI x) % 2 ^ w := by
  have : toI (-x) = toI (0#w - x) := by simp
  rw [this]
  unfold toI
  rw [BitVec.toNat_sub, BitVec.toNat_ofNat]
  push_cast [Nat.le_of_lt x.isLt]
  simp [Int.sub_eq_add_neg]

theorem toI_mul {w : Nat} (x y : BitVec w) : toI (x * y) = (toI x * toI y) % 2 ^ w := by
  simp [toI, BitVec.toNat_mul]

theorem toI_sub {w : Nat} (x y : BitVec w) : toI (x - y) = (toI x - toI y) % 2 ^ w := by
  rw [BitVec.sub_eq_add_neg, toI_add, toI_neg]
  rw [Int.add_emod_emod]; rfl

theorem toI_shl {w : Nat} (x y : BitVec w) : toI (x <<< y) = (toI x * 2 ^ y.toNat) % 2 ^ w := by
  simp [toI, BitVec.toNat_shiftLeft, Nat.shiftLeft_eq]

theorem toI_lshr {w : Nat} (x y : BitVec w) : toI (x >>> y) = toI x / 2 ^ y.toNat := by
  simp [toI, BitVec.toNat_ushiftRight, Nat.shiftRight_eq_div_pow]

theorem toI_ashr {w : Nat} (x y : BitVec w) :
    toI (x.sshiftRight' y) = (signed w (toI x) / 2 ^ y.toNat) % 2 ^ w := by
  rw [toI_of_toInt, BitVec.sshiftRight', BitVec.toInt_sshiftRight, toInt_signed, Int.shiftRight_eq_div_pow]
  push_cast; rfl

theorem toI_udiv {w : Nat} (x y : BitVec w) :
    toI (x.smtUDiv y) = if toI y = 0 then 2 ^ w - 1 else toI x / toI y := by
  unfold BitVec.smtUDiv
  by_cases h : y = 0#w
  · subst h; simp [toI, BitVec.toNat_allOnes]
  · have : toI y ≠ 0 := by
      intro h'; apply h; apply BitVec.eq_of_toNat_eq; simpa [toI] using h'
    rw [if_neg this]
    simp [h, toI, BitVec.toNat_udiv]

theorem toI_urem {w : Nat} (x y : BitVec w) : toI (x % y) = if toI y = 0 then toI x else toI x % toI y := by
  by_cases h : toI y = 0
  · have : y.toNat = 0 := by simpa [toI] using h
    rw [if_pos h]; simp [toI, BitVec.toNat_umod, this]
  · rw [if_neg h]; simp [toI, BitVec.toNat_umod]

end HW.Smt
