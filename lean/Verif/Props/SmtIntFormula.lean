import Verif.Model.Smt.IntFormula
import Verif.Props.SmtInt
import Verif.Props.SmtFormula

/-!
# Property C141: pysmt formulas as symbolic integers

`Term.eval` is the meaning of a formula, `pyIntOp` are Python's operators on ints.
-/

namespace HW
open Spec Smt

/-- The integer a formula stands for: its value if it is an integer, the unsigned value if it is a bit vector. -/
inductive IntOf (e : Env) (t : Term) : Int → Prop
  | int {v : Int} : t.eval e = some (.int v) → IntOf e t v
  | bv {n : Nat} {b : BitVec n} : t.eval e = some (.bv n b) → IntOf e t b.toNat

section
variable (S : Simplifier)

theorem castIntN_den {e : Env} {t : Term} {v : Int} (h : IntOf e t v) :
    ∃ u, castIntN S (.formula t) = .ok u ∧ DenInt e u v := by
  cases h with
  | int h =>
    have ht := eval_ty h
    exact ⟨S.run t, by simp only [castIntN, mkIntN, ht, Val.ty], S.eval _ _ _ h⟩
  | @bv n b h =>
    have ht := eval_ty h
    have h2 : (Term.un .bv2nat t).eval e = some (.int b.toNat) := by
      simp only [Term.eval, h, Option.bind_some, UOp.eval]
    exact ⟨S.run (.un .bv2nat t), by simp only [castIntN, mkIntN, ht, Val.ty, node_ok h2, ok_bind]; rfl, S.eval _ _ _ h2⟩

/-- **C141** `SMTInt(t)` takes formulas of integer and of bit-vector sort and stands for their (unsigned) value. -/
theorem C141_construct {e : Env} {t : Term} {v : Int} (h : IntOf e t v) :
    ∃ u, mkIntN S (.formula t) = .ok u ∧ DenInt e u v := castIntN_den S h

/-- **C141** every formula of such a sort has such a value, under every assignment. -/
theorem C141_total (e : Env) (t : Term) (h : t.ty? = some .int ∨ ∃ n, t.ty? = some (.bv n)) : ∃ v, IntOf e t v := by
  rcases h with h | ⟨n, h⟩
  · obtain ⟨v, hv, hty⟩ := ty_eval e h
    cases v with
    | int v => exact ⟨v, .int hv⟩
    | _ => simp [Val.ty] at hty
  · obtain ⟨v, hv, hty⟩ := ty_eval e h
    cases v with
    | bv m b => exact ⟨_, .bv hv⟩
    | _ => simp [Val.ty] at hty

/-- **C141** other formulas, in particular the Boolean ones, raise `TypeError`; as operands they give `NotImplemented`. -/
theorem C141_raises (t : Term) (h : t.ty? ≠ some .int) (h' : ∀ n, t.ty? ≠ some (.bv n)) :
    mkIntN S (.formula t) = .error .typeError ∧
    (∀ op a, intFwdN S op a (.formula t) = .ok none) ∧ (∀ op b, intRevN S op b (.formula t) = .ok none) := by
  have hm : mkIntN S (.formula t) = .error .typeError := by
    cases hty : t.ty? with
    | none => simp only [mkIntN, hty]
    | some s =>
      cases s with
      | int => exact (h hty).elim
      | bv n => exact (h' n hty).elim
      | bool => simp only [mkIntN, hty]
  have hf : ∀ op a, intFwdN S op a (.formula t) = .ok none := fun op a => by
    simp only [intFwdN, castIntN, hm]; rfl
  refine ⟨hm, hf, fun op b => ?_⟩
  cases op <;> first | exact hf _ b | (simp only [intRevN, castIntN, hm]; rfl)

/-- **C141 (partial)** `a op t` for an `SMTInt` `a`.  Full claim: `//` for all divisors; false for negative ones (C42). -/
theorem C141_operators_partial {e : Env} {a t : Term} {u v : Int} (op : IOp) (ha : DenInt e a u) (ht : IntOf e t v)
    (hop : op = .floordiv → 0 < v) :
    ∃ z, intFwdN S op a (.formula t) = .ok (some z) ∧ z.eval e = some (pyIntOp op u v) := by
  obtain ⟨b, h1, h2⟩ := castIntN_den S ht
  have := IOp.term_den ha h2 op hop
  refine ⟨_, ?_, S.eval _ _ _ this⟩
  simp only [intFwdN, h1, node_ok this, ok_bind]; rfl

/-- **C141 (partial)** the reflected methods, `a.__rsub__(t)` for `t - a`.  Full claim as before. -/
theorem C141_reflected_partial {e : Env} {a t : Term} {u v : Int} (op : IOp) (ha : DenInt e a u) (ht : IntOf e t v)
    (hop : op = .floordiv → 0 < u) :
    ∃ z, intRevN S op a (.formula t) = .ok (some z) ∧ z.eval e = some (pyIntOp op v u) := by
  by_cases hrev : op ≠ .sub ∧ op ≠ .floordiv
  · have hnf : op.swap ≠ .floordiv := by cases op <;> simp_all [IOp.swap]
    obtain ⟨z, h1, h2⟩ := C141_operators_partial S op.swap ha ht (fun h => (hnf h).elim)
    refine ⟨z, ?_, by rw [h2, pyIntOp_swap op hrev]⟩
    rw [← h1]; cases op <;> simp_all [intRevN]
  · obtain ⟨b, h1, h2⟩ := castIntN_den S ht
    have := IOp.term_den h2 ha op hop
    refine ⟨_, ?_, S.eval _ _ _ this⟩
    have hq : op = .sub ∨ op = .floordiv := by
      by_contra hc; exact hrev ⟨fun h => hc (.inl h), fun h => hc (.inr h)⟩
    rcases hq with rfl | rfl <;> simp only [intRevN, h1, node_ok this, ok_bind] <;> rfl

/-- **C141** `SMTInt(x.value)` is `x` again. -/
theorem C141_roundtrip {e : Env} {a : Term} {v : Int} (h : DenInt e a v) :
    ∃ u, mkIntN S (.formula a) = .ok u ∧ DenInt e u v := C141_construct S (.int h)

/-- **C141** for a vector `x`, `SMTInt(x)`, `SMTInt(x.value)` and `x.as_uint()` stand for the same integer. -/
theorem C141_vector {e : Env} {x : SBV} {X : BVal} (h : Den e x X) :
    (∃ u, mkIntN S (.val (.obj (.bv x))) = .ok u ∧ DenInt e u X.value) ∧
    (∃ u, mkIntN S (.formula x.value) = .ok u ∧ DenInt e u X.value) ∧
    (∃ u, x.asUint S = .ok u ∧ DenInt e u X.value) := by
  refine ⟨C41_as_uint S h, ?_, C41_as_uint S h⟩
  obtain ⟨_, _, b, h3, h4⟩ := h
  obtain ⟨u, h5, h6⟩ := C141_construct S (.bv h3)
  exact ⟨u, h5, by rw [h4]; exact h6⟩

/-- **C141 refuted** for signed vectors: `SMTInt(x)` reads one as unsigned; `int(x)` of the concrete signed vector is its
signed value, which differs by `2 ^ n` if it is negative. -/
theorem C141_signed_refuted {e : Env} {x : SBV} {X : BVal} {s : Int} (h : Den e x X) (hk : X.kind = .root .sint)
    (hs : X.toInt = .ok s) (hneg : s < 0) :
    ∃ u, mkIntN S (.val (.obj (.bv x))) = .ok u ∧ ∀ v, DenInt e u v → v = s + 2 ^ X.size := by
  obtain ⟨u, h1, h2⟩ := C41_as_uint S h
  refine ⟨u, h1, fun v hv => ?_⟩
  have : v = X.value := by
    unfold DenInt at h2 hv; rw [h2] at hv; injection hv with hv; injection hv with hv; exact hv.symm
  subst this
  have hw := h.WF
  have hv := hw.1
  unfold BVal.toInt at hs
  rw [hk, if_pos (show (Kind.root Root.sint).base = Root.sint from rfl)] at hs
  unfold BVal.asSint at hs
  cases hb : X.getIdx (-1) with
  | error => rw [hb] at hs; cases hs
  | ok b =>
    rw [hb] at hs
    cases b
    · simp only [ok_bind, Bool.false_eq_true, if_false, pure, Except.pure, Except.ok.injEq] at hs; omega
    · simp only [ok_bind, if_true, pure, Except.pure, Except.ok.injEq] at hs; omega

end

/-! ## Examples -/

/-- `i + f` and `f - i` for the symbol `i` and the formula `f = a + 1`, where `a` is a vector. -/
private def fA : Term := .bin .bvadd (.sym ['a'] (.bv 8)) (.bvC 1 8)
private def iX : Term := .sym ['x'] .int
example : intFwdN noSimp .add iX (.formula fA) = .ok (some (.bin .plus iX (.un .bv2nat fA))) := by rfl
example : intRevN noSimp .sub iX (.formula fA) = .ok (some (.bin .minus (.un .bv2nat fA) iX)) := by rfl
example (e : Env) : IntOf e fA (e.bv ['a'] 8 + 1).toNat ∧ DenInt e iX (e.int ['x']) := ⟨.bv rfl, rfl⟩
example : mkIntN noSimp (.formula (.bin .le iX (.intC 3))) = .error .typeError :=
  (C141_raises noSimp _ (by decide) (by intro n h; cases h)).1
/-- `SMTInt(SMTSIntVector[8](-1))` is 255. -/
example : ∃ u, mkIntN noSimp (.val (.obj (.bv ⟨.root .sint, 8, .bvC 255 8⟩))) = .ok u ∧
    ∀ v, DenInt envNeg u v → v = -1 + 2 ^ 8 :=
  C141_signed_refuted noSimp (X := ⟨.root .sint, 8, 255⟩) ⟨rfl, rfl, 255#8, rfl, rfl⟩ rfl rfl (by decide)

end HW
