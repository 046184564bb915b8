import Verif.Lemmas.Smt.Vector

/-! Construction, coercion and the methods. -/

namespace HW.Smt
open HW.Spec

variable {e : Env} {S : Simplifier}

theorem Den.run {x : SBV} {X : BVal} {k : SKind} {K : Kind} {n : Nat} (h : Den e x X) (hk : k.At e K)
    (hn : X.size = n) : Den e ⟨k, n, S.run x.term⟩ ⟨K, n, X.value⟩ := by
  obtain ⟨kk, K', m, t, b, rfl, rfl, hkK, ht⟩ := h.cases
  dsimp only at hn
  subst hn
  exact ⟨hk, rfl, b, S.eval _ _ _ ht, rfl⟩

theorem bit_lt (b : Bool) {n : Nat} (hn : 0 < n) : b2i b % 2 ^ n = b2i b := by
  apply Int.emod_eq_of_lt
  · cases b <;> simp [b2i]
  · have : (2 : Int) ^ 1 ≤ 2 ^ n := pow_le_pow_right₀ (by omega) hn
    cases b <;> (simp [b2i]; try omega)

/-- `T[n](o)` -/
theorem mkSBV_rel {k : SKind} {K : Kind} {n : Nat} {o : SObj} {O : Obj} (hn : 0 < n) (hk : k.At e K)
    (h : DenObj e o O) (hf : o.Fits n) : RelM (Den e) (mkSBV S k n o) (HW.mkBV K n O) := by
  rw [mkBV_eq]
  cases h with
  | @int v =>
    exact mkInt_rel hk (Int.emod_nonneg _ (two_pow_pos n).ne') (Int.emod_lt_of_pos _ (two_pow_pos n))
  | @bool b =>
    exact mkInt_rel hk (Int.emod_nonneg _ (two_pow_pos n).ne') (Int.emod_lt_of_pos _ (two_pow_pos n))
  | @bit t b h =>
    have := iteBit_rel (S := S) hn hk h
    simp only [Obj.denotes]
    have e1 : (if b then (1 : Int) else 0) % 2 ^ n = b2i b := bit_lt b hn
    rw [e1]; exact this
  | @bv x X h =>
    simp only [Obj.denotes]
    have hs : X.size = x.size := h.2.1
    unfold mkSBV
    dsimp only
    by_cases h1 : (n : Int) - x.size < 0
    · rw [if_pos h1]
      have ns : normStart X.size none = 0 := rfl
      have nt : normStop X.size (some (n : Int)) = n := by
        simp only [normStop]; rw [if_neg (by omega)]; omega
      obtain ⟨kk, K', m, t, b, rfl, rfl, hkK, ht⟩ := h.cases
      dsimp only at ns nt hs h1
      obtain ⟨s, g1, g2, g3⟩ := slice_term (S := S) hkK ht none (some (n : Int)) (by omega) (by omega)
      rw [ns, nt] at g3
      rw [g1]
      simp at g3
      exact g3.run hk rfl
    · rw [if_neg h1]
      by_cases h2 : (n : Int) - x.size > 0
      · rw [if_pos h2]
        have hz := zext_rel (S := S) h ((n : Int) - x.size)
        rw [C17_zext h.WF, if_neg h1] at hz
        obtain ⟨y, hy, hyd, _⟩ := hz.ok_right
        rw [hy]
        have := hyd.run (S := S) hk (n := n) (by dsimp only; omega)
        have e1 : X.value % 2 ^ n = X.value := by
          apply Int.emod_eq_of_lt h.WF.1
          exact lt_of_lt_of_le h.WF.2 (pow_le_pow_right₀ (by omega) (by omega))
        rw [e1]; exact this
      · rw [if_neg h2]
        have hn' : X.size = n := by omega
        have e1 : X.value % 2 ^ n = X.value := by rw [← hn']; exact h.WF.mod_eq
        rw [e1]
        exact h.run hk hn'
  | @seq l L h =>
    obtain ⟨hl, hf⟩ := hf
    subst hl
    have := seq_rel (S := S) hk h hn hf
    simp only [Obj.denotes]
    have e1 := ofBits_bounds L
    have e2 := h.length_eq
    rw [e2, Int.emod_eq_of_lt e1.1 e1.2]
    rw [e2] at this
    exact this
  | @other i b =>
    cases i with
    | none => rfl
    | some v =>
      simp only [Obj.denotes]
      rw [Int.emod_eq_of_lt hf.1 hf.2]
      exact mkInt_rel hk hf.1 hf.2

/-- `_coerce` -/
theorem scoerce_rel {k : SKind} {K : Kind} {n : Nat} {o : SObj} {O : Obj} (hn : 0 < n) (hk : k.At e K)
    (h : DenObj e o O) (hf : o.Fits n) :
    RelM (fun y Y => Den e y Y ∧ y.size = n) (scoerce S k n o) (coerce K n O) := by
  have key : (∀ b, o ≠ .bv b) → RelM (fun y Y => Den e y Y ∧ y.size = n) (mkSBV S k n o) (HW.mkBV K n O) := by
    intro _
    have := mkSBV_rel (S := S) hn hk h hf
    rw [mkBV_eq] at this ⊢
    cases hd : O.denotes with
    | none =>
      rw [hd] at this
      cases hm : mkSBV S k n o with
      | error => rw [hm] at this; exact this
      | ok => rw [hm] at this; exact this.elim
    | some v =>
      rw [hd] at this
      obtain ⟨s, h1, h2⟩ := this.ok_right
      rw [h1]
      exact ⟨h2, h2.2.1.symm⟩
  cases h with
  | @bv x X h =>
    have hs : X.size = x.size := h.2.1
    simp only [scoerce, coerce, hs]
    split
    · rfl
    · rename_i hc
      exact ⟨h, by simpa using hc⟩
  | int => exact key (by simp)
  | bool => exact key (by simp)
  | bit => exact key (by simp)
  | seq => exact key (by simp)
  | other => exact key (by simp)

/-- The right operand and the number it contributes. -/
theorem soperand_rel {k : SKind} {K : Kind} {n : Nat} {o : SObj} {O : Obj} (hn : 0 < n) (hk : k.At e K)
    (h : DenObj e o O) (hf : o.Fits n) :
    RelM (fun y v => ∃ b : BitVec n, y.term.eval e = some (.bv n b) ∧ toI b = v) (scoerce S k n o)
      (operand n O) := by
  have h1 := scoerce_rel (S := S) hn hk h hf
  rcases coerce_eq K n O with ⟨Y, h2, h3, h4, _⟩ | ⟨er, h2, h3⟩
  · rw [h2] at h1
    obtain ⟨y, hy, hd, hs⟩ := h1.ok_right
    rw [hy, h3]
    obtain ⟨k', K', m, t, b, rfl, rfl, _, ht⟩ := hd.cases
    dsimp only at hs
    subst hs
    exact ⟨b, ht, rfl⟩
  · rw [h2] at h1; rw [h3]
    cases hm : scoerce S k n o with
    | error => rw [hm] at h1; exact h1
    | ok => rw [hm] at h1; exact h1.elim

theorem cast_rel {α β : Type} {R : α → β → Prop} {x : SBV} {X : BVal} {o : SObj} {O : Obj}
    {f : SBV → PyM α} {g : Int → PyM β} (hx : Den e x X) (hn : 0 < x.size) (ho : DenObj e o O)
    (hf : o.Fits x.size)
    (h : ∀ (y : SBV) (b : BitVec x.size), y.term.eval e = some (.bv x.size b) → RelM R (f y) (g (toI b))) :
    RelM R (x.cast S o f) ((operand X.size O).bind g) := by
  rw [show X.size = x.size from hx.2.1]
  refine (soperand_rel (S := S) hn hx.1 ho hf).bind ?_
  rintro y v ⟨b, hb, rfl⟩
  exact h y b hb

theorem bin_eval {op : BOp} {f : (w : Nat) → BitVec w → BitVec w → BitVec w} (hop : op.bv? = some f)
    {a b : Term} {n : Nat} {x y : BitVec n} (ha : a.eval e = some (.bv n x)) (hb : b.eval e = some (.bv n y)) :
    (Term.bin op a b).eval e = some (.bv n (f n x y)) := by
  cases op <;> simp [BOp.bv?] at hop <;> simp [Term.eval, ha, hb, BOp.eval, BOp.bv?, hop]

theorem rel_eval {op : BOp} {f : (w : Nat) → BitVec w → BitVec w → Bool} (hop : op.rel? = some f)
    {a b : Term} {n : Nat} {x y : BitVec n} (ha : a.eval e = some (.bv n x)) (hb : b.eval e = some (.bv n y)) :
    (Term.bin op a b).eval e = some (.bool (f n x y)) := by
  cases op <;> simp [BOp.rel?] at hop <;> simp [Term.eval, ha, hb, BOp.eval, BOp.bv?, BOp.rel?, hop]

/-- A vector-valued method built from one SMT symbol. -/
theorem bin_rel {op : BOp} {f : (w : Nat) → BitVec w → BitVec w → BitVec w} (hop : op.bv? = some f)
    {x : SBV} {X : BVal} {o : SObj} {O : Obj} {g : Int → Int} (hx : Den e x X) (hn : 0 < x.size)
    (ho : DenObj e o O) (hf : o.Fits x.size)
    (hg : ∀ a b : BitVec x.size, X.value = toI a → toI (f x.size a b) = g (toI b)) :
    RelM (Den e) (x.bin S op o) ((operand X.size O).bind fun v => .ok ⟨X.kind, X.size, g v⟩) := by
  obtain ⟨k, K, n, t, a, rfl, rfl, hkK, ht⟩ := hx.cases
  refine cast_rel hx hn ho hf fun y b hb => ?_
  have hev := bin_eval (e := e) hop ht hb
  simp only [SBV.mk', node_ok hev, bind, Except.bind]
  exact bvF_rel hkK hev (hg a b rfl)

theorem nbin_rel {op : BOp} {f : (w : Nat) → BitVec w → BitVec w → BitVec w} (hop : op.bv? = some f)
    {x : SBV} {X : BVal} {o : SObj} {O : Obj} {g : Int → Int} (hx : Den e x X) (hn : 0 < x.size)
    (ho : DenObj e o O) (hf : o.Fits x.size)
    (hg : ∀ a b : BitVec x.size, X.value = toI a → toI (~~~ f x.size a b) = g (toI b)) :
    RelM (Den e) (x.nbin S op o) ((operand X.size O).bind fun v => .ok ⟨X.kind, X.size, g v⟩) := by
  obtain ⟨k, K, n, t, a, rfl, rfl, hkK, ht⟩ := hx.cases
  refine cast_rel hx hn ho hf fun y b hb => ?_
  have hev := bin_eval (e := e) hop ht hb
  have hev' : (Term.un .bvnot (.bin op t y.term)).eval e = some (.bv n (~~~ f n a b)) := by
    rw [Term.eval, hev]; rfl
  simp only [SBV.mk', node_ok hev, node_ok hev', bind, Except.bind]
  exact bvF_rel hkK hev' (hg a b rfl)

theorem rel_rel {op : BOp} {f : (w : Nat) → BitVec w → BitVec w → Bool} (hop : op.rel? = some f)
    {x : SBV} {X : BVal} {o : SObj} {O : Obj} {g : Int → Bool} (hx : Den e x X) (hn : 0 < x.size)
    (ho : DenObj e o O) (hf : o.Fits x.size)
    (hg : ∀ a b : BitVec x.size, X.value = toI a → f x.size a b = g (toI b)) :
    RelM (DenBit e) (x.rel S op o) ((operand X.size O).bind fun v => .ok (g v)) := by
  obtain ⟨k, K, n, t, a, rfl, rfl, hkK, ht⟩ := hx.cases
  refine cast_rel hx hn ho hf fun y b hb => ?_
  have hev := rel_eval (e := e) hop ht hb
  simp only [node_ok hev, bind, Except.bind]
  rw [← hg a b rfl]
  exact bitF_rel hev

theorem relSwap_rel {op : BOp} {f : (w : Nat) → BitVec w → BitVec w → Bool} (hop : op.rel? = some f)
    {x : SBV} {X : BVal} {o : SObj} {O : Obj} {g : Int → Bool} (hx : Den e x X) (hn : 0 < x.size)
    (ho : DenObj e o O) (hf : o.Fits x.size)
    (hg : ∀ a b : BitVec x.size, X.value = toI a → f x.size b a = g (toI b)) :
    RelM (DenBit e) (x.relSwap S op o) ((operand X.size O).bind fun v => .ok (g v)) := by
  obtain ⟨k, K, n, t, a, rfl, rfl, hkK, ht⟩ := hx.cases
  refine cast_rel hx hn ho hf fun y b hb => ?_
  have hev := rel_eval (e := e) hop hb ht
  simp only [node_ok hev, bind, Except.bind]
  rw [← hg a b rfl]
  exact bitF_rel hev

theorem ult_toI {n : Nat} (a b : BitVec n) : a.ult b = decide (toI a < toI b) := by
  simp [BitVec.ult, toI]
theorem ule_toI {n : Nat} (a b : BitVec n) : a.ule b = decide (toI a ≤ toI b) := by
  simp [BitVec.ule, toI]
theorem slt_toI {n : Nat} (a b : BitVec n) : a.slt b = decide (signed n (toI a) < signed n (toI b)) := by
  simp [BitVec.slt, toInt_signed]
theorem sle_toI {n : Nat} (a b : BitVec n) : a.sle b = decide (signed n (toI a) ≤ signed n (toI b)) := by
  simp [BitVec.sle, toInt_signed]
theorem beq_toI {n : Nat} (a b : BitVec n) : (a == b) = decide (toI a = toI b) := by
  rw [Bool.eq_iff_iff, beq_iff_eq, decide_eq_true_eq, toI_inj]

theorem DenObj.WF {o : SObj} {O : Obj} (h : DenObj e o O) : O.WF := by
  cases h with
  | bv h => exact h.WF
  | _ => trivial

theorem ok_bind {α β : Type} (a : α) (f : α → PyM β) : ((.ok a : PyM α) >>= f) = f a := rfl

theorem bin_size {S : Simplifier} {op : BOp} {x s : SBV} {o : SObj} (h : x.bin S op o = .ok s) :
    s.size = x.size := by
  unfold SBV.bin SBV.cast SBV.mk' at h
  simp only [bind, Except.bind] at h
  split at h
  · cases h
  · split at h
    · cases h
    · exact (bvF_ty h).2

theorem RelM.with_left {α β : Type} {R : α → β → Prop} {P : α → Prop} {m : PyM α} {M : PyM β}
    (h : RelM R m M) (hP : ∀ a, m = .ok a → P a) : RelM (fun a b => R a b ∧ P a) m M := by
  cases m <;> cases M <;> simp only [RelM] at h ⊢
  · exact h
  · exact ⟨h, hP _ rfl⟩

end HW.Smt
