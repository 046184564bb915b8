import Verif.Model.Smt.Poly
import Verif.Props.SmtBit

/-! # Property C115: operators of polymorphic symbolic vectors -/

namespace HW
open Spec Smt

/-- What a symbolic operator computes: the reference value, with SMT-LIB's truncated division where the operands are
read as signed. -/
def Spec.refSmt (s : Bool) (op : AOp) (n : Nat) (a b : Int) : Int :=
  if s ∧ op = .fdiv then wrap n (smtSdiv (signed n a) (signed n b))
  else if s ∧ op = .mod then wrap n (smtSrem (signed n a) (signed n b))
  else refA s op n a b

theorem refSmt_sign_irrelevant {op : AOp} (h : op.signDep = false) (s s' : Bool) (n : Nat) (a b : Int) :
    refSmt s op n a b = refSmt s' op n a b := by
  cases op <;> first | (simp [AOp.signDep] at h; done) | simp [refSmt, refA]

section
variable {S : Simplifier} {e : Env}

theorem DenObj.WF {o : SObj} {O : Obj} (h : DenObj e o O) : O.WF := by
  cases h with
  | bv h => exact h.WF
  | _ => trivial

theorem bin_kind {bop : BOp} {x v : SBV} {o : SObj} (h : x.bin S bop o = .ok v) : v.kind = x.kind ∧ v.size = x.size := by
  unfold SBV.bin SBV.cast SBV.mk' at h
  cases hc : scoerce S x.kind x.size o with
  | error => rw [hc] at h; cases h
  | ok y =>
    rw [hc] at h
    cases hn : node (.bin bop x.term y.term) with
    | error => simp only [bind, Except.bind, hn] at h; cases h
    | ok t =>
      simp only [bind, Except.bind, hn, bvF] at h
      split at h
      · cases h; exact ⟨rfl, rfl⟩
      · cases h

theorem smtU_kind {op : AOp} {x v : SBV} {o : SObj} (h : AOp.smtU S op x o = .ok v) : v.kind = x.kind ∧ v.size = x.size := by
  cases op <;> exact bin_kind h

theorem smtS_kind {op : AOp} {x v : SBV} {o : SObj} (h : AOp.smtS S op x o = .ok v) : v.kind = x.kind ∧ v.size = x.size := by
  cases op <;> exact bin_kind h

/-- Which reading a tree of `VCall`s ends up with under `e`. -/
def Smt.SImpl.Reads (e : Env) : SImpl → Bool → Prop
  | .uns, s => s = false
  | .sgn, s => s = true
  | .vcall _ sel a b, s => ∃ c s0 s1, DenBit e sel c ∧ a.Reads e s0 ∧ b.Reads e s1 ∧ s = if c then s0 else s1

theorem slot_reads : ∀ {k : SKind} {K : Kind}, k.At e K → k.slot.Reads e (readsSigned K)
  | .root r, _, h => by cases h; cases r <;> rfl
  | .poly id t f sel, _, h => by
    obtain ⟨T, F, b, ht, hf, hb, rfl⟩ := h
    have h1 := slot_reads ht
    have h2 := slot_reads hf
    unfold SKind.slot
    by_cases hs : t.slot = f.slot
    · rw [if_pos hs]
      cases b
      · rw [hs]; exact h2
      · exact h1
    · rw [if_neg hs]
      exact ⟨b, _, _, hb, h1, h2, rfl⟩

theorem smtU_ref (op : AOp) {x : SBV} {X : BVal} (hx : Den e x X) (hn : 0 < x.size) {o : SObj} {O : Obj}
    (ho : DenObj e o O) (hf : o.Fits x.size) :
    RelM (fun v V => Den e v V ∧ v.kind = x.kind ∧ v.size = x.size) (AOp.smtU S op x o)
      ((operand X.size O).map fun b => ⟨X.kind, X.size, refSmt false op X.size X.value b⟩) := by
  have h := smtM_hom S op .uint (by simp) e x X o O hx ho hn hf
  simp only [AOp.smtM, show (Root.uint == Root.sint) = false from rfl, Bool.and_false, Bool.false_eq_true, if_false] at h
  rw [uMethod_ref op hx.WF ho.WF] at h
  have : ∀ b, refSmt false op X.size X.value b = refA false op X.size X.value b := fun b => by simp [refSmt]
  simp only [this]
  cases hm : AOp.smtU S op x o with
  | error err => rw [hm] at h; cases hO : operand X.size O <;> rw [hO] at h <;> exact h
  | ok v =>
    rw [hm] at h
    cases hO : operand X.size O with
    | error => rw [hO] at h; exact h
    | ok b => rw [hO] at h; exact ⟨h, smtU_kind hm⟩

theorem smtS_ref (op : AOp) {x : SBV} {X : BVal} (hx : Den e x X) (hn : 0 < x.size) {o : SObj} {O : Obj}
    (ho : DenObj e o O) (hf : o.Fits x.size) :
    RelM (fun v V => Den e v V ∧ v.kind = x.kind ∧ v.size = x.size) (AOp.smtS S op x o)
      ((operand X.size O).map fun b => ⟨X.kind, X.size, refSmt true op X.size X.value b⟩) := by
  have hX : X.size = x.size := hx.2.1
  have h : RelM (Den e) (AOp.smtS S op x o)
      ((operand X.size O).map fun b => ⟨X.kind, X.size, refSmt true op X.size X.value b⟩) := by
    by_cases hd : op.signDep = true
    · cases op with
      | fdiv =>
        have := bin_rel (S := S) (op := .bvsdiv) (g := fun b => wrap X.size (smtSdiv (signed X.size X.value) (signed X.size b)))
          rfl hx hn ho hf fun a b h => by rw [h, hX]; exact toI_sdiv hn a b
        rw [bind_ok_map] at this
        exact this
      | mod =>
        have := bin_rel (S := S) (op := .bvsrem) (g := fun b => wrap X.size (smtSrem (signed X.size X.value) (signed X.size b)))
          rfl hx hn ho hf fun a b h => by rw [h, hX]; exact toI_srem a b
        rw [bind_ok_map] at this
        exact this
      | shr =>
        have h := C34_bvashr S e x X o O hx ho hn hf
        have := sMethod_ref .shr hx.WF (by omega) ho.WF
        simp only [AOp.sMethod] at this
        rw [this] at h
        simpa [refSmt, AOp.smtS] using h
      | _ => simp [AOp.signDep] at hd
    · have hd : op.signDep = false := by simpa using hd
      have h := smtU_ref (S := S) op hx hn ho hf
      rw [show AOp.smtS S op = AOp.smtU S op by cases op <;> first | rfl | simp [AOp.signDep] at hd]
      simp only [refSmt_sign_irrelevant hd true false]
      exact h.mono fun _ _ h => h.1
  cases hm : AOp.smtS S op x o with
  | error err => rw [hm] at h; cases hO : operand X.size O <;> rw [hO] at h <;> exact h
  | ok v =>
    rw [hm] at h
    cases hO : operand X.size O with
    | error => rw [hO] at h; exact h
    | ok b => rw [hO] at h; exact ⟨h, smtS_kind hm⟩

theorem bvF_kind {k : SKind} {n : Nat} {t : Term} {v : SBV} (h : bvF S k n t = .ok v) : v.kind = k ∧ v.size = n := by
  unfold bvF at h
  split at h
  · cases h; exact ⟨rfl, rfl⟩
  · cases h

/-- `select.ite` of two results of one class. -/
theorem siteBV_same {sel : Term} {c : Bool} (hs : DenBit e sel c) {x y : SBV} {K : Kind} {n : Nat} {a b : Int}
    (hx : Den e x ⟨K, n, a⟩) (hy : Den e y ⟨K, n, b⟩) (hk : x.kind = y.kind) (i : Nat) :
    ∃ v, siteBV S sel x y i = .ok (v, i) ∧ Den e v ⟨K, n, if c then a else b⟩ ∧ v.kind = x.kind ∧ v.size = x.size := by
  have sx : n = x.size := hx.2.1
  have sy : n = y.size := hy.2.1
  have hz : x.size = y.size := by omega
  obtain ⟨t, o, h1, h2, h3, h4⟩ := bv_ite (S := S) hs hx hy hz hx.1
  refine ⟨o, ?_, ?_, (bvF_kind h2).1, h4⟩
  · have hr : sreturnType sel (.bv x) (.bv y) i = .ok (.vec x.kind x.size, i) := by
      simp only [sreturnType, hk, hz, and_self, if_true]; rfl
    have hp : spushIte sel (.bv x) (.bv y) = .ok (.term t) := by simp only [spushIte, smtIte, h1, ok_bind]; rfl
    have hc : scoerceBranch S (.vec x.kind x.size) (.term t) = .ok (.bv o) := by simp only [scoerceBranch, h2, ok_bind]; rfl
    simp only [siteBV, sIte, bind, StateT.bind, hr, Except.bind, pyLift, hp, Except.map, hc]; rfl
  · rw [← sx] at h3
    cases c <;> exact h3

/-- A forward operator on a usable operand. -/
theorem sfwd_ref (op : AOp) {x : SBV} {X : BVal} (hx : Den e x X) (hn : 0 < x.size) {o : SObj} {O : Obj}
    (ho : DenObj e o O) (hf : o.Fits x.size) {b : Int} (hb : operand X.size O = .ok b) (i : Nat) :
    ∀ {im : SImpl} {s : Bool}, im.Reads e s → ∃ v, AOp.sfwd S op im x o i = .ok (some v, i) ∧
      Den e v ⟨X.kind, X.size, refSmt s op X.size X.value b⟩ ∧ v.kind = x.kind ∧ v.size = x.size
  | .uns, s, h => by
    cases h
    have := smtU_ref (S := S) op hx hn ho hf
    rw [hb] at this
    obtain ⟨v, h1, h2⟩ := this.ok_right
    exact ⟨v, by simp only [AOp.sfwd, h1]; rfl, h2⟩
  | .sgn, s, h => by
    cases h
    have := smtS_ref (S := S) op hx hn ho hf
    rw [hb] at this
    obtain ⟨v, h1, h2⟩ := this.ok_right
    exact ⟨v, by simp only [AOp.sfwd, h1]; rfl, h2⟩
  | .vcall id sel p q, s, h => by
    obtain ⟨c, s0, s1, hc, h0, h1, rfl⟩ := h
    obtain ⟨v0, a1, a2, a3, a4⟩ := sfwd_ref op hx hn ho hf hb i h0
    obtain ⟨v1, b1, b2, b3, b4⟩ := sfwd_ref op hx hn ho hf hb i h1
    obtain ⟨v, c1, c2, c3, c4⟩ := siteBV_same (S := S) hc a2 b2 (a3.trans b3.symm) i
    refine ⟨v, ?_, ?_, c3.trans a3, c4.trans a4⟩
    · simp only [AOp.sfwd, bind, StateT.bind, a1, b1, Except.bind, c1]; rfl
    · cases c <;> exact c2

/-- A forward operator on an operand that cannot be used. -/
theorem sfwd_err (op : AOp) {x : SBV} {X : BVal} (hx : Den e x X) (hn : 0 < x.size) {o : SObj} {O : Obj}
    (ho : DenObj e o O) (hf : o.Fits x.size) {err : PyErr} (hb : operand X.size O = .error err) (i : Nat) :
    ∀ im : SImpl, AOp.sfwd S op im x o i = (tryOper (.error err : PyM SBV)).map fun v => (v, i)
  | .uns => by
    have := smtU_ref (S := S) op hx hn ho hf
    rw [hb] at this
    cases hm : AOp.smtU S op x o with
    | ok => rw [hm] at this; exact this.elim
    | error err' => rw [hm] at this; cases (this : err' = err); simp only [AOp.sfwd, hm]; rfl
  | .sgn => by
    have := smtS_ref (S := S) op hx hn ho hf
    rw [hb] at this
    cases hm : AOp.smtS S op x o with
    | ok => rw [hm] at this; exact this.elim
    | error err' => rw [hm] at this; cases (this : err' = err); simp only [AOp.sfwd, hm]; rfl
  | .vcall id sel p q => by
    have h0 := sfwd_err op hx hn ho hf hb i p
    have h1 := sfwd_err op hx hn ho hf hb i q
    simp only [AOp.sfwd, bind, StateT.bind, h0]
    rcases operand_errors hb with ⟨rfl, -⟩ | ⟨rfl, -⟩
    · rfl
    · simp only [tryOper, Except.map, Except.bind, h1]; rfl

/-! Comparisons. -/

theorem smtCU_ref (op : COp) {x : SBV} {X : BVal} (hx : Den e x X) (hn : 0 < x.size) {o : SObj} {O : Obj}
    (ho : DenObj e o O) (hf : o.Fits x.size) :
    RelM (DenBit e) (COp.smtU S op x o) ((operand X.size O).map fun b => refC false op X.size X.value b) := by
  have h := smtMC_hom S op .uint e x X o O hx ho hn hf
  simp only [COp.smtM, show (Root.uint == Root.sint) = false from rfl, Bool.and_false, Bool.false_eq_true, if_false] at h
  rwa [cU_ref op X O] at h

theorem smtCS_ref (op : COp) {x : SBV} {X : BVal} (hx : Den e x X) (hn : 0 < x.size) {o : SObj} {O : Obj}
    (ho : DenObj e o O) (hf : o.Fits x.size) :
    RelM (DenBit e) (COp.smtS S op x o) ((operand X.size O).map fun b => refC true op X.size X.value b) := by
  have hX : X.size = x.size := hx.2.1
  by_cases hd : op.signDep = true
  · have h := smtMC_hom S op .sint e x X o O hx ho hn hf
    simp only [COp.smtM, hd, show (Root.sint == Root.sint) = true from rfl, Bool.and_true, if_true] at h
    rwa [cS_ref op hx.WF (by omega) ho.WF] at h
  · have hd : op.signDep = false := by simpa using hd
    have h := smtCU_ref (S := S) op hx hn ho hf
    have : COp.smtS S op = COp.smtU S op := by cases op <;> first | rfl | simp [COp.signDep] at hd
    rw [this]
    simpa only [refC_sign_irrelevant op hd false true] using h

theorem siteBit_ok {sel a b : Term} {c A B : Bool} (hs : DenBit e sel c) (ha : DenBit e a A) (hb : DenBit e b B) :
    ∃ v, siteBit S sel a b = .ok v ∧ DenBit e v (if c then A else B) := by
  have hev := ite_term hs ha hb rfl
  rw [show (if c then Val.bool A else Val.bool B) = Val.bool (if c then A else B) by cases c <;> rfl] at hev
  obtain ⟨h1, h2⟩ := bitF_ok (S := S) hev
  exact ⟨_, h1, h2⟩

theorem scfwd_ref (op : COp) {x : SBV} {X : BVal} (hx : Den e x X) (hn : 0 < x.size) {o : SObj} {O : Obj}
    (ho : DenObj e o O) (hf : o.Fits x.size) {b : Int} (hb : operand X.size O = .ok b) :
    ∀ {im : SImpl} {s : Bool}, im.Reads e s → ∃ v, COp.sfwd S op im x o = .ok (some v) ∧
      DenBit e v (refC s op X.size X.value b)
  | .uns, s, h => by
    cases h
    have := smtCU_ref (S := S) op hx hn ho hf
    rw [hb] at this
    obtain ⟨v, h1, h2⟩ := this.ok_right
    exact ⟨v, by simp only [COp.sfwd, h1]; rfl, h2⟩
  | .sgn, s, h => by
    cases h
    have := smtCS_ref (S := S) op hx hn ho hf
    rw [hb] at this
    obtain ⟨v, h1, h2⟩ := this.ok_right
    exact ⟨v, by simp only [COp.sfwd, h1]; rfl, h2⟩
  | .vcall id sel p q, s, h => by
    obtain ⟨c, s0, s1, hc, h0, h1, rfl⟩ := h
    obtain ⟨v0, a1, a2⟩ := scfwd_ref op hx hn ho hf hb h0
    obtain ⟨v1, b1, b2⟩ := scfwd_ref op hx hn ho hf hb h1
    obtain ⟨v, c1, c2⟩ := siteBit_ok (S := S) hc a2 b2
    refine ⟨v, ?_, ?_⟩
    · simp only [COp.sfwd, a1, b1, ok_bind, c1]; rfl
    · cases c <;> exact c2

theorem scfwd_err (op : COp) {x : SBV} {X : BVal} (hx : Den e x X) (hn : 0 < x.size) {o : SObj} {O : Obj}
    (ho : DenObj e o O) (hf : o.Fits x.size) {err : PyErr} (hb : operand X.size O = .error err) :
    ∀ im : SImpl, COp.sfwd S op im x o = tryOper (.error err : PyM Term)
  | .uns => by
    have := smtCU_ref (S := S) op hx hn ho hf
    rw [hb] at this
    cases hm : COp.smtU S op x o with
    | ok => rw [hm] at this; exact this.elim
    | error err' => rw [hm] at this; cases (this : err' = err); simp only [COp.sfwd, hm]
  | .sgn => by
    have := smtCS_ref (S := S) op hx hn ho hf
    rw [hb] at this
    cases hm : COp.smtS S op x o with
    | ok => rw [hm] at this; exact this.elim
    | error err' => rw [hm] at this; cases (this : err' = err); simp only [COp.sfwd, hm]
  | .vcall id sel p q => by
    have h0 := scfwd_err op hx hn ho hf hb p
    have h1 := scfwd_err op hx hn ho hf hb q
    simp only [COp.sfwd, h0, h1]
    rcases operand_errors hb with ⟨rfl, -⟩ | ⟨rfl, -⟩ <;> rfl

/-- The reading an operator of a class has, up to sign-independence. -/
theorem sslot_ref (op : AOp) {k : SKind} {K : Kind} (hk : k.At e K) : ∃ s, (AOp.sslot op k).Reads e s ∧
    ∀ n a b, refSmt s op n a b = refSmt (readsSigned K) op n a b := by
  unfold AOp.sslot
  by_cases h : op.signDep = true
  · rw [if_pos h]; exact ⟨_, slot_reads hk, fun _ _ _ => rfl⟩
  · rw [if_neg h]; exact ⟨false, rfl, fun n a b => refSmt_sign_irrelevant (by simpa using h) _ _ n a b⟩

theorem sslotC_ref (op : COp) {k : SKind} {K : Kind} (hk : k.At e K) : ∃ s, (COp.sslot op k).Reads e s ∧
    ∀ n a b, refC s op n a b = refC (readsSigned K) op n a b := by
  unfold COp.sslot
  by_cases h : op.signDep = true
  · rw [if_pos h]; exact ⟨_, slot_reads hk, fun _ _ _ => rfl⟩
  · rw [if_neg h]; exact ⟨false, rfl, fun n a b => refC_sign_irrelevant op (by simpa using h) _ _ n a b⟩

/-- Some leaf of the tree is the function of `SMTBitVector`. -/
def Smt.SImpl.hasUns : SImpl → Bool
  | .uns => true
  | .sgn => false
  | .vcall _ _ a b => a.hasUns || b.hasUns

theorem srev_ref (op : AOp) {x y : SBV} {X Y : BVal} (hx : Den e x X) (hn : 0 < x.size) {o : SObj}
    (hc : scoerce S x.kind x.size o = .ok y) (hy : Den e y Y) (hz : y.size = x.size) (i : Nat) :
    ∀ {im : SImpl} {s : Bool}, (op = .shr → im.hasUns = false) → im.Reads e s →
      ∃ v, AOp.srev S op im x o i = .ok (some v, i) ∧
        Den e v ⟨Y.kind, X.size, refSmt s op X.size Y.value X.value⟩ ∧ v.kind = y.kind ∧ v.size = x.size := by
  have sx : X.size = x.size := hx.2.1
  have sy : Y.size = y.size := hy.2.1
  have hs : Y.size = X.size := by omega
  have hop : operand Y.size (.bv X) = .ok X.value := by simp [operand, hs]
  intro im
  induction im with
  | uns =>
    intro s hu h
    have : ¬ op = .shr := fun h => by simp [SImpl.hasUns] at hu; exact hu h
    obtain ⟨v, h1, h2, h3, h4⟩ := sfwd_ref (S := S) op hy (by omega) (.bv hx) trivial hop i h
    rw [hs] at h2
    exact ⟨v, by simp only [AOp.srev, this, if_false, hc]; exact h1, h2, h3, h4.trans hz⟩
  | sgn =>
    intro s hu h
    obtain ⟨v, h1, h2, h3, h4⟩ := sfwd_ref (S := S) op hy (by omega) (.bv hx) trivial hop i h
    rw [hs] at h2
    exact ⟨v, by simp only [AOp.srev, hc]; exact h1, h2, h3, h4.trans hz⟩
  | vcall id sel p q ihp ihq =>
    intro s hu h
    have hp : op = .shr → p.hasUns = false := fun h => by
      have := hu h; simp [SImpl.hasUns] at this; exact this.1
    have hq : op = .shr → q.hasUns = false := fun h => by
      have := hu h; simp [SImpl.hasUns] at this; exact this.2
    obtain ⟨c, s0, s1, hc, h0, h1, rfl⟩ := h
    obtain ⟨v0, a1, a2, a3, a4⟩ := ihp hp h0
    obtain ⟨v1, b1, b2, b3, b4⟩ := ihq hq h1
    obtain ⟨v, c1, c2, c3, c4⟩ := siteBV_same (S := S) hc a2 b2 (a3.trans b3.symm) i
    refine ⟨v, ?_, ?_, c3.trans a3, c4.trans a4⟩
    · simp only [AOp.srev, bind, StateT.bind, a1, b1, Except.bind, c1]; rfl
    · cases c <;> exact c2

theorem sbinA_fwd {op : AOp} {x v : SBV} {o : SObj} {i j : Nat}
    (hp : ∀ y, o = .bv y → (SBV.properSub y x && AOp.sslot op y.kind != AOp.sslot op x.kind) = false)
    (h : AOp.sfwd S op (AOp.sslot op x.kind) x o i = .ok (some v, j)) : sbinA S op x o i = .ok (v, j) := by
  cases o with
  | bv y =>
    simp only [sbinA, hp y rfl, Bool.false_eq_true, if_false]
    simp [bind, StateT.bind, h, Except.bind, pure, StateT.pure, Except.pure]
  | _ => simp [sbinA, bind, StateT.bind, h, Except.bind, pure, StateT.pure, Except.pure]

theorem sbinC_fwd {op : COp} {x : SBV} {v : Term} {o : SObj} (hp : ∀ y, o = .bv y → SBV.properSub y x = false)
    (h : COp.sfwd S op (COp.sslot op x.kind) x o = .ok (some v)) : sbinC S op x o = .ok (.sym v) := by
  cases o with
  | bv y => simp only [sbinC, hp y rfl, Bool.false_eq_true, if_false, h, ok_bind]; rfl
  | _ => simp only [sbinC, h, ok_bind]; rfl

theorem Smt.SImpl.Reads.unique : ∀ {im : SImpl} {s s' : Bool}, im.Reads e s → im.Reads e s' → s = s'
  | .uns, _, _, h, h' => by cases h; cases h'; rfl
  | .sgn, _, _, h, h' => by cases h; cases h'; rfl
  | .vcall _ _ _ _, _, _, h, h' => by
    obtain ⟨c, s0, s1, hc, h0, h1, rfl⟩ := h
    obtain ⟨c', s0', s1', hc', h0', h1', rfl⟩ := h'
    unfold DenBit at hc hc'
    rw [hc] at hc'
    cases hc'
    rw [h0.unique h0', h1.unique h1']
end

variable (S : Simplifier)

/-- **C115** an operator with a symbolic vector of any class on the left, polymorphic with symbolic conditions and arbitrarily
nested, and anything but a vector on the right: under every assignment the value is that of the reading the conditions
select (`readsSigned X.kind`), in the class of the left operand, and no class is made. -/
theorem C115_operators {e : Env} {x : SBV} {X : BVal} {o : SObj} {O : Obj} (hx : Den e x X) (hn : 0 < x.size)
    (ho : DenObj e o O) (hf : o.Fits x.size) (hno : ∀ y, o ≠ .bv y) {b : Int} (hb : operand X.size O = .ok b) (i : Nat) :
    (∀ op, ∃ v, sbinA S op x o i = .ok (v, i) ∧ v.kind = x.kind ∧
      Den e v ⟨X.kind, X.size, refSmt (readsSigned X.kind) op X.size X.value b⟩) ∧
    (∀ op, ∃ v, sbinC S op x o = .ok (.sym v) ∧ DenBit e v (refC (readsSigned X.kind) op X.size X.value b)) := by
  constructor
  · intro op
    obtain ⟨s, h1, h2⟩ := sslot_ref op hx.1
    obtain ⟨v, h3, h4, h5, _⟩ := sfwd_ref (S := S) op hx hn ho hf hb i h1
    exact ⟨v, sbinA_fwd (fun y hy => (hno y hy).elim) h3, h5, h2 _ _ _ ▸ h4⟩
  · intro op
    obtain ⟨s, h1, h2⟩ := sslotC_ref op hx.1
    obtain ⟨v, h3, h4⟩ := scfwd_ref (S := S) op hx hn ho hf hb h1
    exact ⟨v, sbinC_fwd (fun y hy => (hno y hy).elim) h3, h2 _ _ _ ▸ h4⟩

theorem sbase_isSub {e : Env} {k : SKind} {K : Kind} (h : k.At e K) (r : Root) : k.base.isSub r = under r K := by
  induction k generalizing K with
  | root r' => cases h; cases r <;> cases r' <;> rfl
  | poly id t f sel iht ihf =>
    obtain ⟨T, F, b, ht, hf, _, rfl⟩ := h
    rw [under, ← iht ht, ← ihf hf, SKind.base]
    generalize t.base = a
    generalize f.base = b
    cases a <;> cases b <;> cases r <;> rfl

theorem sproperSub_derives {e : Env} {x y : SBV} {X Y : BVal} (hx : Den e x X) (hy : Den e y Y) (hz : y.size = x.size) :
    SBV.properSub y x = derives Y.kind X.kind := by
  have hx := hx.1
  have hy := hy.1
  unfold SBV.properSub SBV.sameType derives
  cases hk : x.kind with
  | root r =>
    rw [hk] at hx
    rw [show X.kind = .root r from hx]
    simp only [SKind.isSub, sbase_isSub hy, hz, beq_self_eq_true, Bool.and_true]
    cases hk' : y.kind with
    | root r' =>
      rw [hk'] at hy
      rw [show Y.kind = .root r' from hy]
      by_cases h : r' = r
      · simp [h]
      · have h2 : ¬ r = r' := fun e => h e.symm
        simp [h, h2]
    | poly id t f sel =>
      rw [hk'] at hy
      obtain ⟨T, F, b, _, _, _, h⟩ := hy
      rw [h]
      simp
  | poly id t f sel =>
    rw [hk] at hx
    obtain ⟨T, F, b, _, _, _, h⟩ := hx
    rw [h]
    simp only [SKind.isSub, hz, beq_self_eq_true, Bool.and_true]
    by_cases h : y.kind = .poly id t f sel
    · simp [h]
    · simp [h]

theorem svectors_ref {e : Env} {x y : SBV} {X Y : BVal} (hx : Den e x X) (hy : Den e y Y) (hn : 0 < x.size)
    (hz : y.size = x.size) (i : Nat) :
    (∀ op, (SBV.properSub y x = true → op ≠ .shr) → ∃ v, sbinA S op x (.bv y) i = .ok (v, i) ∧ v.kind = x.kind ∧
      Den e v ⟨X.kind, X.size,
        refSmt (if SBV.properSub y x then readsSigned Y.kind else readsSigned X.kind) op X.size X.value Y.value⟩) ∧
    (∀ op, ∃ v, sbinC S op x (.bv y) = .ok (.sym v) ∧
      DenBit e v (refC (if SBV.properSub y x then readsSigned Y.kind else readsSigned X.kind) op X.size X.value Y.value)) := by
  have sx : X.size = x.size := hx.2.1
  have sy : Y.size = y.size := hy.2.1
  have hop : operand X.size (.bv Y) = .ok Y.value := by simp [operand]; omega
  have hop' : operand Y.size (.bv X) = .ok X.value := by simp [operand]; omega
  have hs : Y.size = X.size := by omega
  constructor
  · intro op hsh
    obtain ⟨s, h1, h2⟩ := sslot_ref op hx.1
    obtain ⟨s', h1', h2'⟩ := sslot_ref op hy.1
    by_cases hp : SBV.properSub y x = true
    · rw [if_pos hp]
      by_cases hsl : AOp.sslot op y.kind = AOp.sslot op x.kind
      · obtain ⟨v, h3, h4, h5, _⟩ := sfwd_ref (S := S) op hx hn (.bv hy) trivial hop i h1
        refine ⟨v, sbinA_fwd (fun y' hy' => ?_) h3, h5, ?_⟩
        · cases hy'; simp [hsl]
        · rw [hsl] at h1'
          cases h1.unique h1'
          exact h2' _ _ _ ▸ h4
      · have hc : scoerce S y.kind y.size (.bv x) = .ok x := by simp [scoerce]; omega
        obtain ⟨v, h3, h4, h5, _⟩ := srev_ref (S := S) op hy (by omega) hc hx (by omega) i
          (fun h => absurd h (hsh hp)) h1'
        refine ⟨v, ?_, h5, ?_⟩
        · have : (SBV.properSub y x && AOp.sslot op y.kind != AOp.sslot op x.kind) = true := by
            simp [hp, bne_iff_ne, hsl]
          simp only [sbinA, this, if_true, bind, StateT.bind, h3, Except.bind]; rfl
        · rw [hs] at h4
          exact h2' _ _ _ ▸ h4
    · rw [if_neg hp]
      obtain ⟨v, h3, h4, h5, _⟩ := sfwd_ref (S := S) op hx hn (.bv hy) trivial hop i h1
      refine ⟨v, sbinA_fwd (fun y' hy' => ?_) h3, h5, h2 _ _ _ ▸ h4⟩
      cases hy'; simp [hp]
  · intro op
    by_cases hp : SBV.properSub y x = true
    · rw [if_pos hp]
      obtain ⟨s, h1, h2⟩ := sslotC_ref op.swap hy.1
      obtain ⟨v, h3, h4⟩ := scfwd_ref (S := S) op.swap hy (by omega) (.bv hx) trivial hop' h1
      refine ⟨v, by simp only [sbinC, hp, if_true, h3, ok_bind]; rfl, ?_⟩
      rw [h2, hs] at h4
      have : ∀ (s : Bool) (n : Nat) (a b : Int), refC s op.swap n a b = refC s op n b a := by
        intro s n a b
        cases op <;> simp [refC, COp.swap, eq_comm]
      rwa [this] at h4
    · rw [if_neg hp]
      obtain ⟨s, h1, h2⟩ := sslotC_ref op hx.1
      obtain ⟨v, h3, h4⟩ := scfwd_ref (S := S) op hx hn (.bv hy) trivial hop h1
      refine ⟨v, sbinC_fwd (fun y' hy' => ?_) h3, h2 _ _ _ ▸ h4⟩
      cases hy'; simpa using hp

/-- **C115** two vectors of any classes of one width.  The reading is that of the left operand, unless the class of the right
operand derives from the left one's and has its own operators: then it is that of the right operand.  In the latter case `>>`
is excluded, see `C115_right_rshift_refuted`. -/
theorem C115_vectors_partial {e : Env} {x y : SBV} {X Y : BVal} (hx : Den e x X) (hy : Den e y Y) (hn : 0 < x.size)
    (hz : y.size = x.size) (i : Nat) :
    (∀ op, (derives Y.kind X.kind = true → op ≠ .shr) → ∃ v, sbinA S op x (.bv y) i = .ok (v, i) ∧ v.kind = x.kind ∧
      Den e v ⟨X.kind, X.size,
        refSmt (if derives Y.kind X.kind then readsSigned Y.kind else readsSigned X.kind) op X.size X.value Y.value⟩) ∧
    (∀ op, ∃ v, sbinC S op x (.bv y) = .ok (.sym v) ∧
      DenBit e v (refC (if derives Y.kind X.kind then readsSigned Y.kind else readsSigned X.kind) op X.size X.value
        Y.value)) := by
  rw [← sproperSub_derives hx hy hz]
  exact svectors_ref S hx hy hn hz i

/-- **C115** vectors of different widths: `InconsistentSizeError`, whatever the classes. -/
theorem C115_widths {e : Env} {x y : SBV} {X Y : BVal} (hx : Den e x X) (hy : Den e y Y) (hn : 0 < x.size)
    (hz : y.size ≠ x.size) (i : Nat) :
    (∀ op, sbinA S op x (.bv y) i = .error .inconsistentSize) ∧ (∀ op, sbinC S op x (.bv y) = .error .inconsistentSize) := by
  have sx : X.size = x.size := hx.2.1
  have sy : Y.size = y.size := hy.2.1
  have hop : operand X.size (.bv Y) = .error .inconsistentSize := by
    simp only [operand]; rw [if_neg (by omega)]
  have hp : SBV.properSub y x = false := by simp [SBV.properSub, hz]
  constructor
  · intro op
    have := sfwd_err (S := S) op hx hn (.bv hy) trivial hop i (AOp.sslot op x.kind)
    simp only [sbinA, hp, Bool.false_and, Bool.false_eq_true, if_false, bind, StateT.bind, this]; rfl
  · intro op
    have := scfwd_err (S := S) op hx hn (.bv hy) trivial hop (COp.sslot op x.kind)
    simp only [sbinC, hp, Bool.false_eq_true, if_false, this]; rfl

/-- **C115** an operand that does not convert to a vector raises `TypeError`; compared with `==`, `!=` it is different. -/
theorem C115_unusable {e : Env} {x : SBV} {X : BVal} {o : SObj} {O : Obj} (hx : Den e x X) (hn : 0 < x.size)
    (ho : DenObj e o O) (hf : o.Fits x.size) (hno : ∀ y, o ≠ .bv y) (hd : O.denotes = none) (i : Nat) :
    (∀ op, sbinA S op x o i = .error .typeError) ∧ sbinC S .eq x o = .ok (.py false) ∧ sbinC S .ne x o = .ok (.py true) ∧
    ∀ op, COp.signDep op = true → sbinC S op x o = .error .typeError := by
  have hb : operand X.size O = .error .typeError := by
    cases ho with
    | bv => exact (hno _ rfl).elim
    | _ => simp only [operand, hd]
  have hC : ∀ op, sbinC S op x o = sdefaultC op := by
    intro op
    have := scfwd_err (S := S) op hx hn ho hf hb (COp.sslot op x.kind)
    cases o with
    | bv y => exact (hno _ rfl).elim
    | _ => simp only [sbinC, this, tryOper, ok_bind]
  refine ⟨fun op => ?_, hC .eq, hC .ne, fun op h => ?_⟩
  · have := sfwd_err (S := S) op hx hn ho hf hb i (AOp.sslot op x.kind)
    cases o with
    | bv y => exact (hno _ rfl).elim
    | _ => simp only [sbinA, bind, StateT.bind, this]; rfl
  · rw [hC]; cases op <;> first | rfl | simp [COp.signDep] at h

theorem scoerce_kind {k : SKind} {n : Nat} {o : SObj} {y : SBV} (hno : ∀ y, o ≠ .bv y) (h : scoerce S k n o = .ok y) :
    y.kind = k := by
  have hb : ∀ {m : PyM Term}, (do bvF S k n (← m) : PyM SBV) = .ok y → y.kind = k := by
    intro m h
    cases m with
    | error => cases h
    | ok t => exact (bvF_kind h).1
  unfold scoerce at h
  split at h
  · exact (hno _ rfl).elim
  · unfold mkSBV at h
    split at h
    · exact (hno _ rfl).elim
    · cases h1 : Smt.mkBV 1 n with
      | error => rw [h1] at h; cases h
      | ok t1 =>
        rw [h1] at h
        cases h0 : Smt.mkBV 0 n with
        | error => rw [h0] at h; cases h
        | ok t0 => rw [h0] at h; exact hb h
    · split at h
      · cases h
      · split at h
        · cases h
        · rename_i el l _ _
          cases hm : mkElem S k el with
          | error => rw [hm] at h; cases h
          | ok z =>
            rw [hm] at h
            cases hl : concatElems S k z l with
            | error => simp only [ok_bind, hl] at h; cases h
            | ok w => simp only [ok_bind, hl] at h; exact (bvF_kind h).1
    · exact hb h
    · exact hb h
    · exact hb h
    · cases h

/-- **C115** an int, bool, sequence or other object on the left of an arithmetic operator: it is converted to the class of the
right operand, whose reading is used.  `>>` is excluded if some alternative is not `SMTSIntVector`. -/
theorem C115_right_partial {e : Env} {x : SBV} {X : BVal} {o : SObj} {O : Obj} (hx : Den e x X) (hn : 0 < x.size)
    (ho : DenObj e o O) (hf : o.Fits x.size) (hno : ∀ y, o ≠ .bv y) {b : Int} (hb : operand X.size O = .ok b) (i : Nat)
    (op : AOp) (hsh : op = .shr → x.kind.slot.hasUns = false) :
    ∃ v, sbinARight S op o x i = .ok (v, i) ∧ v.kind = x.kind ∧
      Den e v ⟨X.kind, X.size, refSmt (readsSigned X.kind) op X.size b X.value⟩ := by
  have sx : X.size = x.size := hx.2.1
  have hc := scoerce_rel (S := S) hn hx.1 ho hf
  have hO : HW.coerce X.kind x.size O = .ok ⟨X.kind, x.size, b⟩ := by
    rw [← sx]
    cases ho with
    | bv => exact (hno _ rfl).elim
    | _ =>
      simp only [HW.coerce, mkBV_eq]
      simp only [operand] at hb
      split at hb <;> simp_all [wrap]
  rw [hO] at hc
  obtain ⟨y, h1, h2, h3⟩ := hc.ok_right
  obtain ⟨s, r1, r2⟩ := sslot_ref op hx.1
  have hu : op = .shr → (AOp.sslot op x.kind).hasUns = false := by
    rintro rfl; exact hsh rfl
  obtain ⟨v, a1, a2, a3, _⟩ := srev_ref (S := S) op hx hn h1 h2 h3 i hu r1
  refine ⟨v, by simp only [sbinARight, bind, StateT.bind, a1, Except.bind]; rfl, a3.trans (scoerce_kind S hno h1), ?_⟩
  rw [r2] at a2
  exact a2

/-- **C115** (agreement).  Where it does not divide signed numbers, the symbolic operator denotes the operator of the concrete
family on the class the conditions select. -/
theorem C115_concrete_partial {e : Env} {x : SBV} {X : BVal} {o : SObj} {O : Obj} (hx : Den e x X) (hn : 0 < x.size)
    (ho : DenObj e o O) (hf : o.Fits x.size) (hfo : O.foreign) {b : Int} (hb : operand X.size O = .ok b) (i : Nat) :
    (∀ op, ¬ (readsSigned X.kind ∧ (op = .fdiv ∨ op = .mod)) →
      RelM (DenRes e i) ((sbinA S op x o i).map (·.1)) (binA op (.bv X) O i)) ∧
    (∀ op, RelM (DenCmp e) (sbinC S op x o) (binC op (.bv X) O)) := by
  have sx : X.size = x.size := hx.2.1
  have hno : ∀ y, o ≠ .bv y := by rintro y rfl; cases ho; exact hfo.elim
  obtain ⟨A, B⟩ := C115_operators S hx hn ho hf hno hb i
  obtain ⟨A', B'⟩ := C29_operators hx.WF (by omega) ho.WF hb (.inl hfo) i
  refine ⟨fun op hop => ?_, fun op => ?_⟩
  · obtain ⟨v, h1, _, h2⟩ := A op
    rw [h1, A' op]
    refine ⟨_, rfl, ?_⟩
    have : refSmt (readsSigned X.kind) op X.size X.value b = refA (readsSigned X.kind) op X.size X.value b := by
      unfold refSmt
      rw [if_neg (fun h => hop ⟨h.1, .inl h.2⟩), if_neg (fun h => hop ⟨h.1, .inr h.2⟩)]
    rwa [this] at h2
  · obtain ⟨v, h1, h2⟩ := B op
    rw [h1, B' op]
    exact h2

/-! ### After `c.ite(t, f)` -/

/-- All conditions of a class are bits. -/
def Smt.SKind.Sorted : SKind → Prop
  | .root _ => True
  | .poly _ t f sel => t.Sorted ∧ f.Sorted ∧ sel.ty? = some .bool

/-- A well-sorted vector, as every constructor makes. -/
def Smt.SBV.Sorted (x : SBV) : Prop := x.kind.Sorted ∧ x.term.ty? = some (.bv x.size)

theorem Smt.SKind.Sorted.at (e : Env) : ∀ {k : SKind}, k.Sorted → ∃ K, k.At e K
  | .root r, _ => ⟨.root r, rfl⟩
  | .poly id t f sel, ⟨h1, h2, h3⟩ => by
    obtain ⟨T, hT⟩ := h1.at e
    obtain ⟨F, hF⟩ := h2.at e
    obtain ⟨v, hv, hty⟩ := ty_eval e h3
    cases v with
    | bool b => exact ⟨.poly id T F b, T, F, b, hT, hF, hv, rfl⟩
    | int => cases hty
    | bv => cases hty

theorem Smt.SBV.Sorted.den (e : Env) {x : SBV} (h : x.Sorted) : ∃ X, Den e x X := by
  obtain ⟨K, hK⟩ := h.1.at e
  obtain ⟨v, hv, hty⟩ := ty_eval e h.2
  cases v with
  | bool => cases hty
  | int => cases hty
  | bv w b =>
    have : w = x.size := by simpa [Val.ty] using hty
    subst this
    exact ⟨⟨K, x.size, toI b⟩, hK, rfl, b, hv, rfl⟩

theorem sort_den (e : Env) {s : Term} (h : s.ty? = some .bool) : ∃ b, DenBit e s b := by
  obtain ⟨v, hv, hty⟩ := ty_eval e h
  cases v with
  | bool b => exact ⟨b, hv⟩
  | int => cases hty
  | bv => cases hty

/-- `c.ite(t, f)` on two vectors of one width. -/
theorem sIte_vec {s : Term} {t f : SBV} (hs : s.ty? = some .bool) (ht : t.Sorted) (hf : f.Sorted) (hz : t.size = f.size)
    (i : Nat) : ∃ r j, sIte S s (.bv t) (.bv f) i = .ok (.bv r, j) ∧ r.Sorted ∧ r.size = t.size ∧
      r.term = S.run (.ite s t.term f.term) ∧
      ((t.kind = f.kind ∧ r.kind = t.kind) ∨ r.kind = .poly i t.kind f.kind s) := by
  have hty : (Term.ite s t.term f.term).ty? = some (.bv t.size) := by
    have h1 := ht.2
    have h2 := hf.2
    rw [← hz] at h2
    simp [Term.ty?, hs, h1, h2]
  have hnode : node (.ite s t.term f.term) = .ok (.ite s t.term f.term) := by simp [node, hty]
  have hrun : (S.run (.ite s t.term f.term)).ty? = some (.bv t.size) := by
    obtain ⟨v, hv, hv'⟩ := ty_eval ⟨fun _ => false, fun _ => 0, fun _ _ => 0⟩ hty
    have := eval_ty (S.eval _ _ _ hv)
    rw [this, hv']
  have hp : spushIte s (.bv t) (.bv f) = .ok (.term (.ite s t.term f.term)) := by
    simp only [spushIte, smtIte, hnode, ok_bind]; rfl
  have hb : ∀ k, bvF S k t.size (.ite s t.term f.term) = .ok ⟨k, t.size, S.run (.ite s t.term f.term)⟩ := by
    intro k; simp [bvF, hty]
  by_cases hk : t.kind = f.kind
  · refine ⟨⟨t.kind, t.size, S.run (.ite s t.term f.term)⟩, i, ?_, ⟨ht.1, hrun⟩, rfl, rfl, .inl ⟨hk, rfl⟩⟩
    have hr : sreturnType s (.bv t) (.bv f) i = .ok (.vec t.kind t.size, i) := by
      simp only [sreturnType, hk, hz, and_self, if_true]; rfl
    simp only [sIte, bind, StateT.bind, hr, Except.bind, pyLift, hp, Except.map, scoerceBranch, hb]; rfl
  · refine ⟨⟨.poly i t.kind f.kind s, t.size, S.run (.ite s t.term f.term)⟩, i + 1, ?_, ⟨⟨ht.1, hf.1, hs⟩, hrun⟩, rfl, rfl, .inr rfl⟩
    have hr : sreturnType s (.bv t) (.bv f) i = .ok (.vec (.poly i t.kind f.kind s) t.size, i + 1) := by
      simp only [sreturnType, hk, false_and, if_false, bind, StateT.bind, spolyVector, hz, ne_eq, not_true]; rfl
    simp only [sIte, bind, StateT.bind, hr, Except.bind, pyLift, hp, Except.map, scoerceBranch, hb]; rfl

/-- What `sIte_vec` denotes. -/
theorem sIte_vec_den {e : Env} {s : Term} {b : Bool} {t f r : SBV} {T F : BVal} {i : Nat} (hs : DenBit e s b) (hT : Den e t T)
    (hF : Den e f F) (hz : t.size = f.size) (h2 : r.size = t.size) (h3 : r.term = S.run (.ite s t.term f.term))
    (h4 : (t.kind = f.kind ∧ r.kind = t.kind) ∨ r.kind = .poly i t.kind f.kind s) :
    ∃ K, Den e r ⟨K, T.size, (if b then T else F).value⟩ ∧ readsSigned K = readsSigned (if b then T else F).kind := by
  obtain ⟨t1, o, h5, h6, h7, h8⟩ := bv_ite (S := S) hs hT hF hz (k := .root .bv) (K := .root .bv) rfl
  have hT' : T.size = t.size := hT.2.1
  obtain ⟨_, _, bb, g1, g2⟩ := h7
  have ho : o.term = S.run (.ite s t.term f.term) := by
    have hn : .ite s t.term f.term = t1 := by
      unfold node at h5
      split at h5
      · cases h5; rfl
      · cases h5
    subst hn
    unfold bvF at h6
    split at h6
    · cases h6; rfl
    · cases h6
  obtain ⟨rk, rn, rt⟩ := r
  obtain ⟨ok, on, ot⟩ := o
  dsimp only at h2 h3 h4 h8 ho g1 g2 bb
  subst h2
  subst h8
  subst ho
  have hD : ∀ K, rk.At e K → Den e ⟨rk, t.size, rt⟩ ⟨K, T.size, (if b then T else F).value⟩ := by
    intro K hK
    refine ⟨hK, hT', bb, ?_, g2⟩
    rw [h3]
    exact g1
  rcases h4 with ⟨hk, hr⟩ | hr
  · refine ⟨T.kind, hD _ (by rw [hr]; exact hT.1), ?_⟩
    cases b
    · have : T.kind = F.kind := SKind.At.unique hT.1 (hk ▸ hF.1)
      simp [this]
    · rfl
  · refine ⟨.poly i T.kind F.kind b, hD _ (by rw [hr]; exact ⟨_, _, b, hT.1, hF.1, hs, rfl⟩), ?_⟩
    cases b <;> rfl

/-- **C115** put together: after `r = c.ite(t, f)` with a symbolic `c` and vectors of any classes, `r op k` is one term that
under every assignment has the value of `t op k` where `c` holds and of `f op k` where it does not; likewise comparisons. -/
theorem C115_ite_operator {s : Term} {t f : SBV} (hs : s.ty? = some .bool) (ht : t.Sorted) (hf : f.Sorted)
    (hz : t.size = f.size) (hn : 0 < t.size) (k : Int) (i : Nat) :
    ∃ r j, sIte S s (.bv t) (.bv f) i = .ok (.bv r, j) ∧
      (∀ op, ∃ v w w', sbinA S op r (.int k) j = .ok (v, j) ∧ sbinA S op t (.int k) j = .ok (w, j) ∧
        sbinA S op f (.int k) j = .ok (w', j) ∧
        ∀ e, ∃ b, DenBit e s b ∧ v.term.eval e = (if b then w else w').term.eval e) ∧
      (∀ op, ∃ v w w', sbinC S op r (.int k) = .ok (.sym v) ∧ sbinC S op t (.int k) = .ok (.sym w) ∧
        sbinC S op f (.int k) = .ok (.sym w') ∧
        ∀ e, ∃ b, DenBit e s b ∧ v.eval e = (if b then w else w').eval e) := by
  obtain ⟨r, j, h1, hr, h2, h3, h4⟩ := sIte_vec S hs ht hf hz i
  have hden : ∀ (e : Env) (x : SBV × BVal), Den e x.1 x.2 → x.1.size = t.size →
      operand x.2.size (.int k) = .ok (wrap t.size k) := by
    rintro e ⟨x, X⟩ hx hxs
    have : X.size = x.size := hx.2.1
    simp only [operand, Obj.denotes]
    rw [this, hxs]
  have evA : ∀ {e : Env} {v w : SBV} {V W : BVal}, Den e v V → Den e w W → V.size = W.size → V.value = W.value →
      v.term.eval e = w.term.eval e := by
    intro e v w V W hv hw hsz hval
    obtain ⟨_, K1, n1, t1, b1, rfl, rfl, _, e1⟩ := hv.cases
    obtain ⟨_, K2, n2, t2, b2, rfl, rfl, _, e2⟩ := hw.cases
    dsimp only at hsz hval ⊢
    subst hsz
    rw [e1, e2]
    have : b1 = b2 := BitVec.eq_of_toNat_eq (by unfold toI at hval; exact_mod_cast hval)
    rw [this]
  let e0 : Env := ⟨fun _ => false, fun _ => 0, fun _ _ => 0⟩
  refine ⟨r, j, h1, fun op => ?_, fun op => ?_⟩
  · have key : ∀ (e : Env) (x : SBV), x.Sorted → x.size = t.size → ∀ X, Den e x X → ∃ v, sbinA S op x (.int k) j = .ok (v, j) ∧
        Den e v ⟨X.kind, X.size, refSmt (readsSigned X.kind) op X.size X.value (wrap t.size k)⟩ := by
      intro e x hx hxs X hX
      obtain ⟨v, a1, _, a2⟩ := (C115_operators S hX (by omega) (o := .int k) .int trivial nofun (hden e (x, X) hX hxs) j).1 op
      exact ⟨v, a1, a2⟩
    obtain ⟨R, hR⟩ := hr.den e0
    obtain ⟨T, hT⟩ := ht.den e0
    obtain ⟨F, hF⟩ := hf.den e0
    obtain ⟨v, hv, _⟩ := key e0 r hr h2 R hR
    obtain ⟨w, hw, _⟩ := key e0 t ht rfl T hT
    obtain ⟨w', hw', _⟩ := key e0 f hf hz.symm F hF
    refine ⟨v, w, w', hv, hw, hw', fun e => ?_⟩
    obtain ⟨b, hb⟩ := sort_den e hs
    obtain ⟨T, hT⟩ := ht.den e
    obtain ⟨F, hF⟩ := hf.den e
    obtain ⟨K, hR, hK⟩ := sIte_vec_den S hb hT hF hz h2 h3 h4
    obtain ⟨v1, g1, g2⟩ := key e r hr h2 _ hR
    obtain ⟨w1, g3, g4⟩ := key e t ht rfl T hT
    obtain ⟨w2, g5, g6⟩ := key e f hf hz.symm F hF
    rw [hv] at g1; cases g1
    rw [hw] at g3; cases g3
    rw [hw'] at g5; cases g5
    have hTs : T.size = t.size := hT.2.1
    have hFs : F.size = f.size := hF.2.1
    have hsz : T.size = F.size := by omega
    refine ⟨b, hb, ?_⟩
    cases b
    · refine evA g2 g6 hsz ?_
      dsimp only at hK ⊢
      simp only [hK, Bool.false_eq_true, if_false, hsz]
    · refine evA g2 g4 rfl ?_
      dsimp only at hK ⊢
      simp only [hK, if_true]
  · have key : ∀ (e : Env) (x : SBV), x.Sorted → x.size = t.size → ∀ X, Den e x X → ∃ v, sbinC S op x (.int k) = .ok (.sym v) ∧
        DenBit e v (refC (readsSigned X.kind) op X.size X.value (wrap t.size k)) := by
      intro e x hx hxs X hX
      exact (C115_operators S hX (by omega) (o := .int k) .int trivial nofun (hden e (x, X) hX hxs) j).2 op
    obtain ⟨R, hR⟩ := hr.den e0
    obtain ⟨T, hT⟩ := ht.den e0
    obtain ⟨F, hF⟩ := hf.den e0
    obtain ⟨v, hv, _⟩ := key e0 r hr h2 R hR
    obtain ⟨w, hw, _⟩ := key e0 t ht rfl T hT
    obtain ⟨w', hw', _⟩ := key e0 f hf hz.symm F hF
    refine ⟨v, w, w', hv, hw, hw', fun e => ?_⟩
    obtain ⟨b, hb⟩ := sort_den e hs
    obtain ⟨T, hT⟩ := ht.den e
    obtain ⟨F, hF⟩ := hf.den e
    obtain ⟨K, hR, hK⟩ := sIte_vec_den S hb hT hF hz h2 h3 h4
    obtain ⟨v1, g1, g2⟩ := key e r hr h2 _ hR
    obtain ⟨w1, g3, g4⟩ := key e t ht rfl T hT
    obtain ⟨w2, g5, g6⟩ := key e f hf hz.symm F hF
    rw [hv] at g1; cases g1
    rw [hw] at g3; cases g3
    rw [hw'] at g5; cases g5
    have hTs : T.size = t.size := hT.2.1
    have hFs : F.size = f.size := hF.2.1
    have hsz : T.size = F.size := by omega
    refine ⟨b, hb, ?_⟩
    unfold DenBit at g2 g4 g6
    cases b
    · dsimp only at hK g2
      simp only [Bool.false_eq_true, if_false] at hK g2 ⊢
      rw [g2, g6, hK, hsz]
    · dsimp only at hK g2
      simp only [if_true] at hK g2 ⊢
      rw [g2, g4, hK]

/-! ### `ext`, `>>` -/

theorem sext_den {e : Env} {x : SBV} {X : BVal} (h : Den e x X) {k : Int} (hk : 0 ≤ k) :
    ∃ v, x.sext S k = .ok v ∧ Den e v ⟨X.kind, X.size + k.toNat, wrap (X.size + k.toNat) (signed X.size X.value)⟩ ∧
      v.kind = x.kind := by
  obtain ⟨kk, K, n, t, a, rfl, rfl, hkK, ht⟩ := h.cases
  have hev : (Term.un (.sext k.toNat) t).eval e = some (.bv (n + k.toNat) (a.signExtend _)) := by
    rw [Term.eval, ht]; rfl
  obtain ⟨v, h1, h2, h3, h4⟩ := bvF_den (S := S) hkK hev
  refine ⟨v, by simp only [SBV.sext, if_neg (by omega : ¬ k < 0), node_ok hev, ok_bind, h1], ?_, h3⟩
  rwa [toI_of_toInt, BitVec.toInt_signExtend_of_le (by omega), toInt_signed] at h4

theorem zext_den {e : Env} {x : SBV} {X : BVal} (h : Den e x X) {k : Int} (hk : 0 ≤ k) :
    ∃ v, x.zext S k = .ok v ∧ Den e v ⟨X.kind, X.size + k.toNat, X.value⟩ ∧ v.kind = x.kind := by
  have := zext_rel (S := S) h k
  rw [C17_zext h.WF, if_neg (by omega)] at this
  obtain ⟨v, h1, h2, h3⟩ := this.ok_right
  exact ⟨v, h1, h2, h3⟩

/-- **C115** `ext(k)` extends by zeros or by the sign, as the selected reading says; also for `k = 0`, where the concrete family
raises if one alternative is signed (`C29_ext_zero_refuted`).  Negative `k`: `ValueError`. -/
theorem C115_ext {e : Env} {x : SBV} {X : BVal} (hx : Den e x X) (k : Int) (i : Nat) :
    if 0 ≤ k then ∃ v, x.ext S k i = .ok (v, i) ∧ v.kind = x.kind ∧ Den e v ⟨X.kind, X.size + k.toNat,
      if readsSigned X.kind then wrap (X.size + k.toNat) (signed X.size X.value) else X.value⟩
    else x.ext S k i = .error .valueError := by
  have hr := slot_reads hx.1
  unfold SBV.ext
  generalize readsSigned X.kind = s at hr
  generalize x.kind.slot = im at hr
  split
  · rename_i hk
    induction im generalizing s with
    | uns =>
      cases hr
      obtain ⟨v, h1, h2, h3⟩ := zext_den S hx hk
      exact ⟨v, by simp only [sextImpl, h1]; rfl, h3, h2⟩
    | sgn =>
      cases hr
      obtain ⟨v, h1, h2, h3⟩ := sext_den S hx hk
      exact ⟨v, by simp only [sextImpl, h1]; rfl, h3, h2⟩
    | vcall id sel p q ihp ihq =>
      obtain ⟨c, s0, s1, hc, h0, h1, rfl⟩ := hr
      obtain ⟨v0, a1, a2, a3⟩ := ihp _ h0
      obtain ⟨v1, b1, b2, b3⟩ := ihq _ h1
      obtain ⟨v, c1, c2, c3, c4⟩ := siteBV_same (S := S) hc a3 b3 (a2.trans b2.symm) i
      refine ⟨v, ?_, c3.trans a2, ?_⟩
      · simp only [sextImpl, bind, StateT.bind, a1, b1, Except.bind, c1]
      · cases c <;> exact c2
  · rename_i hk
    have hk : k < 0 := by omega
    clear hr
    induction im with
    | uns => simp [sextImpl, SBV.zext, hk, pyLift, Except.map]
    | sgn => simp [sextImpl, SBV.sext, hk, pyLift, Except.map]
    | vcall id sel p q ihp ihq => simp only [sextImpl, bind, StateT.bind, ihp]; rfl

/-- **C115 refuted** for a polymorphic right operand of `>>`: with `p = c.ite(u, s)`, `u` a `SMTUIntVector`, and `x` a
`SMTBitVector`, `x >> p` is `p >> x` where `c` holds. -/
theorem C115_right_rshift_refuted {e : Env} {x y : SBV} {X Y : BVal} {id : Nat} {c : Term} {C : Bool} (hx : Den e x X)
    (hy : Den e y Y) (hn : 0 < x.size) (hz : y.size = x.size) (hkx : x.kind = .root .bv)
    (hky : y.kind = .poly id (.root .uint) (.root .sint) c) (hc : DenBit e c C) (i : Nat) :
    ∃ v j V, sbinA S .shr x (.bv y) i = .ok (v, j) ∧ Den e v V ∧
      V.value = if C then Y.value / 2 ^ X.value.toNat else wrap X.size (signed X.size X.value / 2 ^ Y.value.toNat) := by
  have sx : X.size = x.size := hx.2.1
  have sy : Y.size = y.size := hy.2.1
  have hp : SBV.properSub y x = true := by
    simp [SBV.properSub, SBV.sameType, hkx, hky, hz, SKind.isSub, SKind.base]; decide
  have hsl : AOp.sslot .shr y.kind = .vcall id c .uns .sgn := by
    rw [hky]; rfl
  have hslx : AOp.sslot .shr x.kind = .uns := by rw [hkx]; rfl
  have hop : operand X.size (.bv Y) = .ok Y.value := by simp [operand]; omega
  have hop' : operand Y.size (.bv X) = .ok X.value := by simp [operand]; omega
  obtain ⟨v0, a1, a2, a3, a4⟩ := sfwd_ref (S := S) .shr hy (by omega) (.bv hx) trivial hop' i (im := .uns) (s := false) rfl
  obtain ⟨v1, b1, b2, b3, b4⟩ := sfwd_ref (S := S) .shr hx hn (.bv hy) trivial hop i (im := .sgn) (s := true) rfl
  have hco : scoerce S y.kind y.size (.bv x) = .ok x := by simp [scoerce]; omega
  have hd : ClassesDistinct e (branchKinds (.bv v0)) (branchKinds (.bv v1)) (branchProtos (.bv v0)) (branchProtos (.bv v1)) := by
    constructor
    · intro k hk k' hk' K h h'
      simp only [branchKinds, List.mem_singleton] at hk hk'
      rw [hk, a3, hky] at h
      rw [hk', b3, hkx] at h'
      obtain ⟨T, F, b, _, _, _, rfl⟩ := h
      cases h'
    · intro c hc; simp [branchProtos] at hc
  have hi := C38_ite S hc (.bv a2) (.bv b2) hd i
  obtain ⟨K, j, hI, _⟩ := C27_vec C a2.WF b2.WF (by dsimp only; omega) i
  rw [hI] at hi
  obtain ⟨⟨w, j'⟩, g1, g2, g3⟩ := hi.ok_right
  dsimp only at g2 g3
  subst g3
  cases g2 with
  | bv hw =>
    rename_i w
    refine ⟨w, j', _, ?_, hw, ?_⟩
    · have hpp : (SBV.properSub y x && AOp.sslot .shr y.kind != AOp.sslot .shr x.kind) = true := by
        rw [hp, hsl, hslx]; simp
      have hv : AOp.srev S .shr (AOp.sslot .shr y.kind) y (.bv x) i = .ok (some w, j') := by
        rw [hsl]
        simp only [AOp.srev, if_true, bind, StateT.bind, a1, Except.bind, hco, b1, siteBV, g1]; rfl
      simp only [sbinA, hpp, if_true, bind, StateT.bind, hv, Except.bind]; rfl
    · dsimp only
      cases C <;> simp [refSmt, refA]

/-! ### Predefined classes -/

theorem sslot_root (op : AOp) (r : Root) : AOp.sslot op (.root r) = if op.signDep && r == .sint then .sgn else .uns := by
  cases op <;> cases r <;> rfl

theorem sfwd_root (op : AOp) (r : Root) (x : SBV) (o : SObj) (i : Nat) :
    AOp.sfwd S op (AOp.sslot op (.root r)) x o i = (sfwdA S op r x o).map fun v => (v, i) := by
  rw [sslot_root]; unfold sfwdA AOp.smtM; split <;> rfl

theorem srev_root (op : AOp) (r : Root) (x : SBV) (o : SObj) (i : Nat) :
    AOp.srev S op (AOp.sslot op (.root r)) x o i = (srevA S op r x o).map fun v => (v, i) := by
  have h := sfwd_root S op r
  rw [sslot_root] at h ⊢
  unfold srevA
  by_cases hc : (op.signDep && r == .sint) = true
  · simp only [hc, if_true] at h ⊢
    have hr : r = .sint := by simp at hc; exact hc.2
    simp only [hr, ne_eq, not_true, and_false, if_false, AOp.srev]
    subst hr
    cases scoerce S x.kind x.size o with
    | error => rfl
    | ok y => exact h y (.bv x) i
  · simp only [if_neg hc] at h ⊢
    simp only [AOp.srev]
    by_cases ho : op = .shr
    · have hr : r ≠ .sint := by subst ho; simpa [AOp.signDep] using hc
      simp only [ho, hr, ne_eq, not_false_eq_true, and_self, if_true]
      subst ho
      exact h x o i
    · simp only [ho, false_and, if_false]
      cases scoerce S x.kind x.size o with
      | error => rfl
      | ok y => exact h y (.bv x) i

/-- On predefined classes `sbinA` is `svecLeft`, `svecVec` of C75. -/
theorem sbinA_root (op : AOp) {r : Root} {x : SBV} (hk : x.kind = .root r) (o : SObj) (i : Nat) :
    (∀ y r', o = .bv y → y.kind = .root r' → sbinA S op x o i = (svecVec S op r r' x y).map fun v => (v, i)) ∧
    ((∀ y, o ≠ .bv y) → sbinA S op x o i = (svecLeft S op r x o).map fun v => (v, i)) := by
  constructor
  · rintro y r' rfl hk'
    have hcond : (SBV.properSub y x && AOp.sslot op y.kind != AOp.sslot op x.kind) = true ↔
        (¬ (r = r' ∧ x.size = y.size) ∧ y.size = x.size ∧ r'.isSub r ∧ op.signDep ∧ (r' = .sint ↔ ¬ r = .sint)) := by
      simp only [SBV.properSub, SBV.sameType, hk, hk', sslot_root, SKind.isSub, SKind.base]
      by_cases h1 : x.size = y.size
      · have h2 : y.size = x.size := h1.symm
        cases r <;> cases r' <;> cases op <;> simp [h1, AOp.signDep, Root.isSub]
      · have h2 : ¬ y.size = x.size := fun h => h1 h.symm
        simp [h1, h2]
    have hst : SBV.sameType x y = true ↔ r = r' ∧ x.size = y.size := by simp [SBV.sameType, hk, hk']
    unfold sbinA svecVec
    by_cases hc : (SBV.properSub y x && AOp.sslot op y.kind != AOp.sslot op x.kind) = true
    · rw [if_pos (hcond.1 hc)]
      simp only [hc, if_true]
      simp only [hk, hk', bind, StateT.bind, srev_root]
      cases srevA S op r' y (.bv x) with
      | error => rfl
      | ok v =>
        cases v with
        | some v => rfl
        | none =>
          simp only [Except.map, Except.bind, StateT.bind, bind, sfwd_root]
          cases sfwdA S op r x (.bv y) with
          | error => rfl
          | ok v => cases v <;> rfl
    · rw [if_neg (fun h => hc (hcond.2 h))]
      simp only [if_neg hc]
      simp only [hk, hk', bind, StateT.bind, sfwd_root]
      cases sfwdA S op r x (.bv y) with
      | error => rfl
      | ok v =>
        cases v with
        | some v => rfl
        | none =>
          simp only [Except.map, Except.bind]
          by_cases hs : SBV.sameType x y = true
          · rw [if_pos hs, if_pos (hst.1 hs)]; rfl
          · rw [if_neg hs, if_neg (fun h => hs (hst.2 h))]
            simp only [StateT.bind, bind, srev_root]
            cases srevA S op r' y (.bv x) with
            | error => rfl
            | ok v => cases v <;> rfl
  · intro hno
    cases o with
    | bv y => exact (hno y rfl).elim
    | _ =>
      simp only [sbinA, svecLeft, hk, bind, StateT.bind, sfwd_root]
      cases sfwdA S op r x _ with
      | error => rfl
      | ok v => cases v <;> rfl

/-- On predefined classes `sbinC` is `scmpLeft`, `scmpVec` of C75. -/
theorem sbinC_root (op : COp) {r : Root} {x : SBV} (hk : x.kind = .root r) (o : SObj) :
    (∀ y r', o = .bv y → y.kind = .root r' → sbinC S op x o = scmpVec S op r r' x y) ∧
    ((∀ y, o ≠ .bv y) → sbinC S op x o = scmpLeft S op r x o) := by
  have hf (op : COp) (r : Root) (x : SBV) (o : SObj) : COp.sfwd S op (COp.sslot op (.root r)) x o = sfwdC S op r x o := by
    unfold sfwdC; cases op <;> cases r <;> rfl
  constructor
  · rintro y r' rfl hk'
    have hcond : SBV.properSub y x = true ↔ (¬ (r = r' ∧ x.size = y.size) ∧ y.size = x.size ∧ r'.isSub r) := by
      simp only [SBV.properSub, SBV.sameType, hk, hk', SKind.isSub, SKind.base]
      by_cases h1 : x.size = y.size
      · have h2 : y.size = x.size := h1.symm
        cases r <;> cases r' <;> simp [h1, Root.isSub]
      · have h2 : ¬ y.size = x.size := fun h => h1 h.symm
        simp [h1, h2]
    unfold sbinC scmpVec
    by_cases hc : SBV.properSub y x = true
    · rw [if_pos (hcond.1 hc)]; simp only [hc, if_true, hk, hk', hf]; rfl
    · rw [if_neg (fun h => hc (hcond.2 h))]; simp only [if_neg hc, hk, hk', hf]; rfl
  · intro hno
    cases o with
    | bv y => exact (hno y rfl).elim
    | _ => simp only [sbinC, scmpLeft, hk, hf]; rfl

/-- **C115** (class): the class of `s.ite(t, f)` derives from exactly the predefined classes that the classes of both
branches derive from. -/
theorem C115_class {s : Term} {t f : SBV} (hs : s.ty? = some .bool) (ht : t.Sorted) (hf : f.Sorted)
    (hz : t.size = f.size) (i : Nat) : ∃ r j, sIte S s (.bv t) (.bv f) i = .ok (.bv r, j) ∧
      ∀ q, r.kind.isSub (.root q) = (t.kind.isSub (.root q) && f.kind.isSub (.root q)) := by
  obtain ⟨r, j, h1, -, -, -, h2⟩ := sIte_vec S hs ht hf hz i
  refine ⟨r, j, h1, fun q => ?_⟩
  rcases h2 with ⟨h2, h3⟩ | h2
  · rw [h3, h2, Bool.and_self]
  · rw [h2]
    exact lca_isSub _ _ _

/-! The hypotheses are met: `(p ? u : s) >> 1` for a `SMTUIntVector` `u` and a `SMTSIntVector` `s`. -/

example : ∃ r j, sIte noSimp (.sym ['p'] .bool) (.bv ⟨.root .uint, 8, .sym ['u'] (.bv 8)⟩) (.bv ⟨.root .sint, 8, .sym ['s'] (.bv 8)⟩) 0 =
    .ok (.bv r, j) ∧ r.kind = .poly 0 (.root .uint) (.root .sint) (.sym ['p'] .bool) := ⟨_, _, rfl, rfl⟩

example := C115_ite_operator noSimp (s := .sym ['p'] .bool) (t := ⟨.root .uint, 8, .sym ['u'] (.bv 8)⟩)
  (f := ⟨.root .sint, 8, .sym ['s'] (.bv 8)⟩) rfl ⟨trivial, rfl⟩ ⟨trivial, rfl⟩ rfl (by decide) 1 0

example := C115_class noSimp (s := .sym ['p'] .bool) (t := ⟨.root .uint, 8, .sym ['u'] (.bv 8)⟩)
  (f := ⟨.root .sint, 8, .sym ['s'] (.bv 8)⟩) rfl ⟨trivial, rfl⟩ ⟨trivial, rfl⟩ rfl 0

example (e : Env) : ∃ v j V, sbinA noSimp .shr ⟨.root .bv, 8, .bvC 8 8⟩
    (.bv ⟨.poly 0 (.root .uint) (.root .sint) (.boolC true), 8, .bvC 1 8⟩) 1 = .ok (v, j) ∧ Den e v V ∧ V.value = 0 :=
  C115_right_rshift_refuted noSimp (x := ⟨.root .bv, 8, .bvC 8 8⟩) (X := ⟨.root .bv, 8, 8⟩)
    (y := ⟨.poly 0 (.root .uint) (.root .sint) (.boolC true), 8, .bvC 1 8⟩)
    (Y := ⟨.poly 0 (.root .uint) (.root .sint) true, 8, 1⟩) (C := true) ⟨rfl, rfl, 8#8, rfl, rfl⟩
    ⟨⟨_, _, true, rfl, rfl, rfl, rfl⟩, rfl, 1#8, rfl, rfl⟩ (by decide) rfl rfl rfl rfl 1

end HW
