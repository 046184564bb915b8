import Verif.Model.Mixed
import Verif.Props.Sort

/-!
# Property C142: concrete vectors and bits mixed with symbolic ones

`intOf Y` is `int(Y)` of a concrete vector: its signed reading for `SIntVector`, else its value.
-/

namespace HW
open Spec Mixed
open Smt (SBV SObj Term Simplifier Env Den DenBit DenObj RelM sfwdA srevA sfwdC svecLeft svecRight scmpLeft scmpRight
  ok_bind BitOp)

variable (S : Simplifier)

theorem Mixed.attrs_bv {Y : BVal} (hY : Y.WF) (hm : 0 < Y.size) {r' : Root} (hr : Y.kind = .root r') :
    (CVal.bv Y).attrs = .ok (intOf Y, decide (Y.value ≠ 0)) := by
  have h := toInt_intOf hY hm hr
  have ht : ∀ v : Int, truthy v = decide (v ≠ 0) := by intro v; unfold truthy; by_cases hv : v = 0 <;> simp [hv]
  have hz : truthy (intOf Y) = decide (Y.value ≠ 0) := by
    rw [ht]
    refine decide_eq_decide.2 ?_
    obtain ⟨h0, h1⟩ := hY
    unfold intOf
    split
    · unfold signed
      split <;> omega
    · exact Iff.rfl
  simp only [CVal.attrs, BVal.toBool, h, ok_bind, hz]
  rfl

theorem Mixed.toSmt_bv {Y : BVal} (hY : Y.WF) (hm : 0 < Y.size) {r' : Root} (hr : Y.kind = .root r') :
    (CVal.bv Y).toSmt = .ok (.other (some (intOf Y)) (some (decide (Y.value ≠ 0)))) := by
  simp only [CVal.toSmt, attrs_bv hY hm hr, ok_bind]; rfl

theorem Mixed.toZ3_bv {Y : BVal} (hY : Y.WF) (hm : 0 < Y.size) {r' : Root} (hr : Y.kind = .root r') :
    (CVal.bv Y).toZ3 = .ok (.other (some (intOf Y)) (some (decide (Y.value ≠ 0)))) := by
  simp only [CVal.toZ3, attrs_bv hY hm hr, ok_bind]; rfl

/-- The concrete methods decline symbolic operands. -/
theorem Mixed.fwdA_declines (op : AOp) {Y : BVal} (hY : Y.WF) (hm : 0 < Y.size) :
    fwdA op (.bv Y) symObj 0 = .ok (none, 0) := by
  have hop : operand Y.size symObj = .error .typeError := by simp [operand, symObj, Obj.denotes]
  have h := fwd_err op (op.slot Y.kind) hY hm (o := symObj) trivial hop 0
  show (op.fwd (op.slot Y.kind) Y symObj 0).bind _ = _
  rw [h]; rfl

theorem Mixed.fwdC_declines (op : COp) {Y : BVal} (hY : Y.WF) (hm : 0 < Y.size) :
    fwdC op (.bv Y) symObj = .ok none := by
  have hop : operand Y.size symObj = .error .typeError := by simp [operand, symObj, Obj.denotes]
  exact cfwd_err op (op.slot Y.kind) hY hm (o := symObj) trivial hop

theorem Mixed.of_svecLeft {op : AOp} {r : Root} {x : SBV} {o : SObj} {z : SBV} (h : svecLeft S op r x o = .ok z) :
    sfwdA S op r x o = .ok (some z) := by
  unfold svecLeft at h
  cases hs : sfwdA S op r x o with
  | error e => rw [hs] at h; cases h
  | ok v => cases v with
    | none => rw [hs] at h; cases h
    | some v => rw [hs] at h; cases h; rfl

theorem Mixed.of_svecRight {op : AOp} {r : Root} {x : SBV} {o : SObj} {z : SBV} (h : svecRight S op r o x = .ok z) :
    srevA S op r x o = .ok (some z) := by
  unfold svecRight at h
  cases hs : srevA S op r x o with
  | error e => rw [hs] at h; cases h
  | ok v => cases v with
    | none => rw [hs] at h; cases h
    | some v => rw [hs] at h; cases h; rfl

theorem Mixed.wrap_id {n : Nat} {v : Int} (h0 : 0 ≤ v) (h1 : v < 2 ^ n) : wrap n v = v := Int.emod_eq_of_lt h0 h1

theorem Mixed.left_core {e : Env} {r : Root} {x : SBV} {X Y : BVal} (op : AOp)
    (hop : ¬ (r = .sint ∧ (op = .fdiv ∨ op = .mod))) (hk : x.kind = .root r) (hx : Den e x X) (hn : 0 < x.size)
    (h0 : 0 ≤ intOf Y) (h1 : intOf Y < 2 ^ x.size) :
    ∃ z, sfwdA S op r x (.other (some (intOf Y)) (some (decide (Y.value ≠ 0)))) = .ok (some z) ∧
      Den e z ⟨.root r, x.size, refA (decide (r = .sint)) op x.size X.value (intOf Y)⟩ := by
  have hX : X.kind = .root r := by have := hx.1; rw [hk] at this; exact this
  have hs : X.size = x.size := hx.2.1
  have hXw := hx.WF
  have h := C75_left S op 0 hop hk hx hn (o := .other (some (intOf Y)) (some (decide (Y.value ≠ 0)))) .other ⟨h0, h1⟩ nofun
  rw [(C23_right hXw (by omega) (o := .other (some (intOf Y)) (some (decide (Y.value ≠ 0)))) trivial rfl 0).1 op] at h
  obtain ⟨k, n, a⟩ := X
  dsimp only at hX hs hXw h ⊢
  subst hX hs
  rw [wrap_id h0 h1, (C25_operators r r x.size hn hXw ⟨h0, h1⟩ 0).1 op] at h
  obtain ⟨z, hz, V, hV, hd⟩ := h.ok_right
  cases hV
  refine ⟨z, of_svecLeft S hz, ?_⟩
  have : signedPair r r = decide (r = .sint) := by cases r <;> rfl
  rw [← this]; exact hd

/-- **C142** a symbolic vector on the left, a concrete one on the right: the operator of the symbolic class, on the
number `int(Y)`, whatever the width and class of `Y`, as long as that number is not negative and fits.  Missing: `//`
and `%` of `SMTSIntVector` (C34). -/
theorem C142_left_partial {e : Env} {r r' : Root} {x : SBV} {X Y : BVal} (op : AOp)
    (hop : ¬ (r = .sint ∧ (op = .fdiv ∨ op = .mod))) (hk : x.kind = .root r) (hx : Den e x X) (hn : 0 < x.size)
    (hY : Y.WF) (hm : 0 < Y.size) (hr : Y.kind = .root r') (h0 : 0 ≤ intOf Y) (h1 : intOf Y < 2 ^ x.size) :
    ∃ z, symLeft S op (.bv r x) (.bv Y) = .ok (.bv z) ∧
      Den e z ⟨.root r, x.size, refA (decide (r = .sint)) op x.size X.value (intOf Y)⟩ := by
  obtain ⟨z, hz, hd⟩ := left_core S op hop hk hx hn h0 h1
  refine ⟨z, ?_, hd⟩
  simp only [symLeft, toSmt_bv hY hm hr, ok_bind, symFwdA, hz]; rfl

theorem Mixed.other_raises {k : Smt.SKind} {n : Nat} {v : Int} (h : v < 0 ∨ 2 ^ n ≤ v) (b : Option Bool) :
    Smt.scoerce S k n (.other (some v) b) = .error .valueError := by
  have : Smt.mkBV v n = .error .valueError := by
    unfold Smt.mkBV
    by_cases h0 : v < 0
    · rw [if_pos h0]
    · rw [if_neg h0, if_pos (by omega)]
  simp only [Smt.scoerce, Smt.mkSBV, this]; rfl

theorem Mixed.smtM_raises (op : AOp) (r : Root) {x : SBV} {o : SObj} {er : PyErr}
    (h : Smt.scoerce S x.kind x.size o = .error er) : Smt.AOp.smtM S op r x o = .error er := by
  have hb : ∀ f, SBV.bin S f x o = .error er := by
    intro f; simp only [SBV.bin, SBV.cast, h]; rfl
  cases op <;> cases r <;> exact hb _

theorem Mixed.smtMC_raises (op : COp) (r : Root) {x : SBV} {o : SObj} {er : PyErr}
    (h : Smt.scoerce S x.kind x.size o = .error er) : Smt.COp.smtM S op r x o = .error er := by
  have hc : ∀ {α : Type} (f : SBV → PyM α), x.cast S o f = .error er := by
    intro α f; simp only [SBV.cast, h]; rfl
  cases op <;> cases r <;> exact hc _

/-- **C142** a symbolic vector on the right: reflected dispatch; the result has the class and width of the symbolic
operand.  Missing: `>>` on the unsigned classes (`C142_rshift_swapped`), and `//` and `%` of `SMTSIntVector`. -/
theorem C142_right_partial {e : Env} {r r' : Root} {x : SBV} {X Y : BVal} (op : AOp)
    (hop : ¬ (r = .sint ∧ (op = .fdiv ∨ op = .mod))) (hsh : op = .shr → r = .sint)
    (hk : x.kind = .root r) (hx : Den e x X) (hn : 0 < x.size)
    (hY : Y.WF) (hm : 0 < Y.size) (hr : Y.kind = .root r') (h0 : 0 ≤ intOf Y) (h1 : intOf Y < 2 ^ x.size) :
    ∃ z, symRight S op (.bv Y) (.bv r x) = .ok (.bv z) ∧
      Den e z ⟨.root r, x.size, refA (decide (r = .sint)) op x.size (intOf Y) X.value⟩ := by
  have hX : X.kind = .root r := by have := hx.1; rw [hk] at this; exact this
  have hs : X.size = x.size := hx.2.1
  have hXw := hx.WF
  have h := C75_right S op 0 hop hk hx hn (o := .other (some (intOf Y)) (some (decide (Y.value ≠ 0)))) .other ⟨h0, h1⟩ nofun nofun
  rw [C23_left_partial hXw (by omega) (o := .other (some (intOf Y)) (some (decide (Y.value ≠ 0)))) trivial rfl op
    (fun ho => by rw [hX, hsh ho]) 0] at h
  obtain ⟨k, n, a⟩ := X
  dsimp only at hX hs hXw h ⊢
  subst hX hs
  rw [wrap_id h0 h1, (C25_operators r r x.size hn ⟨h0, h1⟩ hXw 0).1 op] at h
  obtain ⟨z, hz, V, hV, hd⟩ := h.ok_right
  cases hV
  refine ⟨z, ?_, ?_⟩
  · simp only [symRight, CVal.obj, fwdA_declines op hY hm, ok_bind, toSmt_bv hY hm hr, symRevA, of_svecRight S hz]; rfl
  · have : signedPair r r = decide (r = .sint) := by cases r <;> rfl
    rw [← this]; exact hd

/-- **C142** what `Y >> x` does on the unsigned classes: `x >> Y`. -/
theorem C142_rshift_swapped {e : Env} {r r' : Root} {x : SBV} {X Y : BVal} (hs : r ≠ .sint)
    (hk : x.kind = .root r) (hx : Den e x X) (hn : 0 < x.size)
    (hY : Y.WF) (hm : 0 < Y.size) (hr : Y.kind = .root r') (h0 : 0 ≤ intOf Y) (h1 : intOf Y < 2 ^ x.size) :
    ∃ z, symRight S .shr (.bv Y) (.bv r x) = .ok (.bv z) ∧ Den e z ⟨.root r, x.size, X.value / 2 ^ (intOf Y).toNat⟩ := by
  obtain ⟨z, hz, hd⟩ := left_core S .shr (fun h => by simp at h) hk hx hn h0 h1
  refine ⟨z, ?_, by simpa [refA, hs] using hd⟩
  have hrev : ∀ o, srevA S .shr r x o = sfwdA S .shr r x o := fun o => if_pos ⟨rfl, hs⟩
  simp only [symRight, CVal.obj, fwdA_declines .shr hY hm, ok_bind, toSmt_bv hY hm hr, symRevA, hrev, hz]; rfl

/-- **C142** a concrete vector whose number is negative or does not fit raises: `ValueError` from pysmt, or `NameError`
when the symbolic vector is on the right of an arithmetic operator. -/
theorem C142_raises {r r' : Root} {x : SBV} {Y : BVal} (hY : Y.WF) (hm : 0 < Y.size) (hr : Y.kind = .root r')
    (h : intOf Y < 0 ∨ 2 ^ x.size ≤ intOf Y) :
    (∀ op, symLeft S op (.bv r x) (.bv Y) = .error .valueError) ∧
    (∀ op, ¬ (op = .shr ∧ r ≠ .sint) → symRight S op (.bv Y) (.bv r x) = .error .nameError) ∧
    (∀ op, symLeftC S op (.bv r x) (.bv Y) = .error .valueError) ∧
    ∀ op, symRightC S op (.bv Y) (.bv r x) = .error .valueError := by
  have hc := other_raises S (k := x.kind) h (some (decide (Y.value ≠ 0)))
  have hA : ∀ op, sfwdA S op r x (.other (some (intOf Y)) (some (decide (Y.value ≠ 0)))) = .error .valueError := by
    intro op; unfold sfwdA; rw [smtM_raises S op r hc]; rfl
  have hC : ∀ op, sfwdC S op r x (.other (some (intOf Y)) (some (decide (Y.value ≠ 0)))) = .error .valueError := by
    intro op; unfold sfwdC; rw [smtMC_raises S op r hc]; rfl
  refine ⟨fun op => ?_, fun op hsh => ?_, fun op => ?_, fun op => ?_⟩
  · simp only [symLeft, toSmt_bv hY hm hr, ok_bind, symFwdA, hA]; rfl
  · have hR : srevA S op r x (.other (some (intOf Y)) (some (decide (Y.value ≠ 0)))) = .error .nameError := by
      unfold srevA; rw [if_neg hsh, hc]
    simp only [symRight, CVal.obj, fwdA_declines op hY hm, toSmt_bv hY hm hr, ok_bind, symRevA, hR]; rfl
  · simp only [symLeftC, toSmt_bv hY hm hr, ok_bind, symFwdC, hC]; rfl
  · simp only [symRightC, CVal.obj, fwdC_declines op hY hm, toSmt_bv hY hm hr, ok_bind, symFwdC, hC]; rfl

/-- **C142** comparisons, both ways round. -/
theorem C142_compare {e : Env} {r r' : Root} {x : SBV} {X Y : BVal} (op : COp)
    (hk : x.kind = .root r) (hx : Den e x X) (hn : 0 < x.size)
    (hY : Y.WF) (hm : 0 < Y.size) (hr : Y.kind = .root r') (h0 : 0 ≤ intOf Y) (h1 : intOf Y < 2 ^ x.size) :
    (∃ t, symLeftC S op (.bv r x) (.bv Y) = .ok (.bit t) ∧
      DenBit e t (refC (decide (r = .sint)) op x.size X.value (intOf Y))) ∧
    ∃ t, symRightC S op (.bv Y) (.bv r x) = .ok (.bit t) ∧
      DenBit e t (refC (decide (r = .sint)) op x.size (intOf Y) X.value) := by
  have hX : X.kind = .root r := by have := hx.1; rw [hk] at this; exact this
  have hs : X.size = x.size := hx.2.1
  have hXw := hx.WF
  have hsp : signedPair r r = decide (r = .sint) := by cases r <;> rfl
  have hl := C75_compare_left S op hk hx hn (o := .other (some (intOf Y)) (some (decide (Y.value ≠ 0)))) .other ⟨h0, h1⟩ nofun
  have hq := C75_compare_right S op hk hx hn (o := .other (some (intOf Y)) (some (decide (Y.value ≠ 0)))) .other ⟨h0, h1⟩ nofun nofun
  rw [(C23_right hXw (by omega) (o := .other (some (intOf Y)) (some (decide (Y.value ≠ 0)))) trivial rfl 0).2 op] at hl
  rw [C23_left_compare hXw (by omega) (o := .other (some (intOf Y)) (some (decide (Y.value ≠ 0)))) trivial rfl op] at hq
  obtain ⟨k, n, a⟩ := X
  dsimp only at hX hs hXw hl hq ⊢
  subst hX hs
  rw [wrap_id h0 h1, (C25_operators r r x.size hn hXw ⟨h0, h1⟩ 0).2 op, hsp] at hl
  rw [wrap_id h0 h1, (C25_operators r r x.size hn ⟨h0, h1⟩ hXw 0).2 op, hsp] at hq
  constructor
  · obtain ⟨z, hz, hd⟩ := hl.ok_right
    unfold scmpLeft at hz
    cases hf : sfwdC S op r x (.other (some (intOf Y)) (some (decide (Y.value ≠ 0)))) with
    | error er => rw [hf] at hz; cases hz
    | ok v => cases v with
      | none => rw [hf] at hz; cases op <;> cases hz <;> exact hd.elim
      | some v =>
        rw [hf] at hz; cases hz
        refine ⟨v, ?_, hd⟩
        simp only [symLeftC, toSmt_bv hY hm hr, ok_bind, symFwdC, hf]; rfl
  · obtain ⟨z, hz, hd⟩ := hq.ok_right
    unfold scmpRight at hz
    cases hf : sfwdC S op.swap r x (.other (some (intOf Y)) (some (decide (Y.value ≠ 0)))) with
    | error er => rw [hf] at hz; cases hz
    | ok v => cases v with
      | none => rw [hf] at hz; cases op <;> cases hz <;> exact hd.elim
      | some v =>
        rw [hf] at hz; cases hz
        refine ⟨v, ?_, hd⟩
        simp only [symRightC, CVal.obj, fwdC_declines op hY hm, toSmt_bv hY hm hr, ok_bind, symFwdC, hf]; rfl

/-- **C142** with two vectors of one class and one width, the mixed expression is the concrete one. -/
theorem C142_same_class_partial {e : Env} {r : Root} {x : SBV} {X Y : BVal} (i : Nat)
    (hk : x.kind = .root r) (hx : Den e x X) (hn : 0 < x.size)
    (hY : Y.WF) (hs : Y.size = x.size) (hr : Y.kind = .root r) (h0 : 0 ≤ intOf Y) :
    (∀ op, ¬ (r = .sint ∧ (op = .fdiv ∨ op = .mod)) → ∃ z Z, symLeft S op (.bv r x) (.bv Y) = .ok (.bv z) ∧
      binA op (.bv X) (.bv Y) i = .ok (.bv Z, i) ∧ Den e z Z) ∧
    (∀ op, ¬ (r = .sint ∧ (op = .fdiv ∨ op = .mod)) → (op = .shr → r = .sint) →
      ∃ z Z, symRight S op (.bv Y) (.bv r x) = .ok (.bv z) ∧
      binA op (.bv Y) (.bv X) i = .ok (.bv Z, i) ∧ Den e z Z) ∧
    (∀ op, ∃ t T, symLeftC S op (.bv r x) (.bv Y) = .ok (.bit t) ∧ binC op (.bv X) (.bv Y) = .ok (.bit T) ∧ DenBit e t T) ∧
    ∀ op, ∃ t T, symRightC S op (.bv Y) (.bv r x) = .ok (.bit t) ∧ binC op (.bv Y) (.bv X) = .ok (.bit T) ∧ DenBit e t T := by
  have hX : X.kind = .root r := by have := hx.1; rw [hk] at this; exact this
  have hs' : X.size = x.size := hx.2.1
  have hXw := hx.WF
  have hsp : signedPair r r = decide (r = .sint) := by cases r <;> rfl
  have hv : intOf Y = Y.value := by
    unfold intOf at h0 ⊢
    obtain ⟨h2, h3⟩ := hY
    split at h0 <;> rename_i hc
    · rw [if_pos hc]; unfold signed at h0 ⊢; split at h0 <;> split <;> omega
    · rw [if_neg hc]
  have h1 : intOf Y < 2 ^ x.size := by rw [hv, ← hs]; exact hY.2
  have hm : 0 < Y.size := by omega
  have L := fun op hop => C142_left_partial S op hop hk hx hn hY hm hr h0 h1
  have R := fun op hop hsh => C142_right_partial S op hop hsh hk hx hn hY hm hr h0 h1
  have C := fun op => C142_compare S op hk hx hn hY hm hr h0 h1
  rw [hv] at L R C
  have hYe : Y = ⟨.root r, x.size, Y.value⟩ := by obtain ⟨k, n, v⟩ := Y; dsimp only at hr hs; subst hr hs; rfl
  have hXe : X = ⟨.root r, x.size, X.value⟩ := by obtain ⟨k, n, v⟩ := X; dsimp only at hX hs'; subst hX hs'; rfl
  have hYw : 0 ≤ Y.value ∧ Y.value < 2 ^ x.size := by rw [← hs]; exact hY
  have hXw' : 0 ≤ X.value ∧ X.value < 2 ^ x.size := by rw [← hs']; exact hXw
  have c1 := C25_operators r r x.size hn hXw' hYw i
  have c2 := C25_operators r r x.size hn hYw hXw' i
  rw [← hYe, ← hXe, hsp] at c1 c2
  refine ⟨fun op hop => ?_, fun op hop hsh => ?_, fun op => ?_, fun op => ?_⟩
  · obtain ⟨z, hz, hd⟩ := L op hop; exact ⟨z, _, hz, c1.1 op, hd⟩
  · obtain ⟨z, hz, hd⟩ := R op hop hsh; exact ⟨z, _, hz, c2.1 op, hd⟩
  · obtain ⟨z, hz, hd⟩ := (C op).1; exact ⟨z, _, hz, c1.2 op, hd⟩
  · obtain ⟨z, hz, hd⟩ := (C op).2; exact ⟨z, _, hz, c2.2 op, hd⟩

/-- **C142** `T[n](Y)`: the symbolic constructor takes the number `int(Y)`, and raises if it is negative or does not
fit. -/
theorem C142_construct (e : Env) (r : Root) {r' : Root} (n : Nat) {Y : BVal} (hY : Y.WF) (hm : 0 < Y.size)
    (hr : Y.kind = .root r') :
    (0 ≤ intOf Y → intOf Y < 2 ^ n → ∃ o z, (CVal.bv Y).toSmt = .ok o ∧ Smt.mkSBV S (.root r) n o = .ok z ∧
      Den e z ⟨.root r, n, intOf Y⟩) ∧
    (intOf Y < 0 ∨ 2 ^ n ≤ intOf Y → ∃ o, (CVal.bv Y).toSmt = .ok o ∧ Smt.mkSBV S (.root r) n o = .error .valueError) := by
  refine ⟨fun h0 h1 => ?_, fun h => ⟨_, toSmt_bv hY hm hr,
    other_raises S (k := .root r) h (some (decide (Y.value ≠ 0)))⟩⟩
  obtain ⟨t, ht, hev⟩ := Smt.mkBV_ok h0 h1
  obtain ⟨b, hb, hv⟩ := hev e
  obtain ⟨z, hz, _, _, hd⟩ := Smt.bvF_den (S := S) (k := .root r) (K := .root r) rfl hb
  rw [hv] at hd
  refine ⟨_, z, toSmt_bv hY hm hr, ?_, hd⟩
  simp only [Smt.mkSBV, ht, ok_bind, hz]

theorem Mixed.bit_fwd {e : Env} {a : Term} {A B : Bool} (ha : DenBit e a A) (op : BitOp) (i : Option Int) :
    ∃ t, op.fwd S a (.other i (some B)) = .ok (some t) ∧ DenBit e t (op.meaning A B) := by
  have hb : DenBit e (S.run (.boolC B)) B := S.eval _ _ _ rfl
  have hev := bitTerm ha hb op
  refine ⟨S.run (op.term a (S.run (.boolC B))), ?_, S.eval _ _ _ hev⟩
  have h1 : Smt.bitF S (op.term a (S.run (.boolC B))) = .ok (S.run (op.term a (S.run (.boolC B)))) := by
    simp [Smt.bitF, Smt.eval_ty hev, Smt.Val.ty]
  simp only [BitOp.fwd, Smt.castBit, Smt.mkSBit, Smt.node_ok hev, ok_bind, h1]; rfl

theorem Mixed.bit_rev {e : Env} {a : Term} {A B : Bool} (ha : DenBit e a A) (op : BitOp) (hop : op ≠ .xor) (i : Option Int) :
    ∃ t, op.rev S a (.other i (some B)) = .ok (some t) ∧ DenBit e t (op.meaning B A) := by
  have hb : DenBit e (S.run (.boolC B)) B := S.eval _ _ _ rfl
  have hev := bitTerm hb ha op
  have h1 : Smt.bitF S (op.term (S.run (.boolC B)) a) = .ok (S.run (op.term (S.run (.boolC B)) a)) := by
    simp [Smt.bitF, Smt.eval_ty hev, Smt.Val.ty]
  have hf := bit_fwd S (B := B) ha op i
  rw [Smt.BitOp.meaning_comm] at hf
  cases op with
  | xor => exact absurd rfl hop
  | eq => exact hf
  | ne => exact hf
  | _ =>
    refine ⟨_, ?_, S.eval _ _ _ hev⟩
    simp only [BitOp.rev, Smt.castBit, Smt.mkSBit, Smt.node_ok hev, ok_bind, h1]; rfl

theorem Mixed.bit_declines (op : AOp) (B : Bool) : fwdA op (.bit B) symObj 0 = .ok (none, 0) ∧
    revA op symObj (.bit B) 0 = .ok (none, 0) := by cases op <;> exact ⟨rfl, rfl⟩

/-- **C142** a `SMTBit` and a `Bit`: the operators of `Bit`, except that `Bit ^ SMTBit` raises. -/
theorem C142_bits_partial {e : Env} {a : Term} {A : Bool} (ha : DenBit e a A) (B : Bool) :
    (∀ op ∈ [AOp.and, .or, .xor], ∃ t T, symLeft S op (.bit a) (.bit B) = .ok (.bit t) ∧
      binA op (.bit A) (.bit B) 0 = .ok (.bit T, 0) ∧ DenBit e t T) ∧
    (∀ op ∈ [AOp.and, .or], ∃ t T, symRight S op (.bit B) (.bit a) = .ok (.bit t) ∧
      binA op (.bit B) (.bit A) 0 = .ok (.bit T, 0) ∧ DenBit e t T) ∧
    (∀ op ∈ [COp.eq, .ne], ∃ t T, symLeftC S op (.bit a) (.bit B) = .ok (.bit t) ∧
      binC op (.bit A) (.bit B) = .ok (.bit T) ∧ DenBit e t T) ∧
    (∀ op ∈ [COp.eq, .ne], ∃ t T, symRightC S op (.bit B) (.bit a) = .ok (.bit t) ∧
      binC op (.bit B) (.bit A) = .ok (.bit T) ∧ DenBit e t T) := by
  have hc := C74_concrete A B 0
  have hc' := C74_concrete B A 0
  have hF := fun op => bit_fwd S (B := B) ha op (some (b2i B))
  have hR := fun op h => bit_rev S (B := B) ha op h (some (b2i B))
  have ht : (CVal.bit B).toSmt = .ok (.other (some (b2i B)) (some B)) := rfl
  refine ⟨?_, ?_, ?_, ?_⟩
  · intro op hop
    simp only [List.mem_cons, List.not_mem_nil, or_false] at hop
    rcases hop with rfl | rfl | rfl
    · obtain ⟨t, h, hd⟩ := hF .and
      exact ⟨t, _, by simp only [symLeft, ht, ok_bind, symFwdA, bitOp?, h]; rfl, hc.1, hd⟩
    · obtain ⟨t, h, hd⟩ := hF .or
      exact ⟨t, _, by simp only [symLeft, ht, ok_bind, symFwdA, bitOp?, h]; rfl, hc.2.1, hd⟩
    · obtain ⟨t, h, hd⟩ := hF .xor
      exact ⟨t, _, by simp only [symLeft, ht, ok_bind, symFwdA, bitOp?, h]; rfl, hc.2.2.1, hd⟩
  · intro op hop
    simp only [List.mem_cons, List.not_mem_nil, or_false] at hop
    rcases hop with rfl | rfl
    · obtain ⟨t, h, hd⟩ := hR .and nofun
      exact ⟨t, _, by simp only [symRight, CVal.obj, (bit_declines _ B).1, ht, ok_bind, symRevA, bitOp?, h]; rfl, hc'.1, hd⟩
    · obtain ⟨t, h, hd⟩ := hR .or nofun
      exact ⟨t, _, by simp only [symRight, CVal.obj, (bit_declines _ B).1, ht, ok_bind, symRevA, bitOp?, h]; rfl, hc'.2.1, hd⟩
  · intro op hop
    simp only [List.mem_cons, List.not_mem_nil, or_false] at hop
    rcases hop with rfl | rfl
    · obtain ⟨t, h, hd⟩ := hF .eq
      exact ⟨t, _, by simp only [symLeftC, ht, ok_bind, symFwdC, bitCmp?, h]; rfl, hc.2.2.2.1, hd⟩
    · obtain ⟨t, h, hd⟩ := hF .ne
      exact ⟨t, _, by simp only [symLeftC, ht, ok_bind, symFwdC, bitCmp?, h]; rfl, hc.2.2.2.2, hd⟩
  · intro op hop
    simp only [List.mem_cons, List.not_mem_nil, or_false] at hop
    rcases hop with rfl | rfl
    · obtain ⟨t, h, hd⟩ := hF .eq
      rw [Smt.BitOp.meaning_comm] at hd
      have hn : fwdC .eq (.bit B) symObj = .ok none := rfl
      exact ⟨t, _, by simp only [symRightC, CVal.obj, hn, ht, ok_bind, symFwdC, COp.swap, bitCmp?, h]; rfl, hc'.2.2.2.1, hd⟩
    · obtain ⟨t, h, hd⟩ := hF .ne
      rw [Smt.BitOp.meaning_comm] at hd
      have hn : fwdC .ne (.bit B) symObj = .ok none := rfl
      exact ⟨t, _, by simp only [symRightC, CVal.obj, hn, ht, ok_bind, symFwdC, COp.swap, bitCmp?, h]; rfl, hc'.2.2.2.2, hd⟩

/-- **C142 refuted** for `Bit ^ SMTBit`: always `TypeError`. -/
theorem C142_xor_refuted (a : Term) (B : Bool) : symRight S .xor (.bit B) (.bit a) = .error .typeError := rfl

/-- **C142** a `SMTBit` and a concrete vector: the vector counts as the bit "not zero", on either side; the operators
that bits do not have raise `NameError`. -/
theorem C142_bit_vector {e : Env} {a : Term} {A : Bool} (ha : DenBit e a A) {r' : Root} {Y : BVal} (hY : Y.WF)
    (hm : 0 < Y.size) (hr : Y.kind = .root r') :
    (∃ t, symLeft S .and (.bit a) (.bv Y) = .ok (.bit t) ∧ DenBit e t (A && decide (Y.value ≠ 0))) ∧
    (∃ t, symLeft S .or (.bit a) (.bv Y) = .ok (.bit t) ∧ DenBit e t (A || decide (Y.value ≠ 0))) ∧
    (∃ t, symLeft S .xor (.bit a) (.bv Y) = .ok (.bit t) ∧ DenBit e t (A ^^ decide (Y.value ≠ 0))) ∧
    (∃ t, symRight S .and (.bv Y) (.bit a) = .ok (.bit t) ∧ DenBit e t (decide (Y.value ≠ 0) && A)) ∧
    (∃ t, symRight S .or (.bv Y) (.bit a) = .ok (.bit t) ∧ DenBit e t (decide (Y.value ≠ 0) || A)) ∧
    ∀ op ∈ [AOp.add, .sub, .mul, .fdiv, .mod, .shl], symLeft S op (.bit a) (.bv Y) = .error .nameError := by
  have hF := fun op => bit_fwd S (B := decide (Y.value ≠ 0)) ha op (some (intOf Y))
  have hR := fun op h => bit_rev S (B := decide (Y.value ≠ 0)) ha op h (some (intOf Y))
  have ht := toSmt_bv hY hm hr
  have hn := fun op => fwdA_declines op hY hm
  refine ⟨?_, ?_, ?_, ?_, ?_, ?_⟩
  · obtain ⟨t, h, hd⟩ := hF .and
    exact ⟨t, by simp only [symLeft, ht, ok_bind, symFwdA, bitOp?, h]; rfl, hd⟩
  · obtain ⟨t, h, hd⟩ := hF .or
    exact ⟨t, by simp only [symLeft, ht, ok_bind, symFwdA, bitOp?, h]; rfl, hd⟩
  · obtain ⟨t, h, hd⟩ := hF .xor
    exact ⟨t, by simp only [symLeft, ht, ok_bind, symFwdA, bitOp?, h]; rfl, hd⟩
  · obtain ⟨t, h, hd⟩ := hR .and nofun
    exact ⟨t, by simp only [symRight, CVal.obj, hn, ht, ok_bind, symRevA, bitOp?, h]; rfl, hd⟩
  · obtain ⟨t, h, hd⟩ := hR .or nofun
    exact ⟨t, by simp only [symRight, CVal.obj, hn, ht, ok_bind, symRevA, bitOp?, h]; rfl, hd⟩
  · intro op hop
    have h1 : bitOp? op = none := by
      simp only [List.mem_cons, List.not_mem_nil, or_false] at hop
      rcases hop with rfl | rfl | rfl | rfl | rfl | rfl <;> rfl
    have hsh : op ≠ .shr := by rintro rfl; simp at hop
    have h2 := C24_left_nameError Y (o := symObj) rfl op (fun h => absurd h hsh) 0
    have h3 : revA op symObj (.bv Y) 0 = .error .nameError := by
      have h4 : binA op symObj (.bv Y) 0 = (revA op symObj (.bv Y) 0).bind fun p =>
          match p.1 with | some v => .ok (v, p.2) | none => .error .typeError := by
        show ((revA op symObj (.bv Y) 0).bind _ : PyM _) = _
        congr 1
        funext p
        obtain ⟨v, j⟩ := p
        cases v <;> rfl
      rw [h4] at h2
      cases hq : revA op symObj (.bv Y) 0 with
      | error er => rw [hq] at h2; cases h2; rfl
      | ok p => obtain ⟨v, j⟩ := p; rw [hq] at h2; cases v <;> cases h2
    simp only [symLeft, ht, ok_bind, symFwdA, h1, CVal.obj, h3]; rfl

/-- **C142** a `SMTBit` and a concrete vector or bit: `==` and `!=` compare the bit with "not zero", on either side; the
orderings raise `TypeError`. -/
theorem C142_bit_compare {e : Env} {a : Term} {A : Bool} (ha : DenBit e a A) {r' : Root} {Y : BVal} (hY : Y.WF)
    (hm : 0 < Y.size) (hr : Y.kind = .root r') (B : Bool) :
    (∃ t, symLeftC S .eq (.bit a) (.bv Y) = .ok (.bit t) ∧ DenBit e t (A == decide (Y.value ≠ 0))) ∧
    (∃ t, symLeftC S .ne (.bit a) (.bv Y) = .ok (.bit t) ∧ DenBit e t (A != decide (Y.value ≠ 0))) ∧
    (∃ t, symRightC S .eq (.bv Y) (.bit a) = .ok (.bit t) ∧ DenBit e t (A == decide (Y.value ≠ 0))) ∧
    (∃ t, symRightC S .ne (.bv Y) (.bit a) = .ok (.bit t) ∧ DenBit e t (A != decide (Y.value ≠ 0))) ∧
    ∀ op ∈ [COp.lt, .le, .gt, .ge], symLeftC S op (.bit a) (.bv Y) = .error .typeError ∧
      symRightC S op (.bv Y) (.bit a) = .error .typeError ∧ symLeftC S op (.bit a) (.bit B) = .error .typeError ∧
      symRightC S op (.bit B) (.bit a) = .error .typeError := by
  have hF := fun op => bit_fwd S (B := decide (Y.value ≠ 0)) ha op (some (intOf Y))
  have ht := toSmt_bv hY hm hr
  have hn := fun op => fwdC_declines op hY hm
  obtain ⟨t, h, hd⟩ := hF .eq
  obtain ⟨t', h', hd'⟩ := hF .ne
  refine ⟨⟨t, ?_, hd⟩, ⟨t', ?_, hd'⟩, ⟨t, ?_, hd⟩, ⟨t', ?_, hd'⟩, ?_⟩
  · simp only [symLeftC, ht, ok_bind, symFwdC, bitCmp?, h]; rfl
  · simp only [symLeftC, ht, ok_bind, symFwdC, bitCmp?, h']; rfl
  · simp only [symRightC, CVal.obj, hn, ht, ok_bind, symFwdC, COp.swap, bitCmp?, h]; rfl
  · simp only [symRightC, CVal.obj, hn, ht, ok_bind, symFwdC, COp.swap, bitCmp?, h']; rfl
  · intro op hop
    simp only [List.mem_cons, List.not_mem_nil, or_false] at hop
    rcases hop with rfl | rfl | rfl | rfl <;>
      refine ⟨?_, ?_, rfl, rfl⟩ <;>
      simp only [symLeftC, symRightC, CVal.obj, ht, ok_bind, symFwdC, bitCmp?, COp.swap, hn, mixDefault]

/-- **C142** a symbolic vector and a `Bit`: the bit counts as 0 or 1, on either side.  Missing, as for vectors: `//` and
`%` of `SMTSIntVector`, and `Bit >> x` on the unsigned classes. -/
theorem C142_vector_bit_partial {e : Env} {r : Root} {x : SBV} {X : BVal} (hk : x.kind = .root r) (hx : Den e x X)
    (hn : 0 < x.size) (B : Bool) :
    (∀ op, ¬ (r = .sint ∧ (op = .fdiv ∨ op = .mod)) → ∃ z, symLeft S op (.bv r x) (.bit B) = .ok (.bv z) ∧
      Den e z ⟨.root r, x.size, refA (decide (r = .sint)) op x.size X.value (if B then 1 else 0)⟩) ∧
    (∀ op, ¬ (r = .sint ∧ (op = .fdiv ∨ op = .mod)) → (op = .shr → r = .sint) →
      ∃ z, symRight S op (.bit B) (.bv r x) = .ok (.bv z) ∧
      Den e z ⟨.root r, x.size, refA (decide (r = .sint)) op x.size (if B then 1 else 0) X.value⟩) ∧
    ∀ op, (∃ t, symLeftC S op (.bv r x) (.bit B) = .ok (.bit t) ∧
        DenBit e t (refC (decide (r = .sint)) op x.size X.value (if B then 1 else 0))) ∧
      ∃ t, symRightC S op (.bit B) (.bv r x) = .ok (.bit t) ∧
        DenBit e t (refC (decide (r = .sint)) op x.size (if B then 1 else 0) X.value) := by
  let Y : BVal := ⟨.root .bv, 1, if B then 1 else 0⟩
  have hY : Y.WF := by cases B <;> decide
  have hm : 0 < Y.size := Nat.one_pos
  have hi : intOf Y = if B then 1 else 0 := by cases B <;> rfl
  have hb : decide (Y.value ≠ 0) = B := by cases B <;> rfl
  have h0 : 0 ≤ intOf Y := by rw [hi]; split <;> decide
  have h1 : intOf Y < 2 ^ x.size := by
    have : (2 : Int) ^ 1 ≤ 2 ^ x.size := pow_le_pow_right₀ (by decide) hn
    rw [hi]; split <;> omega
  have hs : (CVal.bit B).toSmt = (CVal.bv Y).toSmt := by
    rw [toSmt_bv hY hm (r' := .bv) rfl, hi, hb]; cases B <;> rfl
  have hc : ∀ op, fwdC op (.bit B) symObj = .ok none := by intro op; cases op <;> rfl
  have hcY := fun op => fwdC_declines op hY hm
  refine ⟨fun op hop => ?_, fun op hop hsh => ?_, fun op => ?_⟩
  · obtain ⟨z, hz, hd⟩ := left_core S op hop hk hx hn h0 h1
    refine ⟨z, ?_, hi ▸ hd⟩
    simp only [symLeft, hs, toSmt_bv hY hm (r' := .bv) rfl, ok_bind, symFwdA, hz]; rfl
  · obtain ⟨z, hz, hd⟩ := C142_right_partial S op hop hsh hk hx hn hY hm (r' := .bv) rfl h0 h1
    refine ⟨z, ?_, hi ▸ hd⟩
    rw [← hz]
    simp only [symRight, CVal.obj, fwdA_declines op hY hm, (bit_declines op B).1, ok_bind, hs]
  · obtain ⟨⟨t, ht, hd⟩, t', ht', hd'⟩ := C142_compare S op hk hx hn hY hm (r' := .bv) rfl h0 h1
    refine ⟨⟨t, ?_, hi ▸ hd⟩, t', ?_, hi ▸ hd'⟩
    · rw [← ht]; simp only [symLeftC, CVal.obj, hs, hc, hcY, ok_bind]
    · rw [← ht']; simp only [symRightC, CVal.obj, hs, hc, hcY, ok_bind]

/-! ### z3 -/

/-- **C142** a z3 vector on the left: `int(Y)` modulo `2^n`; nothing is rejected.  Missing: `//` of `z3SIntVector` (C93). -/
theorem C142_z3_left_partial {e : Z3.Env} {r' : Root} {x : Z3.ZBV} {X Y : BVal} (op : AOp) (hop : ¬ (x.root = .sint ∧ op = .fdiv))
    (hx : Z3.Den e x X) (hY : Y.WF) (hm : 0 < Y.size) (hr : Y.kind = .root r') :
    ∃ z, zLeft op x (.bv Y) = .ok z ∧ Z3.Den e z ⟨.root x.root, x.size,
      refA (decide (x.root = .sint)) op x.size X.value (wrap x.size (intOf Y))⟩ := by
  have h := zA_ref op hx (o := .other (some (intOf Y)) (some (decide (Y.value ≠ 0)))) .other trivial hop
  obtain ⟨hk, hs, _⟩ := hx
  obtain ⟨k, n, a⟩ := X
  dsimp only at hk hs h ⊢
  subst hk hs
  obtain ⟨z, hz, hd⟩ := h.ok_right
  exact ⟨z, by simp only [zLeft, toZ3_bv hY hm hr, ok_bind, hz], hd⟩

/-- **C142** comparisons with a z3 vector, both ways round. -/
theorem C142_z3_compare {e : Z3.Env} {r' : Root} {x : Z3.ZBV} {X Y : BVal} (op : COp)
    (hx : Z3.Den e x X) (hY : Y.WF) (hm : 0 < Y.size) (hr : Y.kind = .root r') :
    (∃ b, zLeftC op x (.bv Y) = .ok b ∧
      Z3.DenBit e b (refC (decide (x.root = .sint)) op x.size X.value (wrap x.size (intOf Y)))) ∧
    ∃ b, zRightC op (.bv Y) x = .ok (.inr b) ∧
      Z3.DenBit e b (refC (decide (x.root = .sint)) op x.size (wrap x.size (intOf Y)) X.value) := by
  have h := zC_ref op hx (o := .other (some (intOf Y)) (some (decide (Y.value ≠ 0)))) .other trivial
  have h' := zC_ref op.swap hx (o := .other (some (intOf Y)) (some (decide (Y.value ≠ 0)))) .other trivial
  obtain ⟨hk, hs, _⟩ := hx
  obtain ⟨k, n, a⟩ := X
  dsimp only at hk hs h h' ⊢
  subst hk hs
  obtain ⟨z, hz, hd⟩ := h.ok_right
  obtain ⟨z', hz', hd'⟩ := h'.ok_right
  replace hd' : Z3.DenBit e z' (refC (decide (x.root = .sint)) op.swap x.size a (wrap x.size (intOf Y))) := hd'
  rw [refC_swap] at hd'
  exact ⟨⟨z, by simp only [zLeftC, toZ3_bv hY hm hr, ok_bind, hz], hd⟩,
    ⟨z', by simp only [zRightC, CVal.obj, fwdC_declines op hY hm, toZ3_bv hY hm hr, ok_bind, hz']; rfl, hd'⟩⟩

/-- **C142** with a vector of the same width, modulo `2^n` loses nothing: the value of `Y`, also for `SIntVector`. -/
theorem C142_z3_value {Y : BVal} (hY : Y.WF) : wrap Y.size (intOf Y) = Y.value := by
  have h := hY
  unfold intOf
  split
  · obtain ⟨h0, h1⟩ := hY
    unfold signed wrap
    split
    · exact Int.emod_eq_of_lt h0 h1
    · rw [Int.sub_emod_right]; exact Int.emod_eq_of_lt h0 h1
  · exact wrap_id h.1 h.2

/-- **C142** a z3 vector on the right of an arithmetic operator: `TypeError`. -/
theorem C142_z3_right (op : AOp) (x : Z3.ZBV) {Y : BVal} (hY : Y.WF) (hm : 0 < Y.size) (B : Bool) :
    zRight op (.bv Y) x = .error .typeError ∧ zRight op (.bit B) x = .error .typeError := by
  constructor
  · simp only [zRight, CVal.obj, fwdA_declines op hY hm, ok_bind]
  · simp only [zRight, CVal.obj, (bit_declines op B).1, ok_bind]

/-- **C142** pysmt and z3 do not mix: every operator and every comparison raises `TypeError`. -/
theorem C142_solvers (r : Root) (x : SBV) (z : Z3.ZBV) (hz : 0 < z.size) :
    (∀ op, smtZ3 S op r x z = .error .typeError) ∧ (∀ op, z3Smt op z x = .error .typeError) ∧
    (∀ op, smtZ3C S op r x z = .error .typeError) ∧ ∀ op, z3SmtC op z x = .error .typeError := by
  have hc : Smt.scoerce S x.kind x.size (.other none none) = .error .typeError := rfl
  have hA : ∀ op, sfwdA S op r x (.other none none) = .ok none := by
    intro op; unfold sfwdA; rw [smtM_raises S op r hc]; rfl
  have hC : ∀ op, sfwdC S op r x (.other none none) = .ok none := by
    intro op; unfold sfwdC; rw [smtMC_raises S op r hc]; rfl
  have hzc : ∀ op, Z3.zC op z.root z (.other none none) = .error .typeError := fun op => (C95_eq_none op z hz none).1
  refine ⟨fun op => ?_, fun op => ?_, fun op => ?_, hzc⟩
  · simp only [smtZ3, hA, ok_bind]
  · have h1 : Z3.zcoerce z.root z.size (.other none none) = .error .typeError := by
      simp only [Z3.zcoerce, Z3.mkZBV, Z3.sort_ok hz]; rfl
    have h2 : ∀ f, Z3.ZBV.bin f z (.other none none) = .error .typeError := by
      intro f; simp only [Z3.ZBV.bin, Z3.ZBV.cast, h1]; rfl
    unfold z3Smt
    cases op <;> cases z.root <;> exact h2 _
  · simp only [smtZ3C, hC, ok_bind, hzc]; rfl

/-! ### Where the mixed expression is not the concrete one -/

/-- `x = SMTBitVector[8](name='x')` at 200. -/
theorem Mixed.den_x : Den env200 symX ⟨.root .bv, 8, 200⟩ := ⟨rfl, rfl, 200#8, by decide, by decide⟩

/-- **C142 refuted**, in general: a negative `SIntVector` of the same class and width raises; a vector of another width
is accepted; `SMTBitVector >> SIntVector` is a logical shift where `BitVector >> SIntVector` is an arithmetic one. -/
theorem C142_refuted :
    (∃ x X Y, x.kind = .root .sint ∧ Den env200 x X ∧ Y.WF ∧ Y.kind = .root .sint ∧ Y.size = x.size ∧
      symLeft S .add (.bv .sint x) (.bv Y) = .error .valueError ∧ ∃ Z, binA .add (.bv X) (.bv Y) 0 = .ok (.bv Z, 0)) ∧
    (∃ x X Y z, x.kind = .root .bv ∧ Den env200 x X ∧ Y.WF ∧ Y.kind = .root .bv ∧ Y.size = 16 ∧
      symLeft S .add (.bv .bv x) (.bv Y) = .ok (.bv z) ∧ binA .add (.bv X) (.bv Y) 0 = .error .inconsistentSize) ∧
    (∃ x X Y z, x.kind = .root .bv ∧ Den env200 x X ∧ Y.WF ∧ Y.kind = .root .sint ∧ Y.size = x.size ∧
      symLeft S .shr (.bv .bv x) (.bv Y) = .ok (.bv z) ∧ Den env200 z ⟨.root .bv, 8, 100⟩ ∧
      binA .shr (.bv X) (.bv Y) 0 = .ok (.bv ⟨.root .bv, 8, 228⟩, 0)) := by
  have hY : BVal.WF ⟨.root .sint, 8, 255⟩ := by decide
  refine ⟨⟨⟨.root .sint, 8, symX.term⟩, ⟨.root .sint, 8, 200⟩, ⟨.root .sint, 8, 255⟩, rfl, ?_, hY, rfl, rfl, ?_, ?_⟩, ?_, ?_⟩
  · obtain ⟨_, h2, h3⟩ := den_x; exact ⟨rfl, h2, h3⟩
  · exact (C142_raises S hY (by decide) rfl (x := ⟨.root .sint, 8, symX.term⟩) (.inl (by decide))).1 .add
  · exact ⟨_, rfl⟩
  · have hY : BVal.WF ⟨.root .bv, 16, 3⟩ := by decide
    obtain ⟨z, hz, _⟩ := C142_left_partial S .add (fun h => by simp at h) rfl den_x (by decide) hY (by decide) rfl (by decide) (by decide)
    exact ⟨symX, _, ⟨.root .bv, 16, 3⟩, z, rfl, den_x, hY, rfl, rfl, hz, rfl⟩
  · have hY : BVal.WF ⟨.root .sint, 8, 1⟩ := by decide
    obtain ⟨z, hz, hd⟩ := C142_left_partial S .shr (fun h => by simp at h) rfl den_x (by decide) hY (by decide) rfl (by decide) (by decide)
    exact ⟨symX, _, ⟨.root .sint, 8, 1⟩, z, rfl, den_x, hY, rfl, rfl, hz, hd, rfl⟩

/-- **C142** where families disagree on types: `Y & bit` is a vector for `Bit`, a bit for `SMTBit`. -/
theorem C142_bit_right_refuted {e : Env} {a : Term} {A : Bool} (ha : DenBit e a A) {r' : Root} {Y : BVal} (hY : Y.WF)
    (hm : 0 < Y.size) (hr : Y.kind = .root r') :
    (∃ t, symRight S .and (.bv Y) (.bit a) = .ok (.bit t)) ∧ ∃ Z, binA .and (.bv Y) (.bit A) 0 = .ok (.bv Z, 0) := by
  obtain ⟨_, _, _, ⟨t, ht, _⟩, _⟩ := C142_bit_vector S ha hY hm hr
  refine ⟨⟨t, ht⟩, ?_⟩
  exact ⟨_, binA_fwd nofun (fwd_ref .and _ hY hm (o := .bit A) trivial (b := wrap Y.size (if A then 1 else 0)) rfl 0)⟩

/-- **C142** `T[n](Y)` for a z3 class: `int(Y)` modulo `2^n`. -/
theorem C142_z3_construct (e : Z3.Env) (r : Root) {r' : Root} {n : Nat} (hn : 0 < n) {Y : BVal} (hY : Y.WF)
    (hm : 0 < Y.size) (hr : Y.kind = .root r') :
    ∃ o z, (CVal.bv Y).toZ3 = .ok o ∧ Z3.mkZBV r n o = .ok z ∧ Z3.Den e z ⟨.root r, n, wrap n (intOf Y)⟩ := by
  have h := Z3.intF_rel (e := e) (r := r) hn (intOf Y)
  obtain ⟨z, hz, hd⟩ := h.ok_right
  refine ⟨_, z, toZ3_bv hY hm hr, ?_, hd⟩
  simp only [Z3.mkZBV, Z3.sort_ok hn, ok_bind, hz]

/-- **C142 refuted** for conversions: `z3BitVector[16](SIntVector[8](-1))` is extended by sign where
`BitVector[16](SIntVector[8](-1))` is extended by zeros. -/
theorem C142_z3_construct_refuted : ∃ Y : BVal, Y.WF ∧ Y.kind = .root .sint ∧ Y.size = 8 ∧ (∀ e : Z3.Env,
    ∃ o z, (CVal.bv Y).toZ3 = .ok o ∧ Z3.mkZBV .bv 16 o = .ok z ∧ Z3.Den e z ⟨.root .bv, 16, 65535⟩) ∧
    mkBV (.root .bv) 16 (.bv Y) = .ok ⟨.root .bv, 16, 255⟩ :=
  ⟨⟨.root .sint, 8, 255⟩, by decide, rfl, rfl,
    fun e => C142_z3_construct e .bv (by decide) (Y := ⟨.root .sint, 8, 255⟩) (by decide) (by decide) rfl, rfl⟩

example : ∃ z, symRight noSimp .sub (.bv ⟨.root .uint, 4, 9⟩) (.bv .bv symX) = .ok (.bv z) ∧
    Den env200 z ⟨.root .bv, 8, 65⟩ :=
  C142_right_partial noSimp .sub (fun h => by simp at h) nofun rfl den_x (by decide) (Y := ⟨.root .uint, 4, 9⟩) (by decide)
    (by decide) rfl (by decide) (by decide)
example : ∃ t, symRightC noSimp .lt (.bv ⟨.root .sint, 8, 5⟩) (.bv .bv symX) = .ok (.bit t) ∧ DenBit env200 t true :=
  (C142_compare noSimp .lt rfl den_x (by decide) (Y := ⟨.root .sint, 8, 5⟩) (by decide) (by decide) rfl (by decide)
    (by decide)).2
example : symRight noSimp .add (.bv ⟨.root .sint, 8, 255⟩) (.bv .bv symX) = .error .nameError :=
  (C142_raises noSimp (Y := ⟨.root .sint, 8, 255⟩) (by decide) (by decide) rfl (.inl (by decide))).2.1 .add nofun

example : ∃ z, symRight noSimp .sub (.bit true) (.bv .bv symX) = .ok (.bv z) ∧ Den env200 z ⟨.root .bv, 8, 57⟩ :=
  (C142_vector_bit_partial noSimp rfl den_x (by decide) true).2.1 .sub (fun h => by simp at h) nofun

end HW
