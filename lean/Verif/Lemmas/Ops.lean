import Verif.Spec.Ops
import Verif.Props.BitVectorStruct
import Verif.Props.Ite

/-! The operators in terms of `refA`, `refC`. -/

namespace HW
open Spec

theorem bitwise_bounds (f : Bool → Bool → Bool) (n : Nat) (a b : Int) :
    0 ≤ bitwise f n a b ∧ bitwise f n a b < 2 ^ n := by
  have := ofBits_bounds ((List.range n).map fun i => f (ibit a i) (ibit b i))
  simpa [bitwise] using this

theorem ibit_bitwise (f : Bool → Bool → Bool) (n : Nat) (a b : Int) (i : Nat) (h : i < n) :
    ibit (bitwise f n a b) i = f (ibit a i) (ibit b i) := by
  rw [bitwise, ibit_ofBits, List.getElem?_map, List.getElem?_range h]; rfl

theorem pointwise_eq {m : BVal → Obj → PyM BVal} {f : Bool → Bool → Bool} (h : Pointwise2 m f)
    (x : BVal) (o : Obj) :
    m x o = (operand x.size o).map fun b => ⟨x.kind, x.size, bitwise f x.size x.value b⟩ := by
  have := h x o
  cases ho : operand x.size o with
  | error e => rw [ho] at this; exact this
  | ok b =>
    rw [ho] at this
    obtain ⟨r, h1, h2, h3, h4, h5⟩ := this
    rw [h1]
    simp only [Except.map, Except.ok.injEq]
    have w : BVal.WF ⟨x.kind, x.size, bitwise f x.size x.value b⟩ := bitwise_bounds f x.size x.value b
    apply C06_bits_determine h4 w h2 h3
    intro i hi
    rw [h5 i (by omega), ibit_bitwise _ _ _ _ _ (by omega)]

/-- Every method behind an unsigned operator. -/
theorem uMethod_ref (op : AOp) {x : BVal} (hx : x.WF) {o : Obj} (ho : o.WF) :
    op.uMethod x o = (operand x.size o).map fun b =>
      ⟨x.kind, x.size, refA false op x.size x.value b⟩ := by
  cases op
  · exact pointwise_eq C06_bvand x o
  · exact pointwise_eq C06_bvor x o
  · exact pointwise_eq C06_bvxor x o
  · exact C07_bvshl x ho
  · exact C07_bvlshr hx ho
  · exact C05_bvadd x o
  · exact C05_bvsub x o
  · exact C05_bvmul x o
  · exact C11_bvudiv hx ho
  · exact C11_bvurem hx ho

/-- Every method behind a signed operator, at width ≥ 1. -/
theorem sMethod_ref (op : AOp) {x : BVal} (hx : x.WF) (hn : 0 < x.size) {o : Obj} (ho : o.WF) :
    op.sMethod x o = (operand x.size o).map fun b =>
      ⟨x.kind, x.size, refA true op x.size x.value b⟩ := by
  have hn' : ¬ x.size = 0 := by omega
  cases op
  case shr =>
    simp only [AOp.sMethod, C07_bvashr hx ho, if_neg hn', refA, if_true, bind_ok_map]
  case fdiv =>
    simp only [AOp.sMethod, bvsdiv_floor hx ho, if_neg hn', refA, if_true, ← bind_ok_map]
    congr 1; funext b; split <;> rfl
  case mod =>
    simp only [AOp.sMethod, bvsrem_floor hx ho, if_neg hn', refA, if_true, ← bind_ok_map]
    congr 1; funext b; split <;> rfl
  · exact uMethod_ref .and hx ho
  · exact uMethod_ref .or hx ho
  · exact uMethod_ref .xor hx ho
  · exact uMethod_ref .shl hx ho
  · exact uMethod_ref .add hx ho
  · exact uMethod_ref .sub hx ho
  · exact uMethod_ref .mul hx ho

theorem refA_bounds (s : Bool) (op : AOp) {n : Nat} {a b : Int} (ha : 0 ≤ a ∧ a < 2 ^ n)
    : 0 ≤ refA s op n a b ∧ refA s op n a b < 2 ^ n := by
  have hp := two_pow_pos n
  have hw (v : Int) : 0 ≤ wrap n v ∧ wrap n v < 2 ^ n := mod_WF (.root .bv) n v
  cases op
  · exact bitwise_bounds _ _ _ _
  · exact bitwise_bounds _ _ _ _
  · exact bitwise_bounds _ _ _ _
  · exact hw _
  · cases s
    · simp only [refA, Bool.false_eq_true, if_false]
      refine ⟨Int.ediv_nonneg ha.1 (by have := two_pow_pos b.toNat; omega), ?_⟩
      exact Int.lt_of_le_of_lt (Int.ediv_le_self _ ha.1) ha.2
    · exact hw _
  · exact hw _
  · exact hw _
  · exact hw _
  · simp only [refA]
    split
    · omega
    · cases s
      · simp only [Bool.false_eq_true, if_false]
        have : a.toNat / b.toNat ≤ a.toNat := Nat.div_le_self _ _
        generalize a.toNat / b.toNat = q at *
        omega
      · exact hw _
  · simp only [refA]
    split
    · exact ha
    · cases s
      · simp only [Bool.false_eq_true, if_false]
        have : a.toNat % b.toNat ≤ a.toNat := Nat.mod_le _ _
        generalize a.toNat % b.toNat = q at *
        omega
      · exact hw _

theorem cU_ref (op : COp) (x : BVal) (o : Obj) :
    op.uMethod x o = (operand x.size o).map fun b => refC false op x.size x.value b := by
  cases op
  · exact C09_bveq x o
  · exact C09_bvne x o
  · exact C09_bvuge x o
  · exact C09_bvugt x o
  · exact C09_bvule x o
  · exact C09_bvult x o

theorem cS_ref (op : COp) {x : BVal} (hx : x.WF) (hn : 0 < x.size) {o : Obj} (ho : o.WF) :
    op.sMethod x o = (operand x.size o).map fun b => refC true op x.size x.value b := by
  have hn' : ¬ x.size = 0 := by omega
  cases op
  · exact C09_bveq x o
  · exact C09_bvne x o
  · have := C10_bvsge x o hx ho; simp only [if_neg hn', bind_ok_map] at this; exact this
  · have := C10_bvsgt x o hx ho; simp only [if_neg hn', bind_ok_map] at this; exact this
  · have := C10_bvsle x o hx ho; simp only [if_neg hn', bind_ok_map] at this; exact this
  · have := C10_bvslt x o hx ho; simp only [if_neg hn', bind_ok_map] at this; exact this

/-- Which function a `VCall` tree ends up selecting. -/
def Impl.signed : Impl → Bool
  | .uns => false
  | .sgn => true
  | .vcall _ sel a b => if sel then a.signed else b.signed

theorem slot_signed (k : Kind) : k.slot.signed = readsSigned k := by
  induction k with
  | root r => cases r <;> rfl
  | poly id t f sel iht ihf =>
    simp only [Kind.slot, readsSigned]
    split
    · rename_i h
      cases sel
      · simp only [Bool.false_eq_true, if_false, ← ihf, h]
      · simp only [if_true, ← iht]
    · simp only [Impl.signed, iht, ihf]

theorem iteBV_eq (sel : Bool) {x y : BVal} (hx : x.WF) (hy : y.WF) (hs : x.size = y.size) (i : Nat) :
    ∃ k i', iteBV sel x y i = .ok (⟨k, x.size, if sel then x.value else y.value⟩, i') ∧
      (k = if x.kind = y.kind then x.kind else .poly i x.kind y.kind sel) := by
  obtain ⟨k, i', h1, h2⟩ := C27_vec sel hx hy hs i
  exact ⟨k, i', by simp [iteBV, bind, StateT.bind, h1, Except.bind, pure, StateT.pure, Except.pure], h2⟩

theorem iteBV_same (sel : Bool) (k : Kind) (n : Nat) {a b : Int} (ha : 0 ≤ a ∧ a < 2 ^ n)
    (hb : 0 ≤ b ∧ b < 2 ^ n) (i : Nat) :
    iteBV sel ⟨k, n, a⟩ ⟨k, n, b⟩ i = .ok (⟨k, n, if sel then a else b⟩, i) := by
  cases sel
  · simp [iteBV, HW.ite, bind, StateT.bind, returnType, Except.bind, pushIte, coerceBranch, pyLift, Except.map,
      Branch.toObj, mkBV_bv, pure, StateT.pure, Except.pure, Int.emod_eq_of_lt hb.1 hb.2]
  · simp [iteBV, HW.ite, bind, StateT.bind, returnType, Except.bind, pushIte, coerceBranch, pyLift, Except.map,
      Branch.toObj, mkBV_bv, pure, StateT.pure, Except.pure, Int.emod_eq_of_lt ha.1 ha.2]

/-- A forward operator on a coercible operand: the selected reading's reference value, in the class
of the left operand, and no class is created. -/
theorem fwd_ref (op : AOp) (im : Impl) {x : BVal} (hx : x.WF) (hn : 0 < x.size) {o : Obj} (ho : o.WF)
    {b : Int} (hb : operand x.size o = .ok b) (i : Nat) :
    op.fwd im x o i = .ok (some ⟨x.kind, x.size, refA im.signed op x.size x.value b⟩, i) := by
  induction im with
  | uns => simp [AOp.fwd, uMethod_ref op hx ho, hb, Except.map, tryOper, pyLift, Impl.signed]
  | sgn => simp [AOp.fwd, sMethod_ref op hx hn ho, hb, Except.map, tryOper, pyLift, Impl.signed]
  | vcall id sel p q ihp ihq =>
    simp only [AOp.fwd, bind, StateT.bind, ihp, ihq, Except.bind]
    rw [iteBV_same sel x.kind x.size (refA_bounds _ op hx) (refA_bounds _ op hx)]
    cases sel <;> rfl

/-- A forward operator on an operand that cannot be used. -/
theorem fwd_err (op : AOp) (im : Impl) {x : BVal} (hx : x.WF) (hn : 0 < x.size) {o : Obj} (ho : o.WF)
    {e : PyErr} (hb : operand x.size o = .error e) (i : Nat) :
    op.fwd im x o i = (tryOper (.error e : PyM BVal)).map fun v => (v, i) := by
  induction im with
  | uns => simp [AOp.fwd, uMethod_ref op hx ho, hb, Except.map, pyLift]
  | sgn => simp [AOp.fwd, sMethod_ref op hx hn ho, hb, Except.map, pyLift]
  | vcall id sel p q ihp ihq =>
    simp only [AOp.fwd, bind, StateT.bind, ihp]
    cases h : tryOper (.error e : PyM BVal) with
    | error e' => rfl
    | ok v =>
      have : v = none := by
        unfold tryOper at h
        split at h <;> simp_all
      subst this
      simp [Except.map, Except.bind, ihq, h, pure, StateT.pure, Except.pure]

theorem operand_errors {n : Nat} {o : Obj} {e : PyErr} (h : operand n o = .error e) :
    (e = .inconsistentSize ∧ ∃ b, o = .bv b ∧ b.size ≠ n) ∨ (e = .typeError ∧ o.denotes = none) := by
  unfold operand at h
  split at h
  · rename_i b
    split at h
    · cases h
    · injection h with h; exact Or.inl ⟨h.symm, b, rfl, by assumption⟩
  · split at h
    · cases h
    · injection h with h; exact Or.inr ⟨h.symm, by assumption⟩

/-- Comparison functions. -/
theorem cfwd_ref (op : COp) (im : Impl) {x : BVal} (hx : x.WF) (hn : 0 < x.size) {o : Obj} (ho : o.WF)
    {b : Int} (hb : operand x.size o = .ok b) :
    op.fwd im x o = .ok (some (refC im.signed op x.size x.value b)) := by
  induction im with
  | uns => simp [COp.fwd, cU_ref op x o, hb, Except.map, tryOper, Impl.signed]
  | sgn => simp [COp.fwd, cS_ref op hx hn ho, hb, Except.map, tryOper, Impl.signed]
  | vcall id sel p q ihp ihq =>
    simp only [COp.fwd, bind, ihp, ihq, Except.bind]
    cases sel <;> rfl

theorem cfwd_err (op : COp) (im : Impl) {x : BVal} (hx : x.WF) (hn : 0 < x.size) {o : Obj} (ho : o.WF)
    {e : PyErr} (hb : operand x.size o = .error e) :
    op.fwd im x o = tryOper (.error e : PyM Bool) := by
  induction im with
  | uns => simp [COp.fwd, cU_ref op x o, hb, Except.map]
  | sgn => simp [COp.fwd, cS_ref op hx hn ho, hb, Except.map]
  | vcall id sel p q ihp ihq =>
    simp only [COp.fwd, bind, ihp, ihq]
    rcases operand_errors hb with ⟨rfl, -⟩ | ⟨rfl, -⟩ <;> rfl

/-- `(uns leaf reachable)`: some leaf of the tree is the `BitVector` function. -/
def Impl.hasUns : Impl → Bool
  | .uns => true
  | .sgn => false
  | .vcall _ _ a b => a.hasUns || b.hasUns

/-- A reflected operator whose left operand coerces: the reference value with the operands in
source order; holds for every operator but the unsigned `>>`. -/
theorem rev_ref (op : AOp) (im : Impl) {self : BVal} (hx : self.WF) (hn : 0 < self.size) {o : Obj}
    (ho : o.WF) {y : BVal} (hy : coerce self.kind self.size o = .ok y)
    (hshr : op = .shr → im.hasUns = false) (i : Nat) :
    op.rev im self o i = .ok (some ⟨y.kind, self.size, refA im.signed op self.size y.value self.value⟩, i) := by
  obtain ⟨hyw, hys⟩ := coerce_WF ho hy
  have hop : operand y.size (.bv self) = .ok self.value := by simp [operand, hys]
  have hyn : 0 < y.size := by omega
  have hb := refA_bounds (n := self.size) (a := y.value) (b := self.value)
  rw [← hys] at hb
  induction im with
  | uns =>
    have : ¬ op = .shr := fun h => by simp [Impl.hasUns] at hshr; exact hshr h
    simp only [AOp.rev, this, if_false, hy]
    rw [fwd_ref op .uns hyw hyn (o := .bv self) hx hop, hys]
  | sgn =>
    simp only [AOp.rev, hy]
    rw [fwd_ref op .sgn hyw hyn (o := .bv self) hx hop, hys]
  | vcall id sel p q ihp ihq =>
    have hp : op = .shr → p.hasUns = false := fun h => by
      have := hshr h; simp [Impl.hasUns] at this; exact this.1
    have hq : op = .shr → q.hasUns = false := fun h => by
      have := hshr h; simp [Impl.hasUns] at this; exact this.2
    simp only [AOp.rev, bind, StateT.bind, ihp hp, ihq hq, Except.bind]
    rw [← hys, iteBV_same sel y.kind y.size (hb p.signed op hyw) (hb q.signed op hyw)]
    cases sel <;> rfl

end HW
