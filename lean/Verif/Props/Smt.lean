import Verif.Lemmas.Smt.Ops

/-!
# Properties C34 – C37, C41, C42: symbolic vectors and integers

`Den e x X` (Spec/Smt.lean): under the assignment `e`, the symbolic vector `x` is the concrete vector
`X`.  The statements relate each operation of the symbolic family to the operation of the same name
of the concrete family: related operands give related results, or the same exception.  They hold for
every simplifier that preserves sort and meaning.
-/

namespace HW
open Spec Smt

/-! ## C34 operations -/

/-- Under every assignment the symbolic method computes what the concrete one computes. -/
def HomV (sm : SBV → SObj → PyM SBV) (cm : BVal → Obj → PyM BVal) : Prop :=
  ∀ (e : Env) (x : SBV) (X : BVal) (o : SObj) (O : Obj), Den e x X → DenObj e o O → 0 < x.size →
    SObj.Fits x.size o → RelM (Den e) (sm x o) (cm X O)

/-- The same for methods that return a bit. -/
def HomB (sm : SBV → SObj → PyM Term) (cm : BVal → Obj → PyM Bool) : Prop :=
  ∀ (e : Env) (x : SBV) (X : BVal) (o : SObj) (O : Obj), Den e x X → DenObj e o O → 0 < x.size →
    SObj.Fits x.size o → RelM (DenBit e) (sm x o) (cm X O)

/-- **C34** every well-sorted symbolic vector denotes exactly one vector under every assignment, and
that vector is canonical. -/
theorem C34_defined (e : Env) (r : Root) (n : Nat) (t : Term) (h : t.ty? = some (.bv n)) :
    ∃ X, Den e ⟨.root r, n, t⟩ X ∧ X.WF ∧ ∀ Y, Den e ⟨.root r, n, t⟩ Y → Y = X := by
  obtain ⟨v, hv, hty⟩ := ty_eval e h
  cases v with
  | bool _ => cases hty
  | int _ => cases hty
  | bv w b =>
    cases hty
    have hd : Den e ⟨.root r, n, t⟩ ⟨.root r, n, toI b⟩ := ⟨rfl, rfl, b, hv, rfl⟩
    refine ⟨_, hd, hd.WF, ?_⟩
    rintro ⟨K, N, V⟩ ⟨h1, h2, b', h3, h4⟩
    dsimp only [SKind.At] at *
    rw [hv] at h3
    cases h3
    subst h1 h2 h4
    rfl

section
variable (S : Simplifier)

theorem C34_bvnot {e : Env} {x : SBV} {X : BVal} (h : Den e x X) : RelM (Den e) (x.bvnot S) X.bvnot := by
  obtain ⟨k, K, n, t, a, rfl, rfl, hkK, ht⟩ := h.cases
  have hev : (Term.un .bvnot t).eval e = some (.bv n (~~~a)) := by rw [Term.eval, ht]; rfl
  simp only [SBV.bvnot, SBV.mk', node_ok hev, bind, Except.bind, BVal.bvnot, mk'_eq]
  exact bvF_rel hkK hev (toI_not a)

theorem C34_bvneg {e : Env} {x : SBV} {X : BVal} (h : Den e x X) : RelM (Den e) (x.bvneg S) X.bvneg := by
  obtain ⟨k, K, n, t, a, rfl, rfl, hkK, ht⟩ := h.cases
  have hev : (Term.un .bvneg t).eval e = some (.bv n (-a)) := by rw [Term.eval, ht]; rfl
  rw [C05_bvneg]
  simp only [SBV.bvneg, SBV.mk', node_ok hev, bind, Except.bind]
  exact bvF_rel hkK hev (toI_neg a)

theorem C34_bvand : HomV (SBV.bvand S) BVal.bvand := by
  intro e x X o O hx ho hn hf
  have hs : X.size = x.size := hx.2.1
  rw [show X.bvand O = _ from cast_eq' (fun b => .ok ⟨X.kind, X.size, pyAnd X.value b % 2 ^ X.size⟩)
    fun y _ => by simp [BVal.asUint]]
  exact bin_rel rfl hx hn ho hf fun a b h => by rw [h, hs]; exact toI_and a b

theorem C34_bvor : HomV (SBV.bvor S) BVal.bvor := by
  intro e x X o O hx ho hn hf
  have hs : X.size = x.size := hx.2.1
  rw [show X.bvor O = _ from cast_eq' (fun b => .ok ⟨X.kind, X.size, pyOr X.value b % 2 ^ X.size⟩)
    fun y _ => by simp [BVal.asUint]]
  exact bin_rel rfl hx hn ho hf fun a b h => by rw [h, hs]; exact toI_or a b

theorem C34_bvxor : HomV (SBV.bvxor S) BVal.bvxor := by
  intro e x X o O hx ho hn hf
  have hs : X.size = x.size := hx.2.1
  rw [show X.bvxor O = _ from cast_eq' (fun b => .ok ⟨X.kind, X.size, pyXor X.value b % 2 ^ X.size⟩)
    fun y _ => by simp [BVal.asUint]]
  exact bin_rel rfl hx hn ho hf fun a b h => by rw [h, hs]; exact toI_xor a b

theorem not_of {f : BVal → Obj → PyM BVal} {g : Int → Int → Int} {X : BVal} {O : Obj}
    (h : f X O = (operand X.size O).bind fun b => .ok ⟨X.kind, X.size, g X.value b % 2 ^ X.size⟩) :
    (f X O >>= fun y => y.bvnot) = (operand X.size O).bind fun b =>
      .ok ⟨X.kind, X.size, pyNot (g X.value b % 2 ^ X.size) % 2 ^ X.size⟩ := by
  rw [h]
  cases operand X.size O with
  | error => rfl
  | ok b => simp [Except.bind, bind, BVal.bvnot, BVal.asUint]

theorem C34_bvnand : HomV (SBV.bvnand S) BVal.bvnand := by
  intro e x X o O hx ho hn hf
  have hs : X.size = x.size := hx.2.1
  rw [show X.bvnand O = _ from not_of (f := BVal.bvand) (g := pyAnd) (cast_eq' _ fun y _ => by simp [BVal.asUint])]
  exact nbin_rel rfl hx hn ho hf fun a b h => by rw [h, hs, ← toI_and, ← toI_not]

theorem C34_bvnor : HomV (SBV.bvnor S) BVal.bvnor := by
  intro e x X o O hx ho hn hf
  have hs : X.size = x.size := hx.2.1
  rw [show X.bvnor O = _ from not_of (f := BVal.bvor) (g := pyOr) (cast_eq' _ fun y _ => by simp [BVal.asUint])]
  exact nbin_rel rfl hx hn ho hf fun a b h => by rw [h, hs, ← toI_or, ← toI_not]

theorem C34_bvxnor : HomV (SBV.bvxnor S) BVal.bvxnor := by
  intro e x X o O hx ho hn hf
  have hs : X.size = x.size := hx.2.1
  rw [show X.bvxnor O = _ from not_of (f := BVal.bvxor) (g := pyXor) (cast_eq' _ fun y _ => by simp [BVal.asUint])]
  exact nbin_rel rfl hx hn ho hf fun a b h => by rw [h, hs, ← toI_xor, ← toI_not]

theorem toNat_toI {n : Nat} (b : BitVec n) : (toI b).toNat = b.toNat := by simp [toI]

theorem C34_bvshl : HomV (SBV.bvshl S) BVal.bvshl := by
  intro e x X o O hx ho hn hf
  have hs : X.size = x.size := hx.2.1
  rw [C07_bvshl X ho.WF, ← bind_ok_map]
  exact bin_rel rfl hx hn ho hf fun a b h => by rw [h, hs, toNat_toI]; exact toI_shl a b

theorem C34_bvlshr : HomV (SBV.bvlshr S) BVal.bvlshr := by
  intro e x X o O hx ho hn hf
  have hs : X.size = x.size := hx.2.1
  rw [C07_bvlshr hx.WF ho.WF, ← bind_ok_map]
  exact bin_rel rfl hx hn ho hf fun a b h => by rw [h, toNat_toI]; exact toI_lshr a b

theorem C34_bvashr : HomV (SBV.bvashr S) BVal.bvashr := by
  intro e x X o O hx ho hn hf
  have hs : X.size = x.size := hx.2.1
  rw [C07_bvashr hx.WF ho.WF]
  simp only [if_neg (show ¬ X.size = 0 by omega)]
  exact bin_rel rfl hx hn ho hf fun a b h => by rw [h, hs, toNat_toI]; exact toI_ashr a b

theorem C34_bvadd : HomV (SBV.bvadd S) BVal.bvadd := by
  intro e x X o O hx ho hn hf
  have hs : X.size = x.size := hx.2.1
  rw [C05_bvadd, ← bind_ok_map]
  exact bin_rel rfl hx hn ho hf fun a b h => by rw [h, hs]; exact toI_add a b

theorem C34_bvsub : HomV (SBV.bvsub S) BVal.bvsub := by
  intro e x X o O hx ho hn hf
  have hs : X.size = x.size := hx.2.1
  rw [C05_bvsub, ← bind_ok_map]
  exact bin_rel rfl hx hn ho hf fun a b h => by rw [h, hs]; exact toI_sub a b

theorem C34_bvmul : HomV (SBV.bvmul S) BVal.bvmul := by
  intro e x X o O hx ho hn hf
  have hs : X.size = x.size := hx.2.1
  rw [C05_bvmul, ← bind_ok_map]
  exact bin_rel rfl hx hn ho hf fun a b h => by rw [h, hs]; exact toI_mul a b

theorem C34_bvudiv : HomV (SBV.bvudiv S) BVal.bvudiv := by
  intro e x X o O hx ho hn hf
  have hs : X.size = x.size := hx.2.1
  rw [C11_bvudiv hx.WF ho.WF, ← bind_ok_map]
  exact bin_rel rfl hx hn ho hf fun a b h => by
    rw [h, hs, toNat_toI, toNat_toI, toI_udiv]; simp only [toI]; push_cast; rfl

theorem C34_bvurem : HomV (SBV.bvurem S) BVal.bvurem := by
  intro e x X o O hx ho hn hf
  have hs : X.size = x.size := hx.2.1
  rw [C11_bvurem hx.WF ho.WF, ← bind_ok_map]
  exact bin_rel rfl hx hn ho hf fun a b h => by
    rw [h, toNat_toI, toNat_toI, toI_urem]; simp only [toI]; push_cast; rfl

theorem C34_bvcomp : HomV (SBV.bvcomp S) BVal.bvcomp := by
  intro e x X o O hx ho hn hf
  rw [C09_bvcomp, ← bind_ok_map]
  obtain ⟨k, K, n, t, a, rfl, rfl, hkK, ht⟩ := hx.cases
  refine cast_rel hx hn ho hf fun y b hb => ?_
  have hev : (Term.bin .bvcomp t y.term).eval e = some (.bv 1 (BitVec.ofBool (a == b))) := by
    simp [Term.eval, ht, hb, BOp.eval]
  simp only [node_ok hev, bind, Except.bind]
  refine bvF_rel hkK hev ?_
  have hb (c : Bool) : toI (BitVec.ofBool c) = if c then 1 else 0 := by cases c <;> rfl
  rw [beq_toI, hb]
  simp only [decide_eq_true_eq]

theorem C34_bveq : HomB (SBV.bveq S) BVal.bveq := by
  intro e x X o O hx ho hn hf
  rw [C09_bveq, ← bind_ok_map]
  exact rel_rel rfl hx hn ho hf fun a b h => by rw [h]; exact beq_toI a b

theorem C34_bvne : HomB (SBV.bvne S) BVal.bvne := by
  intro e x X o O hx ho hn hf
  rw [C09_bvne, ← bind_ok_map]
  obtain ⟨k, K, n, t, a, rfl, rfl, hkK, ht⟩ := hx.cases
  refine cast_rel hx hn ho hf fun y b hb => ?_
  have hev := rel_eval (e := e) (op := .equals) rfl ht hb
  have hev' : (Term.un .not (.bin .equals t y.term)).eval e = some (.bool !(a == b)) := by
    rw [Term.eval, hev]; rfl
  simp only [node_ok hev, node_ok hev', bind, Except.bind]
  have : decide (toI a ≠ toI b) = !(a == b) := by rw [beq_toI]; simp
  rw [this]
  exact bitF_rel hev'

theorem C34_bvult : HomB (SBV.bvult S) BVal.bvult := by
  intro e x X o O hx ho hn hf
  rw [C09_bvult, ← bind_ok_map]
  exact rel_rel rfl hx hn ho hf fun a b h => by rw [h]; exact ult_toI a b

theorem C34_bvule : HomB (SBV.bvule S) BVal.bvule := by
  intro e x X o O hx ho hn hf
  rw [C09_bvule, ← bind_ok_map]
  exact rel_rel rfl hx hn ho hf fun a b h => by rw [h]; exact ule_toI a b

theorem C34_bvugt : HomB (SBV.bvugt S) BVal.bvugt := by
  intro e x X o O hx ho hn hf
  rw [C09_bvugt, ← bind_ok_map]
  exact relSwap_rel rfl hx hn ho hf fun a b h => by rw [h]; exact ult_toI b a

theorem C34_bvuge : HomB (SBV.bvuge S) BVal.bvuge := by
  intro e x X o O hx ho hn hf
  rw [C09_bvuge, ← bind_ok_map]
  exact relSwap_rel rfl hx hn ho hf fun a b h => by rw [h]; exact ule_toI b a

theorem C34_bvslt : HomB (SBV.bvslt S) BVal.bvslt := by
  intro e x X o O hx ho hn hf
  have hs : X.size = x.size := hx.2.1
  rw [C10_bvslt X O hx.WF ho.WF]
  simp only [if_neg (show ¬ X.size = 0 by omega)]
  exact rel_rel rfl hx hn ho hf fun a b h => by rw [h, hs]; exact slt_toI a b

theorem C34_bvsle : HomB (SBV.bvsle S) BVal.bvsle := by
  intro e x X o O hx ho hn hf
  have hs : X.size = x.size := hx.2.1
  rw [C10_bvsle X O hx.WF ho.WF]
  simp only [if_neg (show ¬ X.size = 0 by omega)]
  exact rel_rel rfl hx hn ho hf fun a b h => by rw [h, hs]; exact sle_toI a b

theorem C34_bvsgt : HomB (SBV.bvsgt S) BVal.bvsgt := by
  intro e x X o O hx ho hn hf
  have hs : X.size = x.size := hx.2.1
  rw [C10_bvsgt X O hx.WF ho.WF]
  simp only [if_neg (show ¬ X.size = 0 by omega)]
  exact relSwap_rel rfl hx hn ho hf fun a b h => by rw [h, hs]; exact slt_toI b a

theorem C34_bvsge : HomB (SBV.bvsge S) BVal.bvsge := by
  intro e x X o O hx ho hn hf
  have hs : X.size = x.size := hx.2.1
  rw [C10_bvsge X O hx.WF ho.WF]
  simp only [if_neg (show ¬ X.size = 0 by omega)]
  exact relSwap_rel rfl hx hn ho hf fun a b h => by rw [h, hs]; exact sle_toI b a

end

/-- The simplifier that does nothing, for the examples. -/
def noSimp : Simplifier := ⟨id, fun _ _ h => h, fun _ _ _ h => h⟩

/-- An assignment for the examples: every vector symbol is 200 (mod `2^w`), bits false, ints 7. -/
def env200 : Env := ⟨fun _ => false, fun _ => 7, fun _ w => BitVec.ofNat w 200⟩

/-- A symbolic 8-bit vector `x`. -/
def symX : SBV := ⟨.root .bv, 8, .sym ['x'] (.bv 8)⟩

example : Den env200 symX ⟨.root .bv, 8, 200⟩ := ⟨rfl, rfl, 200#8, by decide, by decide⟩
example : symX.bvadd noSimp (.int 100) = .ok ⟨.root .bv, 8, .bin .bvadd (.sym ['x'] (.bv 8)) (.bvC 100 8)⟩ := by
  decide
example : (Term.bin .bvadd (.sym ['x'] (.bv 8)) (.bvC 100 8)).eval env200 = some (.bv 8 44#8) := by decide

end HW
