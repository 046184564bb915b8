import Verif.Lemmas.Z3.Vector

/-!
# Properties C92, C93: methods of the z3 family

`Z3.Den e x X` (Spec/Z3.lean): under the assignment `e`, the z3 vector `x` is the concrete vector `X`.
The statements relate each method to the one of the same name of the concrete family: related operands
give related results, or the same exception; a plain `TypeError` stands for `InconsistentSizeError`.
-/

namespace HW
open Spec Z3
open Smt (toI toI_bounds toI_mod toI_inj toI_ofInt toI_ofNat toI_not toI_neg toI_and toI_or toI_xor toI_shl toI_lshr
  toI_ashr toI_add toI_sub toI_mul toI_udiv toI_urem toI_of_toInt toInt_signed beq_toI ult_toI ule_toI slt_toI
  sle_toI ibit_toI)

/-! ## C92 -/

/-- Under every assignment the z3 method computes what the concrete one computes. -/
def ZHomV (sm : ZBV → ZObj → PyM ZBV) (cm : BVal → Obj → PyM BVal) : Prop :=
  ∀ (e : Env) (x : ZBV) (X : BVal) (o : ZObj) (O : Obj), Z3.Den e x X → Z3.DenObj e o O →
    ZObj.Fits x.size o → RelE (Z3.Den e) (sm x o) (cm X O)

/-- The same for methods that return a bit. -/
def ZHomB (sm : ZBV → ZObj → PyM BoolE) (cm : BVal → Obj → PyM Bool) : Prop :=
  ∀ (e : Env) (x : ZBV) (X : BVal) (o : ZObj) (O : Obj), Z3.Den e x X → Z3.DenObj e o O →
    ZObj.Fits x.size o → RelE (Z3.DenBit e) (sm x o) (cm X O)

/-- **C92** whatever a class `r[n]` constructs, from any object at all, has the sort of its class and so
denotes exactly one vector under every assignment, which is canonical. -/
theorem C92_defined (e : Env) {r : Root} {n : Nat} {o : ZObj} {x : ZBV} (h : mkZBV r n o = .ok x) :
    x.root = r ∧ x.size = n ∧ ∃ X, Z3.Den e x X ∧ X.WF ∧ ∀ Y, Z3.Den e x Y → Y = X := by
  have key : x.root = r ∧ x.size = n ∧ x.expr.w = n ∧ 0 < n := by
    unfold mkZBV at h
    have hn : 0 < n := by
      rcases Nat.eq_zero_or_pos n with rfl | hn
      · simp [bitVecSort, bind, Except.bind] at h
      · exact hn
    have hint : ∀ v : Int, intF r n v = .ok x → x.root = r ∧ x.size = n ∧ x.expr.w = n ∧ 0 < n := by
      intro v h
      simp only [intF, sort_ok hn, bitVecVal_ok v hn, bind, Except.bind, pure, Except.pure] at h
      cases h
      exact ⟨rfl, rfl, rfl, hn⟩
    have hbool : ∀ b : BoolE, boolF r n b = .ok x → x.root = r ∧ x.size = n ∧ x.expr.w = n ∧ 0 < n := by
      intro b h
      simp only [boolF, sort_ok hn, bitVecVal_ok _ hn, zIf_ok, bind, Except.bind, pure, Except.pure] at h
      cases h
      exact ⟨rfl, rfl, rfl, hn⟩
    have hfin : ∀ v : BVE, (if v.w = n then (.ok ⟨r, n, v⟩ : PyM ZBV) else .error .assertionError) = .ok x →
        x.root = r ∧ x.size = n ∧ x.expr.w = n ∧ 0 < n := by
      intro v h
      split at h
      · cases h; exact ⟨rfl, rfl, ‹_›, hn⟩
      · cases h
    simp only [sort_ok hn] at h
    cases o with
    | int v => exact hint v h
    | bool b => exact hint _ h
    | bit b => exact hbool b h
    | boolRef b => exact hbool b h
    | bvRef v =>
      simp only [bvF, sort_ok hn, bind, Except.bind, pure, Except.pure] at h
      split at h
      · cases h; exact ⟨rfl, rfl, ‹_›, hn⟩
      · cases h
    | bv y =>
      simp only [bind, Except.bind, pure, Except.pure] at h
      split at h
      · split at h
        · cases h
        · exact hfin _ h
      · split at h
        · split at h
          · cases h
          · exact hfin _ h
        · exact hfin _ h
    | seq l =>
      simp only [bind, Except.bind, pure, Except.pure] at h
      split at h
      · cases h
      · cases l with
        | nil => cases h
        | cons el l =>
          dsimp only at h
          split at h
          · cases h
          · split at h
            · cases h
            · exact hfin _ h
    | other i b =>
      cases i with
      | none => cases h
      | some v => exact hint v h
  obtain ⟨r', m, ⟨w, d⟩⟩ := x
  obtain ⟨h1, h2, h3, hn⟩ := key
  dsimp only at h1 h2 h3
  subst h1 h2 h3
  refine ⟨rfl, rfl, ⟨.root r', w, toI (d e)⟩, Den.intro r' d hn rfl, toI_bounds _, ?_⟩
  intro Y hY
  obtain ⟨r2, n2, d2, h1, rfl, -⟩ := hY.cases
  injection h1 with h1 h2 h3
  subst h1 h2
  injection h3 with h3 h4
  rw [h4]

theorem C92_bvnot {e : Env} {x : ZBV} {X : BVal} (h : Z3.Den e x X) : RelE (Z3.Den e) x.bvnot X.bvnot := by
  obtain ⟨r, n, d, rfl, rfl, hn⟩ := h.cases
  simp only [ZBV.bvnot, BVal.bvnot, mk'_eq]
  exact Z3.bvF_rel r _ hn (toI_not _)

theorem C92_bvneg {e : Env} {x : ZBV} {X : BVal} (h : Z3.Den e x X) : RelE (Z3.Den e) x.bvneg X.bvneg := by
  obtain ⟨r, n, d, rfl, rfl, hn⟩ := h.cases
  rw [C05_bvneg]
  exact Z3.bvF_rel r _ hn (toI_neg _)

theorem C92_bvand : ZHomV ZBV.bvand BVal.bvand := by
  intro e x X o O hx ho hf
  have hs := hx.size_eq
  rw [show X.bvand O = _ from cast_eq' (fun b => .ok ⟨X.kind, X.size, pyAnd X.value b % 2 ^ X.size⟩)
    fun y _ => by simp [BVal.asUint]]
  exact Z3.bin_rel hx ho hf fun a b h => by rw [h, hs]; exact toI_and a b

theorem C92_bvor : ZHomV ZBV.bvor BVal.bvor := by
  intro e x X o O hx ho hf
  have hs := hx.size_eq
  rw [show X.bvor O = _ from cast_eq' (fun b => .ok ⟨X.kind, X.size, pyOr X.value b % 2 ^ X.size⟩)
    fun y _ => by simp [BVal.asUint]]
  exact Z3.bin_rel hx ho hf fun a b h => by rw [h, hs]; exact toI_or a b

theorem C92_bvxor : ZHomV ZBV.bvxor BVal.bvxor := by
  intro e x X o O hx ho hf
  have hs := hx.size_eq
  rw [show X.bvxor O = _ from cast_eq' (fun b => .ok ⟨X.kind, X.size, pyXor X.value b % 2 ^ X.size⟩)
    fun y _ => by simp [BVal.asUint]]
  exact Z3.bin_rel hx ho hf fun a b h => by rw [h, hs]; exact toI_xor a b

theorem C92_bvnand : ZHomV ZBV.bvnand BVal.bvnand := by
  intro e x X o O hx ho hf
  have hs := hx.size_eq
  rw [show X.bvnand O = _ from not_of (f := BVal.bvand) (g := pyAnd) (cast_eq' _ fun y _ => by simp [BVal.asUint])]
  exact Z3.nbin_rel hx ho hf fun a b h => by rw [h, hs, ← toI_and, ← toI_not]

theorem C92_bvnor : ZHomV ZBV.bvnor BVal.bvnor := by
  intro e x X o O hx ho hf
  have hs := hx.size_eq
  rw [show X.bvnor O = _ from not_of (f := BVal.bvor) (g := pyOr) (cast_eq' _ fun y _ => by simp [BVal.asUint])]
  exact Z3.nbin_rel hx ho hf fun a b h => by rw [h, hs, ← toI_or, ← toI_not]

theorem C92_bvxnor : ZHomV ZBV.bvxnor BVal.bvxnor := by
  intro e x X o O hx ho hf
  have hs := hx.size_eq
  rw [show X.bvxnor O = _ from not_of (f := BVal.bvxor) (g := pyXor) (cast_eq' _ fun y _ => by simp [BVal.asUint])]
  exact Z3.nbin_rel hx ho hf fun a b h => by rw [h, hs, ← toI_xor, ← toI_not]

theorem C92_bvshl : ZHomV ZBV.bvshl BVal.bvshl := by
  intro e x X o O hx ho hf
  have hs := hx.size_eq
  rw [C07_bvshl X ho.WF, ← bind_ok_map]
  exact Z3.bin_rel hx ho hf fun a b h => by rw [h, hs, toNat_toI]; exact toI_shl a b

theorem C92_bvlshr : ZHomV ZBV.bvlshr BVal.bvlshr := by
  intro e x X o O hx ho hf
  have hs := hx.size_eq
  rw [C07_bvlshr hx.WF ho.WF, ← bind_ok_map]
  exact Z3.bin_rel hx ho hf fun a b h => by rw [h, toNat_toI]; exact toI_lshr a b

theorem C92_bvashr : ZHomV ZBV.bvashr BVal.bvashr := by
  intro e x X o O hx ho hf
  have hs := hx.size_eq
  have hn := hx.pos
  rw [C07_bvashr hx.WF ho.WF]
  simp only [if_neg (show ¬ X.size = 0 by omega)]
  exact Z3.bin_rel hx ho hf fun a b h => by rw [h, hs, toNat_toI]; exact toI_ashr a b

theorem C92_bvadd : ZHomV ZBV.bvadd BVal.bvadd := by
  intro e x X o O hx ho hf
  have hs := hx.size_eq
  rw [C05_bvadd, ← bind_ok_map]
  exact Z3.bin_rel hx ho hf fun a b h => by rw [h, hs]; exact toI_add a b

theorem C92_bvsub : ZHomV ZBV.bvsub BVal.bvsub := by
  intro e x X o O hx ho hf
  have hs := hx.size_eq
  rw [C05_bvsub, ← bind_ok_map]
  exact Z3.bin_rel hx ho hf fun a b h => by rw [h, hs]; exact toI_sub a b

theorem C92_bvmul : ZHomV ZBV.bvmul BVal.bvmul := by
  intro e x X o O hx ho hf
  have hs := hx.size_eq
  rw [C05_bvmul, ← bind_ok_map]
  exact Z3.bin_rel hx ho hf fun a b h => by rw [h, hs]; exact toI_mul a b

theorem C92_bvudiv : ZHomV ZBV.bvudiv BVal.bvudiv := by
  intro e x X o O hx ho hf
  have hs := hx.size_eq
  rw [C11_bvudiv hx.WF ho.WF, ← bind_ok_map]
  exact Z3.bin_rel hx ho hf fun a b h => by
    rw [h, hs, toNat_toI, toNat_toI, toI_udiv]; simp only [toI]; push_cast; rfl

theorem C92_bvurem : ZHomV ZBV.bvurem BVal.bvurem := by
  intro e x X o O hx ho hf
  have hs := hx.size_eq
  rw [C11_bvurem hx.WF ho.WF, ← bind_ok_map]
  exact Z3.bin_rel hx ho hf fun a b h => by
    rw [h, toNat_toI, toNat_toI, toI_urem]; simp only [toI]; push_cast; rfl

theorem toI_smod {n : Nat} (a b : BitVec n) :
    toI (a.smod b) = if toI b = 0 then toI a else wrap n ((signed n (toI a)).fmod (signed n (toI b))) := by
  rw [← toInt_signed, ← toInt_signed, wrap, toI_of_toInt, BitVec.toInt_smod]
  have hz : toI b = 0 ↔ b = 0#n := by
    rw [← toI_inj]; simp [toI]
  by_cases h : b = 0#n
  · rw [if_pos (hz.2 h), h]
    simp only [BitVec.toInt_zero, Int.fmod_zero]
    rw [← toI_of_toInt]
  · rw [if_neg (fun h' => h (hz.1 h'))]

/-- **C92** the z3 `bvsrem` is `%` on z3 expressions, which is `bvsmod`: it is the concrete family's
floor remainder, not the SMT-LIB `bvsrem` (C35). -/
theorem C92_bvsrem : ZHomV ZBV.bvsrem BVal.bvsrem := by
  intro e x X o O hx ho hf
  have hs := hx.size_eq
  have hn := hx.pos
  have h0 : X.bvsrem O = (operand X.size O).bind fun b => .ok ⟨X.kind, X.size,
      if b = 0 then X.value else wrap X.size ((signed X.size X.value).fmod (signed X.size b))⟩ := by
    rw [bvsrem_floor hx.WF ho.WF]
    congr 1; funext b
    rw [if_neg (by omega)]
    split <;> rfl
  rw [h0]
  exact Z3.bin_rel hx ho hf fun a b h => by rw [h, hs]; exact toI_smod a b

/-- Operations of the concrete family given only by the bits of the result. -/
theorem bin_rel_of {f : (w : Nat) → BitVec w → BitVec w → BitVec w} {e : Env} {x : ZBV} {X : BVal} {o : ZObj} {O : Obj}
    {M : PyM BVal} (hx : Z3.Den e x X) (ho : Z3.DenObj e o O) (hf : o.Fits x.size)
    (herr : ∀ er, operand X.size O = .error er → M = .error er)
    (hok : ∀ a b : BitVec x.size, X.value = toI a → operand X.size O = .ok (toI b) →
      M = .ok ⟨X.kind, X.size, toI (f x.size a b)⟩) :
    RelE (Z3.Den e) (x.bin (zBin f) o) M := by
  obtain ⟨r, n, a, rfl, rfl, hn⟩ := hx.cases
  have h1 := zoperand_rel r hn ho hf
  unfold ZBV.bin ZBV.cast
  dsimp only at h1 herr hok ⊢
  cases hop : operand n O with
  | error er =>
    rw [hop] at h1
    obtain ⟨er', h2, h3⟩ := h1.error_right
    rw [herr er hop, h2]
    exact h3
  | ok v =>
    rw [hop] at h1
    obtain ⟨y, h2, d, h3, rfl⟩ := h1.ok_right
    rw [hok (a e) (d e) rfl hop, h2]
    simp only [bind, Except.bind, h3, zBin_ok]
    exact Z3.bvF_rel r _ hn rfl

theorem bvrot_error {X : BVal} {O : Obj} {er : PyErr} (h : operand X.size O = .error er) :
    X.bvrol O = .error er ∧ X.bvror O = .error er := by
  rcases coerce_eq X.kind X.size O with ⟨Y, -, h3, -⟩ | ⟨er', h2, h3⟩
  · rw [h3] at h; cases h
  · rw [h3] at h; cases h
    constructor
    · unfold BVal.bvrol BVal.cast; rw [h2]; rfl
    · unfold BVal.bvror BVal.cast; rw [h2]; rfl

theorem bit_rotateLeft {n : Nat} (a : BitVec n) (k i : Nat) (hi : i < n) :
    (a.rotateLeft k).getLsbD ((i + k) % n) = a.getLsbD i := by
  have hn : 0 < n := by omega
  rw [BitVec.getLsbD_rotateLeft]
  have hm : k % n < n := Nat.mod_lt _ hn
  have h1 : (i + k) % n = (i + k % n) % n := by rw [Nat.add_mod_mod]
  rw [h1]
  rcases Nat.lt_or_ge (i + k % n) n with hq | hq
  · rw [Nat.mod_eq_of_lt hq]
    have : ¬ i + k % n < k % n := by omega
    simp only [this, decide_false, cond_false, hq, decide_true, Bool.true_and]
    congr 1; omega
  · rw [Nat.mod_eq_sub_mod hq, Nat.mod_eq_of_lt (by omega)]
    have : i + k % n - n < k % n := by omega
    simp only [this, decide_true, cond_true]
    congr 1; omega

theorem bit_rotateRight {n : Nat} (a : BitVec n) (k i : Nat) (hi : i < n) :
    (a.rotateRight k).getLsbD i = a.getLsbD ((i + k) % n) := by
  have hn : 0 < n := by omega
  rw [BitVec.getLsbD_rotateRight]
  have hm : k % n < n := Nat.mod_lt _ hn
  have h1 : (i + k) % n = (i + k % n) % n := by rw [Nat.add_mod_mod]
  rw [h1]
  rcases Nat.lt_or_ge (i + k % n) n with hq | hq
  · rw [Nat.mod_eq_of_lt hq]
    have : i < n - k % n := by omega
    simp only [this, decide_true, cond_true]
    congr 1; omega
  · rw [Nat.mod_eq_sub_mod hq, Nat.mod_eq_of_lt (show i + k % n - n < n by omega)]
    have : ¬ i < n - k % n := by omega
    simp only [this, decide_false, cond_false, hi, decide_true, Bool.true_and]
    congr 1; omega

/-- **C92** rotation by any amount, including vectors (which the pysmt family rejects, C73). -/
theorem C92_bvrol : ZHomV ZBV.bvrol BVal.bvrol := by
  intro e x X o O hx ho hf
  have hs := hx.size_eq
  have hn := hx.pos
  refine bin_rel_of hx ho hf (fun er h => (bvrot_error h).1) fun a b ha hop => ?_
  obtain ⟨Y, h1, h2, h3, h4, h5⟩ := C08_bvrol X (by omega) ho.WF hop
  rw [h1]
  obtain ⟨K, N, v⟩ := Y
  dsimp only at h2 h3 h5
  subst h2 h3
  congr 2
  refine ibit_ext fun i => ?_
  by_cases hi : i < x.size
  · obtain ⟨m, hm, hmi⟩ : ∃ m, m < x.size ∧ (m + b.toNat) % x.size = i := by
      have hk : b.toNat % x.size < x.size := Nat.mod_lt _ hn
      by_cases hc : b.toNat % x.size ≤ i
      · refine ⟨i - b.toNat % x.size, by omega, ?_⟩
        rw [← Nat.add_mod_mod, Nat.sub_add_cancel hc, Nat.mod_eq_of_lt hi]
      · refine ⟨i + x.size - b.toNat % x.size, by omega, ?_⟩
        rw [← Nat.add_mod_mod, Nat.sub_add_cancel (by omega), Nat.add_mod_right, Nat.mod_eq_of_lt hi]
    have := h5 m (by omega)
    rw [toNat_toI, hs, hmi] at this
    rw [this, ha, ibit_toI, ibit_toI, BitVec.testBit_toNat, BitVec.testBit_toNat, ← hmi, bit_rotateLeft _ _ _ hm]
  · rw [ibit_lt h4.1 h4.2 (by dsimp only; omega), ibit_lt (toI_bounds _).1 (toI_bounds _).2 (by omega)]

theorem C92_bvror : ZHomV ZBV.bvror BVal.bvror := by
  intro e x X o O hx ho hf
  have hs := hx.size_eq
  have hn := hx.pos
  refine bin_rel_of hx ho hf (fun er h => (bvrot_error h).2) fun a b ha hop => ?_
  obtain ⟨Y, h1, h2, h3, h4, h5⟩ := C08_bvror X (by omega) ho.WF hop
  rw [h1]
  obtain ⟨K, N, v⟩ := Y
  dsimp only at h2 h3 h5
  subst h2 h3
  congr 2
  refine ibit_ext fun i => ?_
  by_cases hi : i < x.size
  · rw [h5 i (by omega), ha, ibit_toI, ibit_toI, BitVec.testBit_toNat, BitVec.testBit_toNat, toNat_toI, hs,
      bit_rotateRight _ _ _ hi]
  · rw [ibit_lt h4.1 h4.2 (by dsimp only; omega), ibit_lt (toI_bounds _).1 (toI_bounds _).2 (by omega)]

theorem C92_bvcomp : ZHomV ZBV.bvcomp BVal.bvcomp := by
  intro e x X o O hx ho hf
  rw [C09_bvcomp, ← bind_ok_map]
  obtain ⟨r, n, a, rfl, rfl, hn⟩ := hx.cases
  refine Z3.cast_rel hx ho hf fun y d hd => ?_
  simp only [hd, zEq, zRel_ok, bind, Except.bind]
  have := boolF_rel (e := e) r (n := 1) (by omega) (b := fun e => a e == d e) rfl
  dsimp only at this ⊢
  rw [beq_toI] at this
  unfold b2i at this
  simpa only [decide_eq_true_eq] using this

theorem C92_bveq : ZHomB ZBV.bveq BVal.bveq := by
  intro e x X o O hx ho hf
  rw [C09_bveq, ← bind_ok_map]
  exact Z3.rel_rel hx ho hf fun a b h => by rw [h]; exact beq_toI a b

theorem C92_bvne : ZHomB ZBV.bvne BVal.bvne := by
  intro e x X o O hx ho hf
  rw [C09_bvne, ← bind_ok_map]
  exact Z3.rel_rel hx ho hf fun a b h => by rw [h, beq_toI]; simp

theorem C92_bvult : ZHomB ZBV.bvult BVal.bvult := by
  intro e x X o O hx ho hf
  rw [C09_bvult, ← bind_ok_map]
  exact Z3.rel_rel hx ho hf fun a b h => by rw [h]; exact ult_toI a b

theorem C92_bvule : ZHomB ZBV.bvule BVal.bvule := by
  intro e x X o O hx ho hf
  rw [C09_bvule, ← bind_ok_map]
  exact Z3.rel_rel hx ho hf fun a b h => by rw [h]; exact ule_toI a b

theorem C92_bvugt : ZHomB ZBV.bvugt BVal.bvugt := by
  intro e x X o O hx ho hf
  rw [C09_bvugt, ← bind_ok_map]
  exact Z3.rel_rel hx ho hf fun a b h => by rw [h]; exact ult_toI b a

theorem C92_bvuge : ZHomB ZBV.bvuge BVal.bvuge := by
  intro e x X o O hx ho hf
  rw [C09_bvuge, ← bind_ok_map]
  exact Z3.rel_rel hx ho hf fun a b h => by rw [h]; exact ule_toI b a

theorem C92_bvslt : ZHomB ZBV.bvslt BVal.bvslt := by
  intro e x X o O hx ho hf
  have hs := hx.size_eq
  have hn := hx.pos
  rw [C10_bvslt X O hx.WF ho.WF]
  simp only [if_neg (show ¬ X.size = 0 by omega)]
  exact Z3.rel_rel hx ho hf fun a b h => by rw [h, hs]; exact slt_toI a b

theorem C92_bvsle : ZHomB ZBV.bvsle BVal.bvsle := by
  intro e x X o O hx ho hf
  have hs := hx.size_eq
  have hn := hx.pos
  rw [C10_bvsle X O hx.WF ho.WF]
  simp only [if_neg (show ¬ X.size = 0 by omega)]
  exact Z3.rel_rel hx ho hf fun a b h => by rw [h, hs]; exact sle_toI a b

theorem C92_bvsgt : ZHomB ZBV.bvsgt BVal.bvsgt := by
  intro e x X o O hx ho hf
  have hs := hx.size_eq
  have hn := hx.pos
  rw [C10_bvsgt X O hx.WF ho.WF]
  simp only [if_neg (show ¬ X.size = 0 by omega)]
  exact Z3.rel_rel hx ho hf fun a b h => by rw [h, hs]; exact slt_toI b a

theorem C92_bvsge : ZHomB ZBV.bvsge BVal.bvsge := by
  intro e x X o O hx ho hf
  have hs := hx.size_eq
  have hn := hx.pos
  rw [C10_bvsge X O hx.WF ho.WF]
  simp only [if_neg (show ¬ X.size = 0 by omega)]
  exact Z3.rel_rel hx ho hf fun a b h => by rw [h, hs]; exact sle_toI b a

/-- A z3 constant for the examples: `r[n](name=[c])`. -/
def zSym (r : Root) (n : Nat) (c : Char) : ZBV := ⟨r, n, ⟨n, fun e => e.bv [c] n⟩⟩

/-- An assignment for the examples: `x = 9`, every other vector 2, bits false. -/
def zEnv9 : Env := ⟨fun _ => false, fun n w => if n = ['x'] then BitVec.ofNat w 9 else BitVec.ofNat w 2⟩

example : Z3.Den zEnv9 (zSym .sint 4 'x') ⟨.root .sint, 4, 9⟩ ∧ Z3.Den zEnv9 (zSym .sint 4 'y') ⟨.root .sint, 4, 2⟩ :=
  ⟨⟨rfl, rfl, by decide, _, rfl, by decide⟩, ⟨rfl, rfl, by decide, _, rfl, by decide⟩⟩

/-- `-7 % 2 = 1`, as in the concrete family. -/
example : ∃ z, (zSym .sint 4 'x').bvsrem (.bv (zSym .sint 4 'y')) = .ok z ∧ Z3.Den zEnv9 z ⟨.root .sint, 4, 1⟩ := by
  refine ⟨_, rfl, rfl, rfl, by decide, _, rfl, by decide⟩

example : ∃ z, (zSym .bv 3 'x').bvrol (.bv (zSym .bv 3 'y')) = .ok z ∧ Z3.Den zEnv9 z ⟨.root .bv, 3, 4⟩ := by
  refine ⟨_, rfl, rfl, rfl, by decide, _, rfl, by decide⟩

/-! ## C93 signed division -/

/-- **C93** the z3 `bvsdiv` is the SMT-LIB operation: truncation, `x / 0 = -1` or `1`. -/
theorem C93_sdiv_is_smtlib {e : Env} {x y : ZBV} {X Y : BVal} (hx : Z3.Den e x X) (hy : Z3.Den e y Y)
    (hs : y.size = x.size) :
    RelE (Z3.Den e) (x.bvsdiv (.bv y)) (.ok ⟨X.kind, X.size,
      wrap X.size (smtSdiv (signed X.size X.value) (signed X.size Y.value))⟩) := by
  have hX := hx.size_eq
  have hY := hy.size_eq
  have hop : operand X.size (.bv Y) = .ok Y.value := by simp [operand]; omega
  have := Z3.bin_rel (f := fun _ x y => x.smtSDiv y) (g := fun b => wrap X.size (smtSdiv (signed X.size X.value) (signed X.size b)))
    hx (.bv hy) trivial fun a b h => by rw [h, hX]; exact toI_sdiv hx.pos a b
  rwa [hop] at this

/-- **C93 (partial)**: full claim: the z3 and the concrete `bvsdiv` agree on all operands.  Proved where
floor and truncation agree.  See `C93_refuted`. -/
theorem C93_sdiv_partial {e : Env} {x y : ZBV} {X Y : BVal} (hx : Z3.Den e x X) (hy : Z3.Den e y Y)
    (hs : y.size = x.size)
    (hc : (signed X.size Y.value = 0 ∧ 0 ≤ signed X.size X.value) ∨
      (0 < signed X.size Y.value ∧ 0 ≤ signed X.size X.value) ∨
      (signed X.size Y.value < 0 ∧ signed X.size X.value ≤ 0) ∨
      (signed X.size Y.value ≠ 0 ∧ signed X.size Y.value ∣ signed X.size X.value)) :
    RelE (Z3.Den e) (x.bvsdiv (.bv y)) (X.bvsdiv (.bv Y)) := by
  have hX := hx.size_eq
  have hY := hy.size_eq
  have hn := hx.pos
  rw [C12_sdiv_partial hx.WF hy.WF (by omega) (by omega) hc]
  exact C93_sdiv_is_smtlib hx hy hs

/-- Two vectors of equal meaning under one assignment. -/
theorem den_unique {e : Env} {x : ZBV} {X Y : BVal} (h1 : Z3.Den e x X) (h2 : Z3.Den e x Y) : X = Y := by
  obtain ⟨r, n, d, rfl, rfl, -⟩ := h1.cases
  obtain ⟨r', n', d', h, rfl, -⟩ := h2.cases
  injection h with g1 g2 g3
  subst g1
  subst g2
  injection g3 with g3 g4
  rw [g4]

/-- **C93** away from a zero divisor, the z3 `bvsdiv` and the concrete one agree exactly when floor and
truncation do. -/
theorem C93_sdiv_iff {e : Env} {x y : ZBV} {X Y : BVal} (hx : Z3.Den e x X) (hy : Z3.Den e y Y)
    (hs : y.size = x.size) (h0 : signed X.size Y.value ≠ 0) :
    RelE (Z3.Den e) (x.bvsdiv (.bv y)) (X.bvsdiv (.bv Y)) ↔
    ((0 < signed X.size Y.value ∧ 0 ≤ signed X.size X.value) ∨
      (signed X.size Y.value < 0 ∧ signed X.size X.value ≤ 0) ∨
      (signed X.size Y.value ∣ signed X.size X.value)) := by
  have hX := hx.size_eq
  have hY := hy.size_eq
  have hn := hx.pos
  rw [← C12_sdiv_iff hx.WF hy.WF (by omega) (by omega) h0]
  obtain ⟨z, hz, hd⟩ := (C93_sdiv_is_smtlib hx hy hs).ok_right
  constructor
  · intro h
    rw [hz] at h
    cases hq : X.bvsdiv (.bv Y) with
    | error => rw [hq] at h; exact h.elim
    | ok Q => rw [hq] at h; rw [den_unique h hd]
  · intro h; rw [h]; exact C93_sdiv_is_smtlib hx hy hs

/-- `x // y` and `x % y` of `z3SIntVector` (z3_bit_vector.py:543-547), put back together:
`(x // y) * y + x % y`. -/
def zRecompose (x y : ZBV) : PyM ZBV := do
  let q ← zA .fdiv .sint x (.bv y)
  let r ← zA .mod .sint x (.bv y)
  let p ← zA .mul .sint q (.bv y)
  zA .add .sint p (.bv r)

/-- The same with the concrete methods. -/
def cRecompose (X Y : BVal) : PyM BVal := do
  let q ← X.bvsdiv (.bv Y)
  let r ← X.bvsrem (.bv Y)
  let p ← q.bvmul (.bv Y)
  p.bvadd (.bv r)

/-- Truncated and floor division differ by one exactly where the signs differ and the division is not
exact. -/
theorem tdiv_fdiv {A B : Int} (hB : B ≠ 0) :
    ((0 < B ∧ 0 ≤ A) ∨ (B < 0 ∧ A ≤ 0) ∨ B ∣ A) ∧ A.tdiv B = A.fdiv B ∨
    ¬ ((0 < B ∧ 0 ≤ A) ∨ (B < 0 ∧ A ≤ 0) ∨ B ∣ A) ∧ A.tdiv B = A.fdiv B + 1 := by
  by_cases hd : B ∣ A
  · refine .inl ⟨.inr (.inr hd), ?_⟩
    obtain ⟨k, rfl⟩ := hd
    rw [Int.mul_tdiv_cancel_left _ hB, Int.mul_fdiv_cancel_left _ hB]
  · rw [Int.fdiv_eq_tdiv]
    simp only [hd, or_false, if_false]
    rcases Int.lt_trichotomy A 0 with ha | ha | ha
    · rcases Int.lt_or_gt_of_ne hB with hb | hb
      · left; refine ⟨.inr ⟨hb, by omega⟩, ?_⟩
        rw [if_neg (by omega), if_neg (by omega), Int.sign_eq_neg_one_of_neg hb]; omega
      · right; refine ⟨by omega, ?_⟩
        rw [if_neg (by omega), if_pos (by omega), Int.sign_eq_one_of_pos hb]; omega
    · subst ha; simp at hd
    · rcases Int.lt_or_gt_of_ne hB with hb | hb
      · right; refine ⟨by omega, ?_⟩
        rw [if_pos (by omega), if_neg (by omega)]; omega
      · left; refine ⟨.inl ⟨hb, by omega⟩, ?_⟩
        rw [if_pos (by omega), if_pos (by omega)]; omega

theorem wrap_mul_signed (n : Nat) (q y : Int) : wrap n (wrap n q * y) = wrap n (q * signed n y) := by
  unfold wrap
  rw [Int.mul_emod, Int.mul_emod q (signed n y), Int.emod_emod_of_dvd _ (dvd_refl _), signed_mod]

theorem wrap_add_signed (n : Nat) (x d y : Int) : wrap n (x + d * y) = wrap n (signed n x + d * signed n y) := by
  unfold wrap
  rw [Int.add_emod, Int.add_emod (signed n x), Int.mul_emod, Int.mul_emod d (signed n y), signed_mod, signed_mod]

/-- **C93** in the concrete family quotient and remainder fit together: `(x // y) * y + x % y == x` for
every nonzero divisor. -/
theorem C93_concrete {X Y : BVal} (hX : X.WF) (hY : Y.WF) (hs : Y.size = X.size) (hn : 0 < X.size)
    (h0 : Y.value ≠ 0) : cRecompose X Y = .ok X := by
  have hop : operand X.size (.bv Y) = .ok Y.value := by simp [operand, hs]
  unfold cRecompose
  rw [bvsdiv_floor hX (o := .bv Y) hY, bvsrem_floor hX (o := .bv Y) hY, hop]
  simp only [Except.bind, bind, if_neg (show ¬ X.size = 0 by omega), if_neg h0, C05_bvmul, hop, Except.map, C05_bvadd]
  simp only [operand, if_true]
  obtain ⟨K, n, v⟩ := X
  dsimp only at *
  congr 2
  have hm := hX.mod_eq
  dsimp only at hm
  have hf := Int.mul_fdiv_add_fmod (signed n v) (signed n Y.value)
  conv_rhs => rw [← hm, ← signed_mod, ← hf]
  rw [wrap_mul_signed, Int.mul_comm]
  unfold wrap
  simp only [Int.emod_add_emod, Int.add_emod_emod]

/-- **C93** in the z3 family they do not: for a nonzero divisor, `(x // y) * y + x % y` is `x` when the
signs agree or the division is exact, and `x + y`, never `x`, in every other case. -/
theorem C93_recompose {e : Env} {x y : ZBV} {X Y : BVal} (hx : Z3.Den e x X) (hy : Z3.Den e y Y)
    (hs : y.size = x.size) (h0 : Y.value ≠ 0) :
    ∃ z Z, zRecompose x y = .ok z ∧ Z3.Den e z Z ∧
      Z = (if (0 < signed X.size Y.value ∧ 0 ≤ signed X.size X.value) ∨
          (signed X.size Y.value < 0 ∧ signed X.size X.value ≤ 0) ∨
          (signed X.size Y.value ∣ signed X.size X.value) then X
        else ⟨X.kind, X.size, wrap X.size (X.value + Y.value)⟩) ∧
      wrap X.size (X.value + Y.value) ≠ X.value := by
  have hXs := hx.size_eq
  have hYs := hy.size_eq
  have hn := hx.pos
  have hX := hx.WF
  have hY := hy.WF
  have hYX : Y.size = X.size := by omega
  have hop : operand X.size (.bv Y) = .ok Y.value := by simp [operand, hYX]
  have hY' := hY; unfold BVal.WF at hY'; rw [hYX] at hY'
  have hb0 : signed X.size Y.value ≠ 0 := by simp only [signed]; split <;> omega
  obtain ⟨q, hq, hqd⟩ := (C93_sdiv_is_smtlib hx hy hs).ok_right
  have hr := C92_bvsrem e x X _ _ hx (.bv hy) trivial
  rw [bvsrem_floor hX (o := .bv Y) hY, hop] at hr
  simp only [Except.bind, if_neg (show ¬ X.size = 0 by omega), if_neg h0] at hr
  obtain ⟨r, hr, hrd⟩ := hr.ok_right
  have hp := C92_bvmul e q _ _ _ hqd (.bv hy) trivial
  rw [C05_bvmul, hop] at hp
  obtain ⟨p, hp, hpd⟩ := hp.ok_right
  have ha := C92_bvadd e p _ _ _ hpd (.bv hrd) trivial
  rw [C05_bvadd] at ha
  simp only [operand, if_true] at ha
  obtain ⟨z, hz, hzd⟩ := ha.ok_right
  refine ⟨z, _, ?_, hzd, ?_, ?_⟩
  · simp only [zRecompose, zA, bind, Except.bind, hq, hr, hp, hz]
  · have hm := hX.mod_eq
    have hf := Int.mul_fdiv_add_fmod (signed X.size X.value) (signed X.size Y.value)
    have key : ∀ δ : Int, (signed X.size X.value).tdiv (signed X.size Y.value) =
        (signed X.size X.value).fdiv (signed X.size Y.value) + δ →
        wrap X.size (wrap X.size (wrap X.size (smtSdiv (signed X.size X.value) (signed X.size Y.value)) * Y.value) +
          wrap X.size ((signed X.size X.value).fmod (signed X.size Y.value))) =
        wrap X.size (X.value + δ * Y.value) := by
      intro δ hδ
      rw [wrap_add_signed, smtSdiv, if_neg hb0, hδ]
      conv_rhs => rw [← hf]
      rw [wrap_mul_signed]
      unfold wrap
      simp only [Int.emod_add_emod, Int.add_emod_emod]
      congr 1
      ring
    rcases tdiv_fdiv (A := signed X.size X.value) hb0 with ⟨hc, hδ⟩ | ⟨hc, hδ⟩
    · rw [if_pos hc]
      have := key 0 (by omega)
      dsimp only
      rw [this]
      simp only [Int.zero_mul, Int.add_zero, wrap, hm]
    · rw [if_neg hc]
      have := key 1 (by omega)
      dsimp only
      rw [this]
      simp only [Int.one_mul]
  · intro h
    have h1 : (X.value + Y.value) % 2 ^ X.size = X.value := h
    unfold BVal.WF at hX
    rcases lt_or_ge (X.value + Y.value) (2 ^ X.size) with hl | hl
    · rw [Int.emod_eq_of_lt (by omega) hl] at h1; omega
    · rw [← Int.sub_emod_right, Int.emod_eq_of_lt (by omega) (by omega)] at h1; omega

/-- **C93 refuted**: the z3 `bvsdiv` is not the concrete one, and it does not match the z3 `bvsrem`:
at width 4, `(-7 // 2) * 2 + -7 % 2` is `-5`. -/
theorem C93_refuted :
    ¬ (∀ (e : Env) (x y : ZBV) (X Y : BVal), Z3.Den e x X → Z3.Den e y Y → y.size = x.size →
      RelE (Z3.Den e) (x.bvsdiv (.bv y)) (X.bvsdiv (.bv Y))) ∧
    ¬ (∀ (e : Env) (x y : ZBV) (X Y : BVal), Z3.Den e x X → Z3.Den e y Y → y.size = x.size → Y.value ≠ 0 →
      RelE (Z3.Den e) (zRecompose x y) (.ok X)) := by
  have hx : Z3.Den zEnv9 (zSym .sint 4 'x') ⟨.root .sint, 4, 9⟩ := ⟨rfl, rfl, by decide, _, rfl, by decide⟩
  have hy : Z3.Den zEnv9 (zSym .sint 4 'y') ⟨.root .sint, 4, 2⟩ := ⟨rfl, rfl, by decide, _, rfl, by decide⟩
  constructor
  · intro h
    have := h _ _ _ _ _ hx hy rfl
    rw [C93_sdiv_iff hx hy rfl (by decide)] at this
    exact absurd this (by decide)
  · intro h
    obtain ⟨z, h1, h2⟩ := (h _ _ _ _ _ hx hy rfl (by decide)).ok_right
    have h3 : ∃ z, zRecompose (zSym .sint 4 'x') (zSym .sint 4 'y') = .ok z ∧ Z3.Den zEnv9 z ⟨.root .sint, 4, 11⟩ :=
      ⟨_, rfl, rfl, rfl, by decide, _, rfl, by decide⟩
    obtain ⟨z', h4, h5⟩ := h3
    rw [h1] at h4; cases h4
    exact absurd (den_unique h2 h5) (by decide)

end HW
