import Verif.Props.Wiring

/-!
# C165: the low digits can be computed alone

A circuit (C123) made of constants, ring and bitwise methods, left shifts by small ints, `ite` and bit operations can be
cut down from width `n` to a smaller width `k`: its values are the first `k` digits of the former values.
-/

namespace HW
open Circuit Spec Gates

namespace Narrow

/-! ### The claims -/

/-- `X` has width `n` and `X[0:k]` is `X'`. -/
def Low (n k : Nat) (X X' : BVal) : Prop := ∃ r, One r n X ∧ X.getSlice ⟨some 0, some k, none⟩ = .ok X'

/-- The instructions in which no digit depends on a higher one. -/
def Narrows (n k : Nat) : Instr → Prop
  | .const _ m _ => m = n
  | .un .. | .bit .. | .bitNot .. | .mux .. => True
  | .bin .shl _ (.int c) => 0 ≤ c ∧ c < 2 ^ k
  | .bin op _ _ => op ∈ [Bin.and, .or, .xor, .nand, .nor, .xnor, .add, .sub, .mul]
  | .index _ i => 0 ≤ i ∧ i < k
  | _ => False

/-- The instruction with constants of width `k`. -/
def cut (k : Nat) : Instr → Instr
  | .const r _ v => .const r k v
  | i => i

/-! ### Digits -/

theorem mod_bits {k : Nat} {v v' : Int} (h : v % 2 ^ k = v' % 2 ^ k) {i : Nat} (hi : i < k) : ibit v i = ibit v' i := by
  have e := ibit_emod v k i
  rw [h, ibit_emod] at e
  simpa [hi] using e.symm

/-- The low `k` digits of `g v b` depend on those of `v` and `b`. -/
def LowFn (k : Nat) (g : Int → Int → Int) : Prop :=
  ∀ v v' b b', v % 2 ^ k = v' % 2 ^ k → b % 2 ^ k = b' % 2 ^ k → g v b % 2 ^ k = g v' b' % 2 ^ k

theorem lowFn_bits {k : Nat} {g : Int → Int → Int} {f : Bool → Bool → Bool}
    (hg : ∀ a b i, ibit (g a b) i = f (ibit a i) (ibit b i)) : LowFn k g := by
  intro v v' b b' hv hb
  refine ibit_ext fun i => ?_
  rw [ibit_emod, ibit_emod, hg, hg]
  by_cases hi : i < k
  · rw [mod_bits hv hi, mod_bits hb hi]
  · simp [hi]

theorem bin_fn {op : Bin} (hop : op ∈ [Bin.and, .or, .xor, .nand, .nor, .xnor, .add, .sub, .mul]) :
    ∃ g : Int → Int → Int, (∀ k, LowFn k g) ∧ ∀ x o, cBin op x o = (operand x.size o).map fun b =>
      (⟨x.kind, x.size, g x.value b % 2 ^ x.size⟩ : BVal) := by
  have hnot : ∀ {m : BVal → Obj → PyM BVal} {g : Int → Int → Int},
      (∀ x o, m x o = (operand x.size o).map fun b => (⟨x.kind, x.size, g x.value b % 2 ^ x.size⟩ : BVal)) →
      ∀ (x : BVal) (o : Obj), (m x o >>= fun a => a.bvnot) = (operand x.size o).map fun b =>
        (⟨x.kind, x.size, pyNot (g x.value b) % 2 ^ x.size⟩ : BVal) := by
    intro m g h x o
    rw [h]
    cases operand x.size o with
    | error e => rfl
    | ok b =>
      show BVal.bvnot ⟨x.kind, x.size, g x.value b % 2 ^ x.size⟩ = _
      rw [v_not]
      refine okv (ibit_ext fun i => ?_)
      rw [ibit_emod, ibit_pyNot, ibit_emod, ibit_emod, ibit_pyNot]
      by_cases hi : i < x.size <;> simp [hi]
  simp only [List.mem_cons, List.not_mem_nil, or_false] at hop
  rcases hop with rfl | rfl | rfl | rfl | rfl | rfl | rfl | rfl | rfl
  · exact ⟨pyAnd, fun k => lowFn_bits ibit_pyAnd, v_and0⟩
  · exact ⟨pyOr, fun k => lowFn_bits ibit_pyOr, v_or0⟩
  · exact ⟨pyXor, fun k => lowFn_bits ibit_pyXor, v_xor0⟩
  · exact ⟨fun a b => pyNot (pyAnd a b), fun k => lowFn_bits (f := fun a b => !(a && b)) fun a b i => by rw [ibit_pyNot, ibit_pyAnd], hnot v_and0⟩
  · exact ⟨fun a b => pyNot (pyOr a b), fun k => lowFn_bits (f := fun a b => !(a || b)) fun a b i => by rw [ibit_pyNot, ibit_pyOr], hnot v_or0⟩
  · exact ⟨fun a b => pyNot (pyXor a b), fun k => lowFn_bits (f := fun a b => !(a ^^ b)) fun a b i => by rw [ibit_pyNot, ibit_pyXor], hnot v_xor0⟩
  · exact ⟨fun a b => a + b, fun k v v' b b' hv hb => by rw [Int.add_emod, hv, hb, ← Int.add_emod], C05_bvadd⟩
  · exact ⟨fun a b => a - b, fun k v v' b b' hv hb => by rw [Int.sub_emod, hv, hb, ← Int.sub_emod], C05_bvsub⟩
  · exact ⟨fun a b => a * b, fun k v v' b b' hv hb => by rw [Int.mul_emod, hv, hb, ← Int.mul_emod], C05_bvmul⟩

section
variable {n k : Nat} (hk : 0 < k) (hkn : k ≤ n)
include hk hkn

omit hk in
theorem mod_mod (a : Int) : a % 2 ^ n % 2 ^ k = a % 2 ^ k := by
  refine Int.emod_emod_of_dvd _ ?_
  exact_mod_cast Nat.pow_dvd_pow 2 hkn

theorem low_iff {X X' : BVal} :
    Low n k X X' ↔ ∃ r v, 0 ≤ v ∧ v < 2 ^ n ∧ X = ⟨.root r, n, v⟩ ∧ X' = ⟨.root r, k, v % 2 ^ k⟩ := by
  have key : ∀ r v, (BVal.mk (.root r) n v).getSlice ⟨some 0, some k, none⟩ = .ok ⟨.root r, k, v % 2 ^ k⟩ := by
    intro r v
    have e := C15_slice_arith ⟨.root r, n, v⟩ 0 k (by omega) hkn
    rw [pow_zero, Int.ediv_one] at e
    exact e
  constructor
  · rintro ⟨r, ⟨w, hK, hN, h0⟩, h⟩
    obtain ⟨K, N, v⟩ := X
    dsimp only at hK hN
    subst hK hN
    rw [key] at h
    cases h
    exact ⟨r, v, w.1, w.2, rfl, rfl⟩
  · rintro ⟨r, v, h0, h1, rfl, rfl⟩
    exact ⟨r, ⟨⟨h0, h1⟩, rfl, rfl, by omega⟩, key r v⟩

theorem low_mk (r : Root) {a a' : Int} (h : a % 2 ^ k = a' % 2 ^ k) :
    Low n k ⟨.root r, n, a % 2 ^ n⟩ ⟨.root r, k, a' % 2 ^ k⟩ := by
  have hb := mod_bounds a n
  refine (low_iff hk hkn).2 ⟨r, _, hb.1, hb.2, rfl, ?_⟩
  rw [mod_mod hkn, h]

theorem operand_low {o o' : Opnd BVal Bool} (h : OpndRel (Low n k) (· = ·) o o') :
    RelP (· = ·) (fun b b' => b % 2 ^ k = b' % 2 ^ k) (operand n (cObj o)) (operand k (cObj o')) := by
  cases h with
  | vec h =>
    obtain ⟨r, v, h0, h1, rfl, rfl⟩ := (low_iff hk hkn).1 h
    show RelP _ _ (operand n (.bv ⟨.root r, n, v⟩)) (operand k (.bv ⟨.root r, k, v % 2 ^ k⟩))
    rw [v_op, v_op]
    exact (Int.emod_emod_of_dvd _ (Int.dvd_refl _)).symm
  | bit h =>
    subst h
    exact (mod_mod hkn _).trans (Int.emod_emod_of_dvd _ (Int.dvd_refl _)).symm
  | int => exact (mod_mod hkn _).trans (Int.emod_emod_of_dvd _ (Int.dvd_refl _)).symm

theorem bin_low {op : Bin} (hop : op ∈ [Bin.and, .or, .xor, .nand, .nor, .xnor, .add, .sub, .mul]) {X X' : BVal}
    (h : Low n k X X') {o o' : Opnd BVal Bool} (ho : OpndRel (Low n k) (· = ·) o o') :
    RelP (· = ·) (Low n k) (cBin op X (cObj o)) (cBin op X' (cObj o')) := by
  obtain ⟨g, hg, hb⟩ := bin_fn hop
  have hr := operand_low hk hkn ho
  obtain ⟨r, v, h0, h1, rfl, rfl⟩ := (low_iff hk hkn).1 h
  rw [hb, hb]
  dsimp only
  cases h1 : operand n (cObj o) <;> cases h2 : operand k (cObj o') <;> rw [h1, h2] at hr
  · exact hr
  · exact hr.elim
  · exact hr.elim
  · exact low_mk hk hkn r (hg k _ _ _ _ (Int.emod_emod_of_dvd _ (Int.dvd_refl _)).symm hr)

theorem shl_low {c : Int} (h0 : 0 ≤ c) (hc : c < 2 ^ k) {X X' : BVal} (h : Low n k X X') :
    RelP (· = ·) (Low n k) (BVal.bvshl X (.int c)) (BVal.bvshl X' (.int c)) := by
  obtain ⟨r, v, -, -, rfl, rfl⟩ := (low_iff hk hkn).1 h
  have hc' : c < 2 ^ n := Int.lt_of_lt_of_le hc (by exact_mod_cast Nat.pow_le_pow_right (by decide) hkn)
  rw [v_shl_int _ ⟨h0, hc'⟩, v_shl_int _ ⟨h0, hc⟩]
  refine low_mk hk hkn r ?_
  rw [Int.mul_emod, Int.mul_emod (v % 2 ^ k) (2 ^ c.toNat), Int.emod_emod_of_dvd v (Int.dvd_refl (2 ^ k))]

theorem un_low (op : Un) {X X' : BVal} (h : Low n k X X') : RelP (· = ·) (Low n k) (concrete.un op X) (concrete.un op X') := by
  obtain ⟨r, v, -, -, rfl, rfl⟩ := (low_iff hk hkn).1 h
  have e : v % 2 ^ k = v % 2 ^ k % 2 ^ k := (Int.emod_emod_of_dvd _ (Int.dvd_refl _)).symm
  cases op
  · show RelP _ _ (BVal.bvnot _) (BVal.bvnot _)
    rw [v_not, v_not]
    exact low_mk hk hkn r (lowFn_bits (f := fun a _ => !a) (g := fun a _ => pyNot a) (fun a b i => ibit_pyNot a i) _ _ 0 0 e rfl)
  · show RelP _ _ (BVal.bvneg _) (BVal.bvneg _)
    rw [v_neg, v_neg]
    refine low_mk hk hkn r ?_
    rw [← Int.zero_sub, ← Int.zero_sub, Int.sub_emod, Int.sub_emod 0 (v % 2 ^ k), ← e]

end

/-! ### Instructions -/

section
variable {V : BVal → BVal → Prop} {s t : List (Reg BVal Bool)} (h : List.Forall₂ (RegRel V (· = ·)) s t)
include h

theorem get_rel (i : Nat) : (s[i]? = none ∧ t[i]? = none) ∨ ∃ a b, s[i]? = some a ∧ t[i]? = some b ∧ RegRel V (· = ·) a b := by
  have hl := h.length_eq
  by_cases hi : i < s.length
  · exact .inr ⟨_, _, List.getElem?_eq_getElem hi, List.getElem?_eq_getElem (hl ▸ hi), h.get hi (hl ▸ hi)⟩
  · exact .inl ⟨List.getElem?_eq_none (by omega), List.getElem?_eq_none (by omega)⟩

theorem readV_rel (i : Nat) : RelP (· = ·) V (readV concrete s i) (readV concrete t i) := by
  rcases get_rel h i with ⟨h1, h2⟩ | ⟨_, _, h1, h2, (hv | hb)⟩
  · rw [(Wiring.read_none (F := concrete) h1).1, (Wiring.read_none (F := concrete) h2).1]; rfl
  · rw [(Wiring.read_some_vec (F := concrete) h1).1, (Wiring.read_some_vec (F := concrete) h2).1]; exact hv
  · rw [(Wiring.read_some_bit (F := concrete) h1).1, (Wiring.read_some_bit (F := concrete) h2).1]; rfl

theorem readB_rel (i : Nat) : RelP (· = ·) (· = ·) (readB concrete s i) (readB concrete t i) := by
  rcases get_rel h i with ⟨h1, h2⟩ | ⟨_, _, h1, h2, (hv | hb)⟩
  · rw [(Wiring.read_none (F := concrete) h1).2, (Wiring.read_none (F := concrete) h2).2]; rfl
  · rw [(Wiring.read_some_vec (F := concrete) h1).2, (Wiring.read_some_vec (F := concrete) h2).2]; rfl
  · rw [(Wiring.read_some_bit (F := concrete) h1).2, (Wiring.read_some_bit (F := concrete) h2).2]; exact hb

theorem readArg_rel (a : Arg) : RelP (· = ·) (OpndRel V (· = ·)) (readArg concrete s a) (readArg concrete t a) := by
  cases a with
  | int v => exact .int
  | reg i =>
    refine RelP.bind (R := RegRel V (· = ·)) ?_ fun a b hab => ?_
    · unfold Circuit.read
      have hl := h.length_eq
      by_cases hi : i < s.length
      · erw [List.getElem?_eq_getElem hi, List.getElem?_eq_getElem (hl ▸ hi)]
        exact h.get hi (hl ▸ hi)
      · erw [List.getElem?_eq_none (l := s) (by omega), List.getElem?_eq_none (l := t) (by omega)]
        rfl
    · cases hab with
      | vec hx => exact .vec hx
      | bit hx => exact .bit hx

end

theorem check_rel {α β : Type} {R : α → β → Prop} {c d : Prop} [Decidable c] [Decidable d] {m : PyM α} {M : PyM β}
    (hc : c ↔ d) (hm : d → RelP (· = ·) R m M) : RelP (· = ·) R (check c >>= fun _ => m) (check d >>= fun _ => M) := by
  unfold check
  by_cases hd : d
  · rw [if_pos hd, if_pos (hc.2 hd)]; exact hm hd
  · rw [if_neg hd, if_neg (fun h => hd (hc.1 h))]; rfl

theorem step_low {n k : Nat} (hk : 0 < k) (hkn : k ≤ n) {i : Instr} (hi : Narrows n k i) {s t : List (Reg BVal Bool)}
    (h : List.Forall₂ (RegRel (Low n k) (· = ·)) s t) :
    RelP (· = ·) (List.Forall₂ (RegRel (Low n k) (· = ·))) (step concrete s i) (step concrete t (cut k i)) := by
  have okV : ∀ {m M : PyM BVal}, RelP (· = ·) (Low n k) m M →
      RelP (· = ·) (List.Forall₂ (RegRel (Low n k) (· = ·))) (m >>= fun x => .ok (s ++ [.vec x])) (M >>= fun x => .ok (t ++ [.vec x])) :=
    fun hm => hm.bind fun a b hab => List.rel_append h (.cons (.vec hab) .nil)
  have okB : ∀ {m M : PyM Bool}, RelP (· = ·) (· = ·) m M →
      RelP (· = ·) (List.Forall₂ (RegRel (Low n k) (· = ·))) (m >>= fun x => .ok (s ++ [.bit x])) (M >>= fun x => .ok (t ++ [.bit x])) :=
    fun hm => hm.bind fun a b hab => List.rel_append h (.cons (.bit hab) .nil)
  cases i with
  | const r m v =>
    have hi : m = n := hi
    subst hi
    refine check_rel ⟨fun _ => hk, fun _ => by omega⟩ fun _ => ?_
    have e : ∀ j, concrete.const r j v = .ok ⟨.root r, j, v % 2 ^ j⟩ := fun j => mkBV_int _ _ _
    rw [e, e]
    exact okV (m := .ok _) (M := .ok _) (low_mk hk hkn r rfl)
  | un op x => exact (readV_rel h x).bind fun a b hx => okV (un_low hk hkn op hx)
  | bin op x y =>
    by_cases hop : op ∈ [Bin.and, .or, .xor, .nand, .nor, .xnor, .add, .sub, .mul]
    · exact (readV_rel h x).bind fun a b hx => (readArg_rel h y).bind fun o p ho => okV (bin_low hk hkn hop hx ho)
    · cases op <;> try (exact absurd hi hop)
      cases y with
      | reg y => exact absurd hi hop
      | int c => exact (readV_rel h x).bind fun a b hx => okV (shl_low hk hkn hi.1 hi.2 hx)
  | bit op a b =>
    exact (readB_rel h a).bind fun a b hx => (readB_rel h _).bind fun o p ho => okB (by subst hx ho; rw [show concrete.bit op a o = _ from cBitOp_eq op a o]; rfl)
  | bitNot a => exact (readB_rel h a).bind fun a b hx => okB (by subst hx; rfl)
  | mux c t f =>
    refine (readB_rel h c).bind fun c d hc => (readV_rel h t).bind fun a b hx => (readV_rel h f).bind fun o p ho => ?_
    subst hc
    obtain ⟨r, v, a0, a1, rfl, rfl⟩ := (low_iff hk hkn).1 hx
    obtain ⟨r', v', b0, b1, rfl, rfl⟩ := (low_iff hk hkn).1 ho
    refine check_rel (by simp [concrete]) fun hs => okV ?_
    have hr : r = r' := by simpa [concrete] using hs
    subst hr
    have e1 := Circuit.iteBV_eq c (X := ⟨.root r, n, v⟩) (Y := ⟨.root r, n, v'⟩) ⟨a0, a1⟩ ⟨b0, b1⟩ rfl rfl
    have e2 := Circuit.iteBV_eq c (X := ⟨.root r, k, v % 2 ^ k⟩) (Y := ⟨.root r, k, v' % 2 ^ k⟩) (mod_bounds _ _) (mod_bounds _ _) rfl rfl
    show RelP _ _ ((iteBV c _ _ 0).map Prod.fst) ((iteBV c _ _ 0).map Prod.fst)
    rw [e1, e2]
    cases c
    · exact ho
    · exact hx
  | index x i =>
    refine (readV_rel h x).bind fun a b hx => okB ?_
    obtain ⟨r, v, a0, a1, rfl, rfl⟩ := (low_iff hk hkn).1 hx
    have hi : 0 ≤ i ∧ i < k := hi
    show RelP _ _ (BVal.getIdx _ i) (BVal.getIdx _ i)
    rw [C15_index, C15_index]
    have e1 : pyIndex? n i = some i.toNat := by unfold pyIndex?; rw [if_pos (by omega)]
    have e2 : pyIndex? k i = some i.toNat := by unfold pyIndex?; rw [if_pos (by omega)]
    dsimp only
    rw [e1, e2]
    show ibit v i.toNat = ibit (v % 2 ^ k) i.toNat
    rw [ibit_emod]
    simp [show i.toNat < k by omega]
  | _ => exact hi.elim

theorem run_low {n k : Nat} (hk : 0 < k) (hkn : k ≤ n) (p : List Instr) (hp : ∀ i ∈ p, Narrows n k i) :
    ∀ {s t : List (Reg BVal Bool)}, List.Forall₂ (RegRel (Low n k) (· = ·)) s t →
      RelP (· = ·) (List.Forall₂ (RegRel (Low n k) (· = ·))) (run concrete s p) (run concrete t (p.map (cut k))) := by
  induction p with
  | nil => intro s t h; exact h
  | cons i p ih =>
    intro s t h
    exact (step_low hk hkn (hp i (by simp)) h).bind fun a b hab => ih (fun i hi => hp i (by simp [hi])) hab

/-- Values of a family whose meanings are related. -/
def Meant {A : Type} {B : Type} (RV : A → B → Prop) (L : B → B → Prop) (a a' : A) : Prop := ∃ X X', RV a X ∧ RV a' X' ∧ L X X'

theorem compose {A B : Type} {RV : A → BVal → Prop} {RB : B → Bool → Prop} {L : BVal → BVal → Prop} {s s' : List (Reg A B)}
    {t t' : List (Reg BVal Bool)} (h : List.Forall₂ (RegRel RV RB) s t) (h' : List.Forall₂ (RegRel RV RB) s' t')
    (hl : List.Forall₂ (RegRel L (· = ·)) t t') : List.Forall₂ (RegRel (Meant RV L) (Meant RB (· = ·))) s s' := by
  induction h generalizing s' t' with
  | nil => cases hl; cases h'; exact .nil
  | cons h _ ih =>
    cases hl with
    | cons hl hls =>
      cases h' with
      | cons h' hs' =>
        refine .cons ?_ (ih hs' hls)
        cases h with
        | vec h => cases hl with
          | vec hl => cases h' with
            | vec h' => exact .vec ⟨_, _, h, h', hl⟩
        | bit h => cases hl with
          | bit hl => cases h' with
            | bit h' => exact .bit ⟨_, _, h, h', hl⟩

end Narrow

open Narrow

/-- In simulation: on inputs `x` of width `n` and on their first `k` digits `x[0:k]` the circuit and the cut-down circuit
raise the same exception, or the values of the second are the first `k` digits of those of the first, and the bits are
equal. -/
theorem C165_simulation {n k : Nat} (hk : 0 < k) (hkn : k ≤ n) (p : List Instr) (hp : ∀ i ∈ p, Narrows n k i)
    {t t' : List (Reg BVal Bool)} (h : List.Forall₂ (RegRel (Low n k) (· = ·)) t t') :
    RelP (· = ·) (List.Forall₂ (RegRel (Low n k) (· = ·))) (run concrete t p) (run concrete t' (p.map (cut k))) :=
  run_low hk hkn p hp h

/-- The same in every family and under every assignment, up to the classes of exceptions. -/
theorem C165_families {n k : Nat} (hk : 0 < k) (hkn : k ≤ n) (p : List Instr) (hp : ∀ i ∈ p, Narrows n k i) :
    InAll fun F RV RB => ∀ s s' t t', List.Forall₂ (RegRel RV RB) s t → List.Forall₂ (RegRel RV RB) s' t' →
      List.Forall₂ (RegRel (Low n k) (· = ·)) t t' →
      RelP (fun _ _ => True) (List.Forall₂ (RegRel (Meant RV (Low n k)) (Meant RB (· = ·)))) (run F s p)
        (run F s' (p.map (cut k))) := by
  refine .of fun F E RV RB H s s' t t' hs hs' ht => ?_
  have h1 := H.run_rel p hs
  have h2 := H.run_rel (p.map (cut k)) hs'
  have h3 := run_low hk hkn p hp ht
  cases e1 : run F s p with
  | error e =>
    obtain ⟨f, hf⟩ : ∃ f, run concrete t p = .error f := by
      cases e3 : run concrete t p with
      | error f => exact ⟨f, rfl⟩
      | ok w => rw [e1, e3] at h1; exact h1.elim
    obtain ⟨f', hf'⟩ : ∃ f, run concrete t' (p.map (cut k)) = .error f := by
      cases e3 : run concrete t' (p.map (cut k)) with
      | error f => exact ⟨f, rfl⟩
      | ok w => erw [hf, e3] at h3; exact h3.elim
    cases e2 : run F s' (p.map (cut k)) with
    | error e => trivial
    | ok w => erw [e2, hf'] at h2; exact h2.elim
  | ok u =>
    obtain ⟨w, w1, w2⟩ := RelP.ok_left h1 e1
    obtain ⟨w', w1', w2'⟩ := RelP.ok_left h3 w1
    obtain ⟨u', u1, u2⟩ := RelP.ok_right h2 w1'
    rw [u1]
    exact compose w2 u2 w2'

/-- Hence a digit of a result never depends on higher digits of the inputs: inputs that agree on their first `k` digits
give results that agree on theirs. -/
theorem C165_no_higher {n k : Nat} (hk : 0 < k) (hkn : k ≤ n) (p : List Instr) (hp : ∀ i ∈ p, Narrows n k i)
    {t₁ t₂ t : List (Reg BVal Bool)} (h₁ : List.Forall₂ (RegRel (Low n k) (· = ·)) t₁ t)
    (h₂ : List.Forall₂ (RegRel (Low n k) (· = ·)) t₂ t) {w₁ w₂ : List (Reg BVal Bool)} (e₁ : run concrete t₁ p = .ok w₁)
    (e₂ : run concrete t₂ p = .ok w₂) :
    ∃ w, List.Forall₂ (RegRel (Low n k) (· = ·)) w₁ w ∧ List.Forall₂ (RegRel (Low n k) (· = ·)) w₂ w := by
  obtain ⟨w, a1, a2⟩ := RelP.ok_left (run_low hk hkn p hp h₁) e₁
  obtain ⟨w', b1, b2⟩ := RelP.ok_left (run_low hk hkn p hp h₂) e₂
  cases a1.symm.trans b1
  exact ⟨w, a2, b2⟩

/-- Division is not among the instructions, and rightly so: cutting it down gives other digits. -/
theorem C165_division_excluded : ¬ ∀ X X' : BVal, Low 8 4 X X' →
    RelP (· = ·) (Low 8 4) (X.bvudiv (.int 2)) (X'.bvudiv (.int 2)) := by
  intro h
  have h := h ⟨.root .uint, 8, 16⟩ ⟨.root .uint, 4, 0⟩
    ((low_iff (by decide) (by decide)).2 ⟨.uint, 16, by decide, by decide, rfl, by decide⟩)
  rw [show BVal.bvudiv ⟨.root .uint, 8, 16⟩ (.int 2) = .ok ⟨.root .uint, 8, 8⟩ by decide,
    show BVal.bvudiv ⟨.root .uint, 4, 0⟩ (.int 2) = .ok ⟨.root .uint, 4, 0⟩ by decide] at h
  obtain ⟨r, v, -, -, h1, h2⟩ := (low_iff (by decide) (by decide)).1 h
  cases h1
  exact absurd h2 (by decide)

/-- `~(x * y + 200) ^ (x << 2)` at width 8 and at width 3. -/
def Narrow.demo : List Instr :=
  [.bin .mul 0 (.reg 1), .const .uint 8 200, .bin .add 2 (.reg 3), .un .not 4, .bin .shl 0 (.int 2), .bin .xor 5 (.reg 6)]

example : ∀ i ∈ Narrow.demo, Narrows 8 3 i := by simp [Narrow.demo, Narrows]

example : List.Forall₂ (RegRel (B := Bool) (C := Bool) (Low 8 3) (· = ·)) [.vec ⟨.root .uint, 8, 0xB7⟩, .vec ⟨.root .uint, 8, 0x5A⟩]
    [.vec ⟨.root .uint, 3, 7⟩, .vec ⟨.root .uint, 3, 2⟩] :=
  .cons (.vec ⟨.uint, ⟨⟨by decide, by decide⟩, rfl, rfl, by decide⟩, by decide⟩)
    (.cons (.vec ⟨.uint, ⟨⟨by decide, by decide⟩, rfl, rfl, by decide⟩, by decide⟩) .nil)

example : (Except.toOption (run concrete [.vec (⟨.root .uint, 3, 7⟩ : BVal), .vec (⟨.root .uint, 3, 2⟩ : BVal)]
    (Narrow.demo.map (cut 3)))).bind (fun w => w[7]?.map fun r => (List.range 3).map (Wiring.rdigit r)) =
      some [true, false, true] := by decide +kernel

end HW
