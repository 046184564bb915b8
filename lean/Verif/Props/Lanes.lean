import Verif.Props.Narrow

/-!
# C167: bitwise code works on every part of its vectors separately

A circuit (C123) made of constants, `~`, the bitwise methods, `ite` and bit operations commutes with slicing: what it
computes from the parts `x[lo:lo + k]` of its inputs are the same parts of what it computes from the whole. So one run at
width `n` is `n` runs at width 1, and many test cases can be packed in one vector.
-/

namespace HW
open Circuit Spec Gates Narrow

namespace Lanes

/-! ### The claims -/

/-- `X` has width `n` and `X[lo:lo + k]` is `X'`. -/
def Part (n lo k : Nat) (X X' : BVal) : Prop :=
  ∃ r, One r n X ∧ X.getSlice ⟨some lo, some ((lo + k : Nat) : Int), none⟩ = .ok X'

def bitwise : List Bin := [.and, .or, .xor, .nand, .nor, .xnor]

/-- The instructions that work digit by digit. `vs` says which of the earlier values are vectors: a bit as the operand of
a method of a vector stands for the number 0 or 1, that is for digit 0 only. -/
def Bitwise (n : Nat) (vs : List Bool) : Instr → Prop
  | .const _ m _ => m = n
  | .un op _ => op = .not
  | .bit .. | .bitNot .. | .mux .. => True
  | .bin op _ (.int _) => op ∈ bitwise
  | .bin op _ (.reg y) => op ∈ bitwise ∧ vs[y]? ≠ some false
  | _ => False

/-- The instruction gives a vector. -/
def isVec : Instr → Bool
  | .bit .. | .bitNot .. => false
  | _ => true

def regVec : Reg BVal Bool → Bool
  | .vec _ => true
  | .bit _ => false

def AllBitwise (n : Nat) : List Bool → List Instr → Prop
  | _, [] => True
  | vs, i :: p => Bitwise n vs i ∧ AllBitwise n (vs ++ [isVec i]) p

/-- The instruction with the digits from `lo` on of its constants, at width `k`. -/
def part (lo k : Nat) : Instr → Instr
  | .const r _ v => .const r k (v / 2 ^ lo)
  | .bin op x (.int c) => .bin op x (.int (c / 2 ^ lo))
  | i => i

/-! ### Digits -/

theorem bitwise_fn {op : Bin} (h : op ∈ bitwise) : ∃ f : Bool → Bool → Bool, Pointwise2 (cBin op) f := by
  simp only [bitwise, List.mem_cons, List.not_mem_nil, or_false] at h
  rcases h with rfl | rfl | rfl | rfl | rfl | rfl
  · exact ⟨_, C06_bvand⟩
  · exact ⟨_, C06_bvor⟩
  · exact ⟨_, C06_bvxor⟩
  · exact ⟨_, C06_bvnand⟩
  · exact ⟨_, C06_bvnor⟩
  · exact ⟨_, C06_bvxnor⟩

theorem readArg_none {F : Family} {q : List (Reg F.V F.B)} {y : Nat} (h : q[y]? = none) :
    readArg F q (.reg y) = .error .nameError := by
  simp [readArg, Circuit.read, h, Bind.bind, Except.bind]

theorem readArg_vec {F : Family} {q : List (Reg F.V F.B)} {y : Nat} {Z : F.V} (h : q[y]? = some (.vec Z)) :
    readArg F q (.reg y) = .ok (.vec Z) := by
  simp [readArg, Circuit.read, h, Bind.bind, Except.bind, pure, Except.pure]

/-- Digit `i` of `b'` is digit `lo + i` of `b`. -/
def Shifted (lo k : Nat) (b b' : Int) : Prop := ∀ i < k, ibit b' i = ibit b (lo + i)

section
variable {n lo k : Nat} (hk : 0 < k) (hkn : lo + k ≤ n)
include hk hkn

theorem part_iff {X X' : BVal} : Part n lo k X X' ↔ ∃ r, One r n X ∧ One r k X' ∧ Shifted lo k X.value X'.value := by
  have key : ∀ X : BVal, X.size = n → X.getSlice ⟨some lo, some ((lo + k : Nat) : Int), none⟩ =
      .ok ⟨X.kind, k, X.value / 2 ^ lo % 2 ^ k⟩ := by
    intro X hX
    have e := C15_slice_arith X lo (lo + k) (by omega) (by omega)
    rw [Nat.add_sub_cancel_left] at e
    exact e
  constructor
  · rintro ⟨r, hX, h⟩
    rw [key X hX.2.2.1] at h
    cases h
    refine ⟨r, hX, ⟨mod_bounds _ _, hX.2.1, rfl, hk⟩, fun i hi => ?_⟩
    dsimp only
    rw [ibit_emod, ibit_div]
    simp [hi]
  · rintro ⟨r, hX, hX', h⟩
    refine ⟨r, hX, ?_⟩
    rw [key X hX.2.2.1]
    obtain ⟨K, N, v⟩ := X'
    obtain ⟨⟨w0, w1⟩, hK, hN, -⟩ := hX'
    dsimp only at hK hN w0 w1 h
    subst hN
    rw [hX.2.1, hK]
    refine okv (ibit_ext fun i => ?_)
    rw [ibit_emod, ibit_div]
    by_cases hi : i < N
    · simp [hi, h i hi]
    · rw [ibit_lt w0 w1 (by omega)]; simp [hi]

theorem bin_part {op : Bin} (hop : op ∈ bitwise) {X X' : BVal} (h : Part n lo k X X') {o o' : Obj}
    (ho : RelP (· = ·) (Shifted lo k) (operand n o) (operand k o')) :
    RelP (· = ·) (Part n lo k) (cBin op X o) (cBin op X' o') := by
  obtain ⟨f, hf⟩ := bitwise_fn hop
  obtain ⟨r, hX, hX', hd⟩ := (part_iff hk hkn).1 h
  have e1 := hf X o
  have e2 := hf X' o'
  rw [hX.2.2.1] at e1
  rw [hX'.2.2.1] at e2
  cases h1 : operand n o <;> cases h2 : operand k o' <;> rw [h1, h2] at ho <;> rw [h1] at e1 <;> rw [h2] at e2
  · rw [e1, e2]; exact ho
  · exact ho.elim
  · exact ho.elim
  · obtain ⟨z, z1, z2, z3, z4, z5⟩ := e1
    obtain ⟨y, y1, y2, y3, y4, y5⟩ := e2
    rw [z1, y1]
    refine (part_iff hk hkn).2 ⟨r, ⟨z4, z2.trans hX.2.1, z3, hX.2.2.2⟩, ⟨y4, y2.trans hX'.2.1, y3, hk⟩, fun i hi => ?_⟩
    have ho : Shifted lo k _ _ := ho
    rw [y5 i hi, z5 (lo + i) (by omega), hd i hi, ho i hi]

theorem operand_part {Y Y' : BVal} (h : Part n lo k Y Y') :
    RelP (· = ·) (Shifted lo k) (operand n (.bv Y)) (operand k (.bv Y')) := by
  obtain ⟨r, hX, hX', hd⟩ := (part_iff hk hkn).1 h
  rw [operand_bv hX.2.2.1, operand_bv hX'.2.2.1]
  exact hd

omit hk in
theorem shifted_mod (c : Int) : Shifted lo k (c % 2 ^ n) (c / 2 ^ lo % 2 ^ k) := by
  intro i hi
  rw [ibit_emod, ibit_emod, ibit_div]
  simp [hi, show lo + i < n by omega]

omit hk in
theorem operand_ints (c : Int) :
    RelP (· = ·) (Shifted lo k) (operand n (.int c)) (operand k (.int (c / 2 ^ lo))) := shifted_mod hkn c

theorem not_part {X X' : BVal} (h : Part n lo k X X') : RelP (· = ·) (Part n lo k) X.bvnot X'.bvnot := by
  obtain ⟨r, hX, hX', hd⟩ := (part_iff hk hkn).1 h
  obtain ⟨z, z1, z2, z3, z4, z5⟩ := C06_bvnot X
  obtain ⟨y, y1, y2, y3, y4, y5⟩ := C06_bvnot X'
  rw [hX.2.2.1] at z3 z5
  rw [hX'.2.2.1] at y3 y5
  rw [z1, y1]
  refine (part_iff hk hkn).2 ⟨r, ⟨z4, z2.trans hX.2.1, z3, hX.2.2.2⟩, ⟨y4, y2.trans hX'.2.1, y3, hk⟩, fun i hi => ?_⟩
  rw [y5 i hi, z5 (lo + i) (by omega), hd i hi]

/-! ### Instructions -/

theorem step_part {i : Instr} {s t : List (Reg BVal Bool)} (hi : Bitwise n (s.map regVec) i)
    (h : List.Forall₂ (RegRel (Part n lo k) (· = ·)) s t) :
    RelP (· = ·) (fun a b => List.Forall₂ (RegRel (Part n lo k) (· = ·)) a b ∧ a.map regVec = s.map regVec ++ [isVec i])
      (step concrete s i) (step concrete t (part lo k i)) := by
  have okV : isVec i = true → ∀ {m M : PyM BVal}, RelP (· = ·) (Part n lo k) m M →
      RelP (· = ·) (fun a b => List.Forall₂ (RegRel (Part n lo k) (· = ·)) a b ∧ a.map regVec = s.map regVec ++ [isVec i])
        (m >>= fun x => .ok (s ++ [.vec x])) (M >>= fun x => .ok (t ++ [.vec x])) :=
    fun hv _ _ hm => hm.bind fun a b hab => ⟨List.rel_append h (.cons (.vec hab) .nil), by simp [hv, regVec]⟩
  have okB : isVec i = false → ∀ {m M : PyM Bool}, RelP (· = ·) (· = ·) m M →
      RelP (· = ·) (fun a b => List.Forall₂ (RegRel (Part n lo k) (· = ·)) a b ∧ a.map regVec = s.map regVec ++ [isVec i])
        (m >>= fun x => .ok (s ++ [.bit x])) (M >>= fun x => .ok (t ++ [.bit x])) :=
    fun hv _ _ hm => hm.bind fun a b hab => ⟨List.rel_append h (.cons (.bit hab) .nil), by simp [hv, regVec]⟩
  cases i with
  | const r m v =>
    have hi : m = n := hi
    subst hi
    refine check_rel ⟨fun _ => hk, fun _ => by omega⟩ fun _ => ?_
    have e : ∀ j v, concrete.const r j v = .ok ⟨.root r, j, v % 2 ^ j⟩ := fun j v => mkBV_int _ _ _
    rw [e, e]
    refine okV rfl (m := .ok _) (M := .ok _) ((part_iff hk hkn).2 ⟨r, ⟨mod_bounds _ _, rfl, rfl, by omega⟩,
      ⟨mod_bounds _ _, rfl, rfl, hk⟩, shifted_mod hkn v⟩)
  | un op x =>
    have hi : op = .not := hi
    subst hi
    exact (readV_rel h x).bind fun a b hx => okV rfl (not_part hk hkn hx)
  | bin op x y =>
    cases y with
    | int c => exact (readV_rel h x).bind fun a b hx => okV rfl (bin_part hk hkn hi hx (operand_ints hkn c))
    | reg y =>
      refine (readV_rel h x).bind fun a b hx => ?_
      rcases get_rel h y with ⟨h1, h2⟩ | ⟨u, v, h1, h2, hr⟩
      · rw [readArg_none (F := concrete) h1, readArg_none (F := concrete) h2]; rfl
      · cases hr with
        | bit hb => exact absurd (by simp [h1, regVec]) hi.2
        | @vec Y Y' hv =>
          rw [readArg_vec (F := concrete) h1, readArg_vec (F := concrete) h2]
          exact okV rfl (bin_part hk hkn hi.1 hx (operand_part hk hkn hv))
  | bit op a b =>
    exact (readB_rel h a).bind fun a b hx => (readB_rel h _).bind fun o p ho => okB rfl (by
      subst hx ho; rw [show concrete.bit op a o = _ from cBitOp_eq op a o]; rfl)
  | bitNot a => exact (readB_rel h a).bind fun a b hx => okB rfl (by subst hx; rfl)
  | mux c t f =>
    refine (readB_rel h c).bind fun c d hc => (readV_rel h t).bind fun a b hx => (readV_rel h f).bind fun o p ho => ?_
    subst hc
    obtain ⟨r, a1, a2, -⟩ := (part_iff hk hkn).1 hx
    obtain ⟨r', b1, b2, -⟩ := (part_iff hk hkn).1 ho
    refine check_rel (by simp [concrete, a1.2.1, a2.2.1, b1.2.1, b2.2.1, a1.2.2.1, a2.2.2.1, b1.2.2.1, b2.2.2.1]) fun hs => okV rfl ?_
    have hr : r = r' := by simpa [concrete, a2.2.1, b2.2.1, a2.2.2.1, b2.2.2.1] using hs
    subst hr
    have e1 := Circuit.iteBV_eq c (X := a) (Y := o) a1.1 b1.1 (by rw [a1.2.1, b1.2.1]) (by rw [a1.2.2.1, b1.2.2.1])
    have e2 := Circuit.iteBV_eq c (X := b) (Y := p) a2.1 b2.1 (by rw [a2.2.1, b2.2.1]) (by rw [a2.2.2.1, b2.2.2.1])
    show RelP _ _ ((iteBV c _ _ 0).map Prod.fst) ((iteBV c _ _ 0).map Prod.fst)
    rw [e1, e2]
    cases c
    · exact ho
    · exact hx
  | _ => exact hi.elim

theorem run_part (p : List Instr) : ∀ {s t : List (Reg BVal Bool)}, AllBitwise n (s.map regVec) p →
    List.Forall₂ (RegRel (Part n lo k) (· = ·)) s t →
    RelP (· = ·) (List.Forall₂ (RegRel (Part n lo k) (· = ·))) (run concrete s p) (run concrete t (p.map (part lo k))) := by
  induction p with
  | nil => intro s t _ h; exact h
  | cons i p ih =>
    intro s t hp h
    exact (step_part hk hkn hp.1 h).bind fun a b hab => ih (hab.2 ▸ hp.2) hab.1

end

/-- From simulation to the families. -/
theorem lift {L : BVal → BVal → Prop} {p p' : List Instr} {t t' : List (Reg BVal Bool)}
    (h3 : RelP (· = ·) (List.Forall₂ (RegRel L (· = ·))) (run concrete t p) (run concrete t' p')) {F : Family} {E : PyErr → PyErr → Prop}
    {RV : F.V → BVal → Prop} {RB : F.B → Bool → Prop} (H : Sim F concrete E RV RB) {s s' : List (Reg F.V F.B)}
    (hs : List.Forall₂ (RegRel RV RB) s t) (hs' : List.Forall₂ (RegRel RV RB) s' t') :
    RelP (fun _ _ => True) (List.Forall₂ (RegRel (Meant RV L) (Meant RB (· = ·)))) (run F s p) (run F s' p') := by
  have h1 := H.run_rel p hs
  have h2 := H.run_rel p' hs'
  cases e1 : run F s p with
  | error e =>
    obtain ⟨f, hf⟩ : ∃ f, run concrete t p = .error f := by
      cases e3 : run concrete t p with
      | error f => exact ⟨f, rfl⟩
      | ok w => rw [e1, e3] at h1; exact h1.elim
    obtain ⟨f', hf'⟩ : ∃ f, run concrete t' p' = .error f := by
      cases e3 : run concrete t' p' with
      | error f => exact ⟨f, rfl⟩
      | ok w => erw [hf, e3] at h3; exact h3.elim
    cases e2 : run F s' p' with
    | error e => trivial
    | ok w => erw [e2, hf'] at h2; exact h2.elim
  | ok u =>
    obtain ⟨w, w1, w2⟩ := RelP.ok_left h1 e1
    obtain ⟨w', w1', w2'⟩ := RelP.ok_left h3 w1
    obtain ⟨u', u1, u2⟩ := RelP.ok_right h2 w1'
    rw [u1]
    exact compose w2 u2 w2'

/-- `X₁.concat(X₂)` is `X`, and a bit is in both runs the same. -/
inductive Joined : Reg BVal Bool → Reg BVal Bool → Reg BVal Bool → Prop
  | vec {X X₁ X₂} : X₁.concat X₂ = .ok X → Joined (.vec X) (.vec X₁) (.vec X₂)
  | bit {b} : Joined (.bit b) (.bit b) (.bit b)

theorem concat_parts {n k : Nat} (hk : 0 < k) (hkn : k < n) {X X₁ X₂ : BVal} (h₁ : Part n 0 k X X₁)
    (h₂ : Part n k (n - k) X X₂) : X₁.concat X₂ = .ok X := by
  obtain ⟨r, a, a1, d1⟩ := (part_iff hk (by omega)).1 h₁
  obtain ⟨r', b, b1, d2⟩ := (part_iff (by omega) (by omega)).1 h₂
  have hr : r = r' := by simpa using a.2.1.symm.trans b.2.1
  subst hr
  have hsub : X₂.kind.isSub X₁.kind = true := by rw [a1.2.1, b1.2.1]; cases r <;> rfl
  rw [C14_concat a1.1 b1.1, if_pos hsub]
  obtain ⟨K, N, v⟩ := X
  obtain ⟨⟨w0, w1⟩, hK, hN, -⟩ := a
  dsimp only at hK hN w0 w1 d1 d2
  subst hK hN
  rw [a1.2.1, a1.2.2.1, b1.2.2.1, show k + (N - k) = N by omega]
  refine okv (ibit_ext fun i => ?_)
  have wa := a1.1
  have wb := b1.1
  unfold BVal.WF at wa wb
  rw [a1.2.2.1] at wa
  rw [b1.2.2.1] at wb
  rw [ibit_add_mul wa.1 wa.2]
  split
  · next h => rw [d1 i h, Nat.zero_add]
  · next h =>
    by_cases hi : i < N
    · rw [d2 (i - k) (by omega), show k + (i - k) = i by omega]
    · rw [ibit_lt wb.1 wb.2 (by omega), ibit_lt w0 w1 (by omega)]

end Lanes

open Lanes

/-- In simulation: on inputs of width `n` and on their parts `x[lo:lo + k]` the circuits raise the same exception, or the
values of the second are those parts of the values of the first, and the bits are equal. -/
theorem C167_simulation {n lo k : Nat} (hk : 0 < k) (hkn : lo + k ≤ n) (p : List Instr) {t t' : List (Reg BVal Bool)}
    (hp : AllBitwise n (t.map regVec) p) (h : List.Forall₂ (RegRel (Part n lo k) (· = ·)) t t') :
    RelP (· = ·) (List.Forall₂ (RegRel (Part n lo k) (· = ·))) (run concrete t p) (run concrete t' (p.map (part lo k))) :=
  run_part hk hkn p hp h

/-- The same in every family and under every assignment, up to the classes of exceptions. -/
theorem C167_families {n lo k : Nat} (hk : 0 < k) (hkn : lo + k ≤ n) (p : List Instr) :
    InAll fun F RV RB => ∀ s s' t t', List.Forall₂ (RegRel RV RB) s t → List.Forall₂ (RegRel RV RB) s' t' →
      AllBitwise n (t.map regVec) p → List.Forall₂ (RegRel (Part n lo k) (· = ·)) t t' →
      RelP (fun _ _ => True) (List.Forall₂ (RegRel (Meant RV (Part n lo k)) (Meant RB (· = ·)))) (run F s p)
        (run F s' (p.map (part lo k))) :=
  .of fun _ _ _ _ H _ _ _ _ hs hs' hp ht => lift (run_part hk hkn p hp ht) H hs hs'

/-- So the vectors can be cut in two anywhere, and the results put together with `concat`. -/
theorem C167_join {n k : Nat} (hk : 0 < k) (hkn : k < n) (p : List Instr) {t t₁ t₂ w : List (Reg BVal Bool)}
    (hp : AllBitwise n (t.map regVec) p) (h₁ : List.Forall₂ (RegRel (Part n 0 k) (· = ·)) t t₁)
    (h₂ : List.Forall₂ (RegRel (Part n k (n - k)) (· = ·)) t t₂) (hw : run concrete t p = .ok w) :
    ∃ w₁ w₂, run concrete t₁ (p.map (part 0 k)) = .ok w₁ ∧ run concrete t₂ (p.map (part k (n - k))) = .ok w₂ ∧
      w₁.length = w.length ∧ w₂.length = w.length ∧
      ∀ (i : Nat) (r r₁ r₂ : Reg BVal Bool), w[i]? = some r → w₁[i]? = some r₁ → w₂[i]? = some r₂ → Joined r r₁ r₂ := by
  obtain ⟨w₁, a1, a2⟩ := RelP.ok_left (run_part hk (by omega) p hp h₁) hw
  obtain ⟨w₂, b1, b2⟩ := RelP.ok_left (run_part (by omega) (by omega) p hp h₂) hw
  refine ⟨w₁, w₂, a1, b1, a2.length_eq.symm, b2.length_eq.symm, fun i r r₁ r₂ h h1 h2 => ?_⟩
  rcases get_rel a2 i with ⟨e, -⟩ | ⟨_, _, e, e', ha⟩
  · rw [h] at e; cases e
  rcases get_rel b2 i with ⟨f, -⟩ | ⟨_, _, f, f', hb⟩
  · rw [h] at f; cases f
  rw [h] at e f
  cases e
  cases f
  cases h1.symm.trans e'
  cases h2.symm.trans f'
  cases ha with
  | vec ha => cases hb with
    | vec hb => exact .vec (concat_parts hk hkn ha hb)
  | bit ha => cases hb with
    | bit hb => subst ha hb; exact .bit

/-- Addition is not among the instructions: carries cross from one part to the next. -/
theorem C167_addition_excluded : ¬ ∀ X X' : BVal, Part 8 4 4 X X' →
    RelP (· = ·) (Part 8 4 4) (X.bvadd (.bv X)) (X'.bvadd (.bv X')) := by
  intro h
  have h := h ⟨.root .uint, 8, 8⟩ ⟨.root .uint, 4, 0⟩ ⟨.uint, ⟨⟨by decide, by decide⟩, rfl, rfl, by decide⟩, by decide⟩
  rw [show BVal.bvadd ⟨.root .uint, 8, 8⟩ (.bv ⟨.root .uint, 8, 8⟩) = .ok ⟨.root .uint, 8, 16⟩ by decide,
    show BVal.bvadd ⟨.root .uint, 4, 0⟩ (.bv ⟨.root .uint, 4, 0⟩) = .ok ⟨.root .uint, 4, 0⟩ by decide] at h
  obtain ⟨r, -, h⟩ := h
  exact absurd h (by decide)

/-- `ite(c, (x & y) ^ 0x3C, ~x)`: eight cases at once, or the upper three of them. -/
def Lanes.demo : List Instr := [.bin .and 0 (.reg 1), .bin .xor 3 (.int 0x3C), .un .not 0, .mux 2 4 5]

example : AllBitwise 8 [true, true, false] Lanes.demo := by simp [Lanes.demo, AllBitwise, Bitwise, Lanes.bitwise]

example : List.Forall₂ (RegRel (B := Bool) (C := Bool) (Part 8 5 3) (· = ·))
    [.vec ⟨.root .uint, 8, 0xB7⟩, .vec ⟨.root .uint, 8, 0x5A⟩, .bit true]
    [.vec ⟨.root .uint, 3, 5⟩, .vec ⟨.root .uint, 3, 2⟩, .bit true] :=
  .cons (.vec ⟨.uint, ⟨⟨by decide, by decide⟩, rfl, rfl, by decide⟩, by decide⟩)
    (.cons (.vec ⟨.uint, ⟨⟨by decide, by decide⟩, rfl, rfl, by decide⟩, by decide⟩) (.cons (.bit rfl) .nil))

example : (Except.toOption (run concrete [.vec (⟨.root .uint, 3, 5⟩ : BVal), .vec (⟨.root .uint, 3, 2⟩ : BVal), .bit true]
    (Lanes.demo.map (part 5 3)))).bind (fun w => w[6]?.map fun r => (List.range 3).map (Wiring.rdigit r)) =
      some [true, false, false] := by decide +kernel

end HW
