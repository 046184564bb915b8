import Verif.Props.Lanes

/-!
# C170: De Morgan's laws for whole functions

A bitwise circuit (C167) and its dual, in which `and` and `or`, `nand` and `nor`, `xor` and `xnor` are exchanged, constants
are inverted and the branches of `ite` are swapped: on inverted inputs the dual computes the inverted values.
-/

namespace HW
open Circuit Spec Gates Narrow Lanes

namespace Dual

/-! ### The claims -/

/-- `X` has width `n` and `~X` is `X'`. -/
def Inv (n : Nat) (X X' : BVal) : Prop := (∃ r, One r n X) ∧ X.bvnot = .ok X'

/-- `~b` is `c`. -/
def InvB (b c : Bool) : Prop := c = !b

def binDual : Bin → Bin
  | .and => .or | .or => .and | .nand => .nor | .nor => .nand | .xor => .xnor | .xnor => .xor
  | op => op

def bitDual : Smt.BitOp → Smt.BitOp
  | .and => .or | .or => .and | .xor => .eq | .eq => .ne | .ne => .eq

def dual : Instr → Instr
  | .const r n v => .const r n (-v - 1)
  | .bin op x (.int c) => .bin (binDual op) x (.int (-c - 1))
  | .bin op x (.reg y) => .bin (binDual op) x (.reg y)
  | .bit op a b => .bit (bitDual op) a b
  | .mux c t f => .mux c f t
  | i => i

/-! ### Digits -/

def Opp (n : Nat) (b b' : Int) : Prop := ∀ i < n, ibit b' i = !ibit b i

theorem inv_iff {n : Nat} {X X' : BVal} : Inv n X X' ↔ ∃ r, One r n X ∧ One r n X' ∧ Opp n X.value X'.value := by
  constructor
  · rintro ⟨⟨r, hX⟩, h⟩
    obtain ⟨z, z1, z2, z3, z4, z5⟩ := C06_bvnot X
    cases h.symm.trans z1
    rw [hX.2.2.1] at z3 z5
    exact ⟨r, hX, ⟨z4, z2.trans hX.2.1, z3, hX.2.2.2⟩, fun i hi => z5 i hi⟩
  · rintro ⟨r, hX, hX', h⟩
    refine ⟨⟨r, hX⟩, ?_⟩
    obtain ⟨z, z1, z2, z3, z4, z5⟩ := C06_bvnot X
    rw [hX.2.2.1] at z3 z5
    rw [z1]
    obtain ⟨K, N, v⟩ := X'
    obtain ⟨K', N', v'⟩ := z
    obtain ⟨⟨w0, w1⟩, hK, hN, -⟩ := hX'
    obtain ⟨u0, u1⟩ := z4
    have hKK := z2.trans hX.2.1
    dsimp only at hK hN w0 w1 h z3 z5 u0 u1 hKK
    subst hN z3 hK hKK
    refine okv (ibit_ext fun i => ?_)
    by_cases hi : i < N'
    · rw [z5 i hi, h i hi]
    · rw [ibit_lt w0 w1 (by omega), ibit_lt u0 u1 (by omega)]

/-- De Morgan, digit by digit. -/
theorem bin_fns {op : Bin} (h : op ∈ Lanes.bitwise) : ∃ f g : Bool → Bool → Bool, Pointwise2 (cBin op) f ∧
    Pointwise2 (cBin (binDual op)) g ∧ ∀ a b, g (!a) (!b) = !f a b := by
  simp only [Lanes.bitwise, List.mem_cons, List.not_mem_nil, or_false] at h
  rcases h with rfl | rfl | rfl | rfl | rfl | rfl
  · exact ⟨_, _, C06_bvand, C06_bvor, by decide⟩
  · exact ⟨_, _, C06_bvor, C06_bvand, by decide⟩
  · exact ⟨_, _, C06_bvxor, C06_bvxnor, by decide⟩
  · exact ⟨_, _, C06_bvnand, C06_bvnor, by decide⟩
  · exact ⟨_, _, C06_bvnor, C06_bvnand, by decide⟩
  · exact ⟨_, _, C06_bvxnor, C06_bvxor, by decide⟩

abbrev Any (_ _ : PyErr) : Prop := True

section
variable {n : Nat}

theorem bin_inv {op : Bin} (hop : op ∈ Lanes.bitwise) {X X' : BVal} (h : Inv n X X') {o o' : Obj}
    (ho : RelP Any (Opp n) (operand n o) (operand n o')) :
    RelP Any (Inv n) (cBin op X o) (cBin (binDual op) X' o') := by
  obtain ⟨f, g, hf, hg, hfg⟩ := bin_fns hop
  obtain ⟨r, hX, hX', hd⟩ := inv_iff.1 h
  have e1 := hf X o
  have e2 := hg X' o'
  rw [hX.2.2.1] at e1
  rw [hX'.2.2.1] at e2
  cases h1 : operand n o <;> cases h2 : operand n o' <;> rw [h1, h2] at ho <;> rw [h1] at e1 <;> rw [h2] at e2
  · rw [e1, e2]; exact ho
  · exact ho.elim
  · exact ho.elim
  · obtain ⟨z, z1, z2, z3, z4, z5⟩ := e1
    obtain ⟨y, y1, y2, y3, y4, y5⟩ := e2
    rw [z1, y1]
    refine inv_iff.2 ⟨r, ⟨z4, z2.trans hX.2.1, z3, hX.2.2.2⟩, ⟨y4, y2.trans hX'.2.1, y3, hX.2.2.2⟩, fun i hi => ?_⟩
    have ho : Opp n _ _ := ho
    rw [y5 i hi, z5 i hi, hd i hi, ho i hi, hfg]

theorem operand_inv {Y Y' : BVal} (h : Inv n Y Y') : RelP Any (Opp n) (operand n (.bv Y)) (operand n (.bv Y')) := by
  obtain ⟨r, hX, hX', hd⟩ := inv_iff.1 h
  rw [operand_bv hX.2.2.1, operand_bv hX'.2.2.1]
  exact hd

theorem opp_mod (c : Int) : Opp n (c % 2 ^ n) ((-c - 1) % 2 ^ n) := by
  intro i hi
  rw [ibit_emod, ibit_emod, show -c - 1 = pyNot c by simp only [pyNot], ibit_pyNot]
  simp [hi]

theorem operand_ints (c : Int) : RelP Any (Opp n) (operand n (.int c)) (operand n (.int (-c - 1))) := opp_mod c

theorem not_inv {X X' : BVal} (h : Inv n X X') : RelP Any (Inv n) X.bvnot X'.bvnot := by
  obtain ⟨r, hX, hX', hd⟩ := inv_iff.1 h
  obtain ⟨y, y1, y2, y3, y4, y5⟩ := C06_bvnot X'
  rw [h.2, y1]
  exact ⟨⟨r, hX'⟩, y1⟩

theorem bit_inv (op : Smt.BitOp) {a a' b b' : Bool} (ha : InvB a a') (hb : InvB b b') :
    RelP Any InvB (concrete.bit op a b) (concrete.bit (bitDual op) a' b') := by
  unfold InvB at ha hb
  subst ha hb
  rw [show concrete.bit op a b = _ from cBitOp_eq op a b,
    show concrete.bit (bitDual op) (!a) (!b) = _ from cBitOp_eq (bitDual op) (!a) (!b)]
  cases op <;> cases a <;> cases b <;> rfl

/-! ### Instructions -/

section
variable {s t : List (Reg BVal Bool)} (h : List.Forall₂ (RegRel (Inv n) InvB) s t)
include h

theorem get_inv (i : Nat) : (s[i]? = none ∧ t[i]? = none) ∨
    ∃ a b, s[i]? = some a ∧ t[i]? = some b ∧ RegRel (Inv n) InvB a b := by
  have hl := h.length_eq
  by_cases hi : i < s.length
  · exact .inr ⟨_, _, List.getElem?_eq_getElem hi, List.getElem?_eq_getElem (hl ▸ hi), h.get hi (hl ▸ hi)⟩
  · exact .inl ⟨List.getElem?_eq_none (by omega), List.getElem?_eq_none (by omega)⟩

theorem readV_inv (i : Nat) : RelP Any (Inv n) (readV concrete s i) (readV concrete t i) := by
  rcases get_inv h i with ⟨h1, h2⟩ | ⟨_, _, h1, h2, (hv | hb)⟩
  · rw [(Wiring.read_none (F := concrete) h1).1, (Wiring.read_none (F := concrete) h2).1]; trivial
  · rw [(Wiring.read_some_vec (F := concrete) h1).1, (Wiring.read_some_vec (F := concrete) h2).1]; exact hv
  · rw [(Wiring.read_some_bit (F := concrete) h1).1, (Wiring.read_some_bit (F := concrete) h2).1]; trivial

theorem readB_inv (i : Nat) : RelP Any InvB (readB concrete s i) (readB concrete t i) := by
  rcases get_inv h i with ⟨h1, h2⟩ | ⟨_, _, h1, h2, (hv | hb)⟩
  · rw [(Wiring.read_none (F := concrete) h1).2, (Wiring.read_none (F := concrete) h2).2]; trivial
  · rw [(Wiring.read_some_vec (F := concrete) h1).2, (Wiring.read_some_vec (F := concrete) h2).2]; trivial
  · rw [(Wiring.read_some_bit (F := concrete) h1).2, (Wiring.read_some_bit (F := concrete) h2).2]; exact hb

end

theorem check_inv {α β : Type} {R : α → β → Prop} {c d : Prop} [Decidable c] [Decidable d] {m : PyM α} {M : PyM β}
    (hc : c ↔ d) (hm : d → RelP Any R m M) : RelP Any R (check c >>= fun _ => m) (check d >>= fun _ => M) := by
  unfold check
  by_cases hd : d
  · rw [if_pos hd, if_pos (hc.2 hd)]; exact hm hd
  · rw [if_neg hd, if_neg (fun h => hd (hc.1 h))]; trivial

/-- Two reads in one order and in the other. -/
theorem swap {α β γ δ : Type} {A : α → β → Prop} {R : γ → δ → Prop} {m₁ m₂ : PyM α} {M₁ M₂ : PyM β} (h₁ : RelP Any A m₁ M₁)
    (h₂ : RelP Any A m₂ M₂) {f : α → α → PyM γ} {g : β → β → PyM δ}
    (hf : ∀ a b o p, A a b → A o p → RelP Any R (f a o) (g p b)) :
    RelP Any R (m₁ >>= fun a => m₂ >>= fun o => f a o) (M₂ >>= fun p => M₁ >>= fun b => g p b) := by
  cases m₁ <;> cases M₁ <;> cases m₂ <;> cases M₂ <;> first | exact h₁.elim | exact h₂.elim | trivial | exact hf _ _ _ _ h₁ h₂

theorem step_inv {i : Instr} {s t : List (Reg BVal Bool)} (hi : Bitwise n (s.map regVec) i)
    (h : List.Forall₂ (RegRel (Inv n) InvB) s t) :
    RelP Any (fun a b => List.Forall₂ (RegRel (Inv n) InvB) a b ∧ a.map regVec = s.map regVec ++ [isVec i])
      (step concrete s i) (step concrete t (dual i)) := by
  have okV : isVec i = true → ∀ {m M : PyM BVal}, RelP Any (Inv n) m M →
      RelP Any (fun a b => List.Forall₂ (RegRel (Inv n) InvB) a b ∧ a.map regVec = s.map regVec ++ [isVec i])
        (m >>= fun x => .ok (s ++ [.vec x])) (M >>= fun x => .ok (t ++ [.vec x])) :=
    fun hv _ _ hm => hm.bind fun a b hab => ⟨List.rel_append h (.cons (.vec hab) .nil), by simp [hv, regVec]⟩
  have okB : isVec i = false → ∀ {m M : PyM Bool}, RelP Any InvB m M →
      RelP Any (fun a b => List.Forall₂ (RegRel (Inv n) InvB) a b ∧ a.map regVec = s.map regVec ++ [isVec i])
        (m >>= fun x => .ok (s ++ [.bit x])) (M >>= fun x => .ok (t ++ [.bit x])) :=
    fun hv _ _ hm => hm.bind fun a b hab => ⟨List.rel_append h (.cons (.bit hab) .nil), by simp [hv, regVec]⟩
  cases i with
  | const r m v =>
    have hi : m = n := hi
    subst hi
    refine check_inv Iff.rfl fun hm => ?_
    have e : ∀ j v, concrete.const r j v = .ok ⟨.root r, j, v % 2 ^ j⟩ := fun j v => mkBV_int _ _ _
    rw [e, e]
    exact okV rfl (m := .ok _) (M := .ok _) (inv_iff.2 ⟨r, ⟨mod_bounds _ _, rfl, rfl, hm⟩,
      ⟨mod_bounds _ _, rfl, rfl, hm⟩, opp_mod v⟩)
  | un op x =>
    have hi : op = .not := hi
    subst hi
    exact (readV_inv h x).bind fun a b hx => okV rfl (not_inv hx)
  | bin op x y =>
    cases y with
    | int c => exact (readV_inv h x).bind fun a b hx => okV rfl (bin_inv hi hx (operand_ints c))
    | reg y =>
      refine (readV_inv h x).bind fun a b hx => ?_
      rcases get_inv h y with ⟨h1, h2⟩ | ⟨u, v, h1, h2, hr⟩
      · rw [readArg_none (F := concrete) h1, readArg_none (F := concrete) h2]; trivial
      · cases hr with
        | bit hb => exact absurd (by simp [h1, regVec]) hi.2
        | @vec Y Y' hv =>
          rw [readArg_vec (F := concrete) h1, readArg_vec (F := concrete) h2]
          exact okV rfl (bin_inv hi.1 hx (operand_inv hv))
  | bit op a b =>
    exact (readB_inv h a).bind fun a b hx => (readB_inv h _).bind fun o p ho => okB rfl (bit_inv op hx ho)
  | bitNot a =>
    exact (readB_inv h a).bind fun a b hx => okB rfl (M := .ok (!b)) (m := .ok (!a)) (by unfold InvB at hx; subst hx; rfl)
  | mux c x y =>
    refine (readB_inv h c).bind fun c d hc => swap (readV_inv h x) (readV_inv h y) fun a b o p hx ho => ?_
    unfold InvB at hc
    subst hc
    obtain ⟨r, a1, a2, -⟩ := inv_iff.1 hx
    obtain ⟨r', b1, b2, -⟩ := inv_iff.1 ho
    refine check_inv (by simp [concrete, a1.2.1, a2.2.1, b1.2.1, b2.2.1, a1.2.2.1, a2.2.2.1, b1.2.2.1, b2.2.2.1, eq_comm])
      fun hs => okV rfl ?_
    have hr : r' = r := by simpa [concrete, a2.2.1, b2.2.1, a2.2.2.1, b2.2.2.1] using hs
    subst hr
    have e1 := Circuit.iteBV_eq c (X := a) (Y := o) a1.1 b1.1 (by rw [a1.2.1, b1.2.1]) (by rw [a1.2.2.1, b1.2.2.1])
    have e2 := Circuit.iteBV_eq (!c) (X := p) (Y := b) b2.1 a2.1 (by rw [a2.2.1, b2.2.1]) (by rw [a2.2.2.1, b2.2.2.1])
    show RelP _ _ ((iteBV c _ _ 0).map Prod.fst) ((iteBV (!c) _ _ 0).map Prod.fst)
    rw [e1, e2]
    cases c
    · exact ho
    · exact hx
  | _ => exact hi.elim

theorem run_inv (p : List Instr) : ∀ {s t : List (Reg BVal Bool)}, AllBitwise n (s.map regVec) p →
    List.Forall₂ (RegRel (Inv n) InvB) s t →
    RelP Any (List.Forall₂ (RegRel (Inv n) InvB)) (run concrete s p) (run concrete t (p.map dual)) := by
  induction p with
  | nil => intro s t _ h; exact h
  | cons i p ih =>
    intro s t hp h
    exact (step_inv hp.1 h).bind fun a b hab => ih (hab.2 ▸ hp.2) hab.1

end

theorem compose {A B : Type} {RV : A → BVal → Prop} {RB : B → Bool → Prop} {L : BVal → BVal → Prop} {K : Bool → Bool → Prop}
    {s s' : List (Reg A B)} {t t' : List (Reg BVal Bool)} (h : List.Forall₂ (RegRel RV RB) s t)
    (h' : List.Forall₂ (RegRel RV RB) s' t') (hl : List.Forall₂ (RegRel L K) t t') :
    List.Forall₂ (RegRel (Meant RV L) (Meant RB K)) s s' := by
  induction h generalizing s' t' with
  | nil => cases hl; cases h'; exact .nil
  | cons h _ ih =>
    cases hl with
    | cons hl hls =>
      cases h' with
      | cons h' hs' =>
        refine .cons ?_ (ih hs' hls)
        cases h with
        | vec h => cases hl with
          | vec hl => cases h' with
            | vec h' => exact .vec ⟨_, _, h, h', hl⟩
        | bit h => cases hl with
          | bit hl => cases h' with
            | bit h' => exact .bit ⟨_, _, h, h', hl⟩

/-- From simulation to the families. -/
theorem lift {L : BVal → BVal → Prop} {K : Bool → Bool → Prop} {p p' : List Instr} {t t' : List (Reg BVal Bool)}
    (h3 : RelP Any (List.Forall₂ (RegRel L K)) (run concrete t p) (run concrete t' p')) {F : Family} {E : PyErr → PyErr → Prop}
    {RV : F.V → BVal → Prop} {RB : F.B → Bool → Prop} (H : Sim F concrete E RV RB) {s s' : List (Reg F.V F.B)}
    (hs : List.Forall₂ (RegRel RV RB) s t) (hs' : List.Forall₂ (RegRel RV RB) s' t') :
    RelP Any (List.Forall₂ (RegRel (Meant RV L) (Meant RB K))) (run F s p) (run F s' p') := by
  have h1 := H.run_rel p hs
  have h2 := H.run_rel p' hs'
  cases e1 : run F s p with
  | error e =>
    obtain ⟨f, hf⟩ : ∃ f, run concrete t p = .error f := by
      cases e3 : run concrete t p with
      | error f => exact ⟨f, rfl⟩
      | ok w => rw [e1, e3] at h1; exact h1.elim
    obtain ⟨f', hf'⟩ : ∃ f, run concrete t' p' = .error f := by
      cases e3 : run concrete t' p' with
      | error f => exact ⟨f, rfl⟩
      | ok w => erw [hf, e3] at h3; exact h3.elim
    cases e2 : run F s' p' with
    | error e => trivial
    | ok w => erw [e2, hf'] at h2; exact h2.elim
  | ok u =>
    obtain ⟨w, w1, w2⟩ := RelP.ok_left h1 e1
    obtain ⟨w', w1', w2'⟩ := RelP.ok_left h3 w1
    obtain ⟨u', u1, u2⟩ := RelP.ok_right h2 w1'
    rw [u1]
    exact compose w2 u2 w2'

end Dual

open Dual

/-- In simulation: the code on some inputs and its dual on the inverted inputs both raise, or the values of the second are
the inverted values of the first. -/
theorem C170_simulation {n : Nat} (p : List Instr) {t t' : List (Reg BVal Bool)} (hp : AllBitwise n (t.map regVec) p)
    (h : List.Forall₂ (RegRel (Inv n) InvB) t t') :
    RelP (fun _ _ => True) (List.Forall₂ (RegRel (Inv n) InvB)) (run concrete t p) (run concrete t' (p.map dual)) :=
  run_inv p hp h

/-- The same in every family and under every assignment. -/
theorem C170_families {n : Nat} (p : List Instr) :
    InAll fun F RV RB => ∀ s s' t t', List.Forall₂ (RegRel RV RB) s t → List.Forall₂ (RegRel RV RB) s' t' →
      AllBitwise n (t.map regVec) p → List.Forall₂ (RegRel (Inv n) InvB) t t' →
      RelP (fun _ _ => True) (List.Forall₂ (RegRel (Meant RV (Inv n)) (Meant RB InvB))) (run F s p) (run F s' (p.map dual)) :=
  .of fun _ _ _ _ H _ _ _ _ hs hs' hp ht => Dual.lift (run_inv p hp ht) H hs hs'

/-- A bit as the operand of a method of a vector has to be left out: `x & b` and `~x | ~b` are not inverse to each other. -/
theorem C170_mixed_excluded : ¬ ∀ (X X' : BVal) (b : Bool), Inv 8 X X' →
    RelP (fun _ _ => True) (Inv 8) (X.bvand (.bit b)) (X'.bvor (.bit !b)) := by
  intro h
  have h := h ⟨.root .uint, 8, 0xFF⟩ ⟨.root .uint, 8, 0⟩ false ⟨⟨.uint, ⟨by decide, by decide⟩, rfl, rfl, by decide⟩, by decide⟩
  rw [show BVal.bvand ⟨.root .uint, 8, 0xFF⟩ (.bit false) = .ok ⟨.root .uint, 8, 0⟩ by decide,
    show BVal.bvor ⟨.root .uint, 8, 0⟩ (.bit !false) = .ok ⟨.root .uint, 8, 1⟩ by decide] at h
  exact absurd h.2 (by decide)

example : Lanes.demo.map dual = [.bin .or 0 (.reg 1), .bin .xnor 3 (.int (-0x3D)), .un .not 0, .mux 2 5 4] := rfl

example : AllBitwise 8 [true, true, false] Lanes.demo := by simp [Lanes.demo, AllBitwise, Bitwise, Lanes.bitwise]

example : List.Forall₂ (RegRel (Inv 8) InvB)
    [.vec ⟨.root .uint, 8, 0xB7⟩, .vec ⟨.root .uint, 8, 0x5A⟩, .bit true]
    [.vec ⟨.root .uint, 8, 0x48⟩, .vec ⟨.root .uint, 8, 0xA5⟩, .bit false] :=
  .cons (.vec ⟨⟨.uint, ⟨by decide, by decide⟩, rfl, rfl, by decide⟩, by decide⟩)
    (.cons (.vec ⟨⟨.uint, ⟨by decide, by decide⟩, rfl, rfl, by decide⟩, by decide⟩) (.cons (.bit rfl) .nil))

end HW
