import Verif.Lemmas.CircuitHeap
import Verif.Props.Circuit
import Mathlib.Tactic.IntervalCases

/-!
# Property C124: circuits with item assignment
-/

namespace HW
open Spec Circuit

namespace Circuit

/-- The object an operand stands for. -/
def argObj (t : List (Reg BVal Bool)) : Arg → Option Obj
  | .int v => some (.int v)
  | .reg i => match t[i]? with
    | some (.vec x) => some (.bv x)
    | some (.bit b) => some (.bit b)
    | none => none

/-- If `j` is a remainder, then not by an operand that counts as zero at the width of the left one. -/
def RemOk (t : List (Reg BVal Bool)) (j : Instr) : Prop :=
  ∀ x y a b, j = .bin .urem x y ∨ j = .opA .mod x y → t[x]? = some (.vec a) → argObj t y = some b → operand a.size b ≠ .ok 0

theorem argObj_vec {t : List (Reg BVal Bool)} {i : Nat} {x : BVal} (h : t[i]? = some (.vec x)) :
    argObj t (.reg i) = some (.bv x) := by simp only [argObj, h]

theorem argObj_bit {t : List (Reg BVal Bool)} {i : Nat} {b : Bool} (h : t[i]? = some (.bit b)) :
    argObj t (.reg i) = some (.bit b) := by simp only [argObj, h]

theorem readArg_obj (s : List (Reg concrete.V concrete.B)) (i : Nat) (o : Opnd concrete.V concrete.B)
    (h : readArg concrete s (.reg i) = .ok o) : argObj s (.reg i) = some (cObj o) := by
  match e : s[i]? with
  | none => simp [readArg, read, e, bind, Except.bind] at h
  | some (.vec x) =>
    simp only [readArg, read, e, bind, Except.bind, pure, Except.pure, Except.ok.injEq] at h
    subst h
    exact argObj_vec e
  | some (.bit b) =>
    simp only [readArg, read, e, bind, Except.bind, pure, Except.pure, Except.ok.injEq] at h
    subst h
    exact argObj_bit e

theorem zeroDivisor_false {t : List (Reg BVal Bool)} {x : Nat} {y : Arg}
    (h : ∀ a b, t[x]? = some (.vec a) → argObj t y = some b → operand a.size b ≠ .ok 0) : zeroDivisor t x y = false := by
  unfold zeroDivisor
  split
  · rename_i a o hx hy
    have hb : argObj t y = some (cObj o) := by
      cases y with
      | int v => cases hy; rfl
      | reg i =>
        exact readArg_obj t i o hy
    have hne := h a _ hx hb
    rcases coerce_eq a.kind a.size (cObj o) with ⟨d, h1, h2, _⟩ | ⟨e, h1, _⟩
    · rw [h2] at hne
      rw [h1]
      simp only [beq_eq_false_iff_ne]
      exact fun e => hne (by rw [e])
    · rw [h1]
  · rfl

theorem remSelf_none {t : List (Reg BVal Bool)} {j : Instr} (h : RemOk t j) : remSelf t j = none := by
  unfold remSelf
  split
  · rw [zeroDivisor_false fun a b => h _ _ a b (.inl rfl)]; rfl
  · rw [zeroDivisor_false fun a b => h _ _ a b (.inr rfl)]; rfl
  · rfl

/-- The simulation, run from `t`, never takes a remainder by zero (which would return the operand itself). -/
def Clean : List (HReg BVal Bool) → List HInstr → Prop
  | _, [] => True
  | t, i :: p => (∀ j, i = .op j → RemOk (deref t) j) ∧
      ∀ t', hstep concreteH remSelf t i = .ok t' → Clean t' p

/-- In simulation, output `o` is true for all inputs. -/
def HSimTrue (ps : List (List Char × Port)) (p : List HInstr) (o : Nat) : Prop :=
  ∀ t, List.Forall₂ InPort ps t → ∃ u, hrun concreteH remSelf (tag 0 t) p = .ok u ∧ u[o]? = some (.bit true)

/-- The same if `bvurem` never returned its operand. -/
def HCopyTrue (ps : List (List Char × Port)) (p : List HInstr) (o : Nat) : Prop :=
  ∀ t, List.Forall₂ InPort ps t → ∃ u, hrun concreteH (fresh concreteH) (tag 0 t) p = .ok u ∧ u[o]? = some (.bit true)

/-- The solver proves output `o` of the circuit over free variables. -/
def HSmtProves (S : Smt.Simplifier) (ps : List (List Char × Port)) (p : List HInstr) (o : Nat) : Prop :=
  ∃ u b, hrun (smtH S) (fresh _) (tag 0 (ps.map smtIn)) p = .ok u ∧ u[o]? = some (.bit b) ∧ ∀ e, b.eval e = some (.bool true)

def HZ3Proves (ps : List (List Char × Port)) (p : List HInstr) (o : Nat) : Prop :=
  ∃ u b, hrun z3H (fresh _) (tag 0 (ps.map z3In)) p = .ok u ∧ u[o]? = some (.bit b) ∧ ∀ e, b e = true

theorem hgetElem?_rel {V B : Type} {RV : V → BVal → Prop} {RB : B → Bool → Prop} {u : List (HReg V B)}
    {w : List (HReg BVal Bool)} (h : List.Forall₂ (RegRel (ObjRel RV) RB) u w) (o : Nat) :
    (∀ b, u[o]? = some (.bit b) → ∃ c, w[o]? = some (.bit c) ∧ RB b c) ∧
    (∀ c, w[o]? = some (.bit c) → ∃ b, u[o]? = some (.bit b) ∧ RB b c) := by
  induction h generalizing o with
  | nil => simp
  | cons hx _ ih =>
    cases o with
    | zero =>
      cases hx with
      | vec h => simp
      | bit h =>
        simp only [List.getElem?_cons_zero, Option.some.injEq, Reg.bit.injEq]
        exact ⟨fun b hb => ⟨_, rfl, hb ▸ h⟩, fun b hb => ⟨_, rfl, hb ▸ h⟩⟩
    | succ o => simpa using ih o

theorem hstep_copy {t : List (HReg BVal Bool)} {i : HInstr} (h : ∀ j, i = .op j → RemOk (deref t) j) :
    hstep concreteH remSelf t i = hstep concreteH (fresh concreteH) t i := by
  replace h : ∀ j, i = .op j → remSelf (deref t) j = none := fun j hj => remSelf_none (h j hj)
  cases i with
  | op j =>
    simp only [hstep, h j rfl]
    rfl
  | name x => simp only [hstep]
  | set x i v => simp only [hstep]

theorem hrun_copy (p : List HInstr) : ∀ t, Clean t p → hrun concreteH remSelf t p = hrun concreteH (fresh concreteH) t p := by
  induction p with
  | nil => intro t _; rfl
  | cons i p ih =>
    intro t h
    simp only [hrun]
    rw [hstep_copy h.1]
    cases hs : hstep concreteH (fresh concreteH) t i with
    | error => rfl
    | ok t' => exact ih t' (h.2 t' ((hstep_copy h.1).trans hs))

theorem smt_copy (S : Smt.Simplifier) {ps : List (List Char × Port)} (hp : PortsOk ps) (p : List HInstr)
    (o : Nat) : HSmtProves S ps p o ↔ HCopyTrue ps p o := by
  have key : ∀ (e : Smt.Env) t, List.Forall₂ (Reads e.bool e.bv) ps t → _ := fun e t h =>
    (smt_hsim e S).hrun_rel p (tag_rel (reads_smt e.int h hp.2) 0)
  constructor
  · rintro ⟨u, b, hu, hb, hv⟩ t ht
    obtain ⟨f, g, h⟩ := exists_values ht hp.1
    obtain ⟨w, hw, hk⟩ := RelP.ok_left (key ⟨f, fun _ => 0, g⟩ t h) hu
    obtain ⟨c, h1, h2⟩ := (hgetElem?_rel hk o).1 b hb
    have h2 := (hv _).symm.trans h2
    injection h2 with h2
    injection h2 with h2
    exact ⟨w, hw, h2 ▸ h1⟩
  · intro hs
    have at_ : ∀ e : Smt.Env, ∃ u b, hrun (smtH S) (fresh _) (tag 0 (ps.map smtIn)) p = .ok u ∧ u[o]? = some (.bit b) ∧
        b.eval e = some (.bool true) := by
      intro e
      have hr := readBack_reads e.bool e.bv ps
      obtain ⟨w, hw, ho⟩ := hs _ (reads_in hr)
      obtain ⟨u, hu, hk⟩ := RelP.ok_right (key e _ hr) hw
      obtain ⟨b, h1, h2⟩ := (hgetElem?_rel hk o).2 _ ho
      exact ⟨u, b, hu, h1, h2⟩
    obtain ⟨u, b, hu, hb, -⟩ := at_ ⟨fun _ => false, fun _ => 0, fun _ _ => 0⟩
    refine ⟨u, b, hu, hb, fun e => ?_⟩
    obtain ⟨u', b', hu', hb', h⟩ := at_ e
    cases hu.symm.trans hu'
    cases hb.symm.trans hb'
    exact h

theorem z3_copy {ps : List (List Char × Port)} (hp : PortsOk ps) (p : List HInstr)
    (o : Nat) : HZ3Proves ps p o ↔ HCopyTrue ps p o := by
  have key : ∀ (e : Z3.Env) t, List.Forall₂ (Reads e.bool e.bv) ps t → _ := fun e t h =>
    (z3_hsim e).hrun_rel p (tag_rel (reads_z3 h hp.2) 0)
  constructor
  · rintro ⟨u, b, hu, hb, hv⟩ t ht
    obtain ⟨f, g, h⟩ := exists_values ht hp.1
    obtain ⟨w, hw, hk⟩ := RelP.ok_left (key ⟨f, g⟩ t h) hu
    obtain ⟨c, h1, h2⟩ := (hgetElem?_rel hk o).1 b hb
    have h2 := (hv _).symm.trans h2
    exact ⟨w, hw, h2 ▸ h1⟩
  · intro hs
    have at_ : ∀ e : Z3.Env, ∃ u b, hrun z3H (fresh _) (tag 0 (ps.map z3In)) p = .ok u ∧ u[o]? = some (.bit b) ∧ b e = true := by
      intro e
      have hr := readBack_reads e.bool e.bv ps
      obtain ⟨w, hw, ho⟩ := hs _ (reads_in hr)
      obtain ⟨u, hu, hk⟩ := RelP.ok_right (key e _ hr) hw
      obtain ⟨b, h1, h2⟩ := (hgetElem?_rel hk o).2 _ ho
      exact ⟨u, b, hu, h1, h2⟩
    obtain ⟨u, b, hu, hb, -⟩ := at_ ⟨fun _ => false, fun _ _ => 0⟩
    refine ⟨u, b, hu, hb, fun e => ?_⟩
    obtain ⟨u', b', hu', hb', h⟩ := at_ e
    cases hu.symm.trans hu'
    cases hb.symm.trans hb'
    exact h

theorem copy_true {ps : List (List Char × Port)} (p : List HInstr) (o : Nat)
    (hc : ∀ t, List.Forall₂ InPort ps t → Clean (tag 0 t) p) : HCopyTrue ps p o ↔ HSimTrue ps p o := by
  refine forall_congr' fun t => forall_congr' fun ht => ?_
  constructor
  · rintro ⟨u, hu, ho⟩; exact ⟨u, (hrun_copy p _ (hc t ht)).trans hu, ho⟩
  · rintro ⟨u, hu, ho⟩; exact ⟨u, (hrun_copy p _ (hc t ht)).symm.trans hu, ho⟩

end Circuit

/-- A circuit with assignments, run with `SMTBitVector`: under every assignment of the variables all names hold
the values of the simulation, as long as the simulation takes no remainder by zero. -/
theorem C124_smt_partial (S : Smt.Simplifier) (e : Smt.Env) (p : List HInstr) {s : List (HReg Smt.SBV Smt.Term)}
    {t : List (HReg BVal Bool)} (h : List.Forall₂ (RegRel (ObjRel (SVec e)) (Smt.DenBit e)) s t) (hc : Clean t p) :
    RelP (· = ·) (List.Forall₂ (RegRel (ObjRel (SVec e)) (Smt.DenBit e))) (hrun (smtH S) (fresh _) s p) (hrun concreteH remSelf t p) := by
  rw [hrun_copy p t hc]
  exact (smt_hsim e S).hrun_rel p h

/-- The same with `z3BitVector`. -/
theorem C124_z3_partial (e : Z3.Env) (p : List HInstr) {s : List (HReg Z3.ZBV Z3.BoolE)}
    {t : List (HReg BVal Bool)} (h : List.Forall₂ (RegRel (ObjRel (Z3.Den e)) (Z3.DenBit e)) s t) (hc : Clean t p) :
    RelP ZErr (List.Forall₂ (RegRel (ObjRel (Z3.Den e)) (Z3.DenBit e))) (hrun z3H (fresh _) s p) (hrun concreteH remSelf t p) := by
  rw [hrun_copy p t hc]
  exact (z3_hsim e).hrun_rel p h

/-- The solver proves an output exactly when the simulation gives true for all inputs. -/
theorem C124_smt_verdict_partial (S : Smt.Simplifier) {ps : List (List Char × Port)} (hp : PortsOk ps) (p : List HInstr)
    (o : Nat) (hc : ∀ t, List.Forall₂ InPort ps t → Clean (tag 0 t) p) : HSmtProves S ps p o ↔ HSimTrue ps p o :=
  (smt_copy S hp p o).trans (copy_true p o hc)

theorem C124_z3_verdict_partial {ps : List (List Char × Port)} (hp : PortsOk ps) (p : List HInstr)
    (o : Nat) (hc : ∀ t, List.Forall₂ InPort ps t → Clean (tag 0 t) p) : HZ3Proves ps p o ↔ HSimTrue ps p o :=
  (z3_copy hp p o).trans (copy_true p o hc)

/-- The two solvers give one verdict, with remainders by zero as well. -/
theorem C124_same_verdict (S : Smt.Simplifier) {ps : List (List Char × Port)} (hp : PortsOk ps) (p : List HInstr)
    (o : Nat) : HSmtProves S ps p o ↔ HZ3Proves ps p o :=
  (smt_copy S hp p o).trans (z3_copy hp p o).symm

/-- Programs without `bvurem` and `%` take no remainder by zero. -/
theorem C124_clean (p : List HInstr)
    (hp : ∀ i ∈ p, ∀ x y, i ≠ .op (.bin .urem x y) ∧ i ≠ .op (.opA .mod x y)) : ∀ t, Clean t p := by
  induction p with
  | nil => intro t; trivial
  | cons i p ih =>
    intro t
    refine ⟨?_, fun t' _ => ih (fun j hj => hp j (List.mem_cons_of_mem _ hj)) t'⟩
    rintro j rfl x y a b (rfl | rfl)
    · exact absurd rfl (hp _ List.mem_cons_self x y).1
    · exact absurd rfl (hp _ List.mem_cons_self x y).2

/-- With a remainder by zero the solvers prove what the simulation refutes:
`y = x.bvurem(0); y[0] = 1` changes `x` itself in the simulation only. -/
def Circuit.remainder : List HInstr :=
  [.op (.bin .or 0 (.int 0)), .op (.bin .urem 0 (.int 0)), .set 2 0 (.int 1), .op (.cmp .eq 0 (.reg 1))]

theorem C124_refuted (S : Smt.Simplifier) :
    HSmtProves S [(['x'], .vec .uint 4)] remainder 3 ∧ HZ3Proves [(['x'], .vec .uint 4)] remainder 3 ∧
    ¬ HSimTrue [(['x'], .vec .uint 4)] remainder 3 := by
  have hp : PortsOk [(['x'], .vec .uint 4)] := ⟨by decide, by intro q r n h; simp at h; omega⟩
  have hc : HCopyTrue [(['x'], .vec .uint 4)] remainder 3 := by
    intro t ht
    cases ht with
    | cons hx h =>
      cases h
      cases hx with
      | @vec _ _ _ v h0 h1 =>
        have h1 : v < 16 := h1
        interval_cases v <;> exact ⟨_, rfl, rfl⟩
  refine ⟨(smt_copy S hp _ _).2 hc, (z3_copy hp _ _).2 hc, fun h => ?_⟩
  obtain ⟨u, h1, h2⟩ := h [.vec ⟨.root .uint, 4, 4⟩] (.cons (.vec (by decide) (by decide)) .nil)
  have : hrun concreteH remSelf (tag 0 [.vec ⟨.root .uint, 4, 4⟩]) remainder =
      .ok [.vec (0, ⟨.root .uint, 4, 5⟩), .vec (1, ⟨.root .uint, 4, 4⟩), .vec (0, ⟨.root .uint, 4, 5⟩), .bit false] := rfl
  cases this.symm.trans h1
  cases h2

/-! ### Which names share an object -/

namespace Circuit

theorem tag_own {V B : Type} : ∀ (l : List (Reg V B)) (n j a : Nat) (v : V),
    (tag n l)[j]? = some (.vec (a, v)) → a = n + j
  | [], _, _, _, _, h => by simp [tag] at h
  | .vec x :: l, n, j, a, v, h => by
    cases j with
    | zero => simp only [tag, List.getElem?_cons_zero, Option.some.injEq, Reg.vec.injEq, Prod.mk.injEq] at h; omega
    | succ j =>
      simp only [tag, List.getElem?_cons_succ] at h
      have := tag_own l (n + 1) j a v h; omega
  | .bit x :: l, n, j, a, v, h => by
    cases j with
    | zero => simp [tag] at h
    | succ j =>
      simp only [tag, List.getElem?_cons_succ] at h
      have := tag_own l (n + 1) j a v h; omega

/-- Every name has an object of its own. -/
def Own {V B : Type} (s : List (HReg V B)) : Prop :=
  ∀ (x a : Nat) (v : V), s[x]? = some (Reg.vec (a, v)) → a = x

theorem assign_get {V B : Type} (s : List (HReg V B)) (a x : Nat) (y : V) :
    (s.map (HReg.assign a y))[x]? = (s[x]?).map (HReg.assign a y) := List.getElem?_map ..

theorem own_step {F : HFamily} {s t : List (HReg F.V F.B)} {i : HInstr} (hs : Own s) (hi : ∀ x, i ≠ .name x)
    (h : hstep F (fresh F) s i = .ok t) : Own t := by
  cases i with
  | name x => exact absurd rfl (hi x)
  | op i =>
    obtain ⟨u, _, h⟩ := bind_ok h
    simp only [fresh, pure, Except.pure, Except.ok.injEq] at h
    subst h
    intro x a v hx
    by_cases hl : x < s.length
    · rw [List.getElem?_append_left hl] at hx
      exact hs x a v hx
    · rw [List.getElem?_append_right (by omega)] at hx
      have := tag_own _ _ _ _ _ hx; omega
  | set x k o =>
    obtain ⟨w, _, h⟩ := bind_ok h
    split at h
    · rename_i b z hb
      obtain ⟨y, _, h⟩ := bind_ok h
      simp only [pure, Except.pure, Except.ok.injEq] at h
      subst h
      intro x' a v hx
      rw [assign_get] at hx
      cases hz : s[x']? with
      | none => rw [hz] at hx; cases hx
      | some r =>
        rw [hz] at hx
        cases r with
        | bit c => cases hx
        | vec q =>
          obtain ⟨c, q⟩ := q
          have hc := hs x' c q hz
          simp only [Option.map_some, HReg.assign] at hx
          split at hx
          · cases hx; subst hc; rename_i e; exact e.symm
          · cases hx; exact hc
    · cases h
    · cases h

theorem own_run {F : HFamily} (p : List HInstr) (hp : ∀ i ∈ p, ∀ x, i ≠ .name x) :
    ∀ {s t : List (HReg F.V F.B)}, Own s → hrun F (fresh F) s p = .ok t → Own t := by
  induction p with
  | nil => intro s t hs h; cases h; exact hs
  | cons i p ih =>
    intro s t hs h
    obtain ⟨u, hu, h⟩ := bind_ok h
    exact ih (fun j hj => hp j (by simp [hj])) (own_step hs (hp i (by simp)) hu) h

end Circuit

/-- **C124** (separate objects).  In a program that gives no object a second name, an assignment to `x` changes
nothing but `x`: inputs and results of methods are different objects, in all families (for `BitVector` when no
remainder by zero is taken, `hrun_copy`). -/
theorem C124_separate {F : HFamily} {p : List HInstr} (hp : ∀ i ∈ p, ∀ x, i ≠ .name x) {t : List (Circuit.Reg F.V F.B)}
    {u u' : List (HReg F.V F.B)} (h : hrun F (fresh F) (tag 0 t) p = .ok u) {x : Nat} {i : Int} {v : Arg}
    (hs : hstep F (fresh F) u (.set x i v) = .ok u') {y : Nat} (hy : y ≠ x) : (deref u')[y]? = (deref u)[y]? := by
  have ho : Own u := own_run p hp (fun x a v hx => by have := tag_own t 0 x a v hx; omega) h
  obtain ⟨w, _, hs⟩ := bind_ok hs
  split at hs
  · rename_i b z hb
    obtain ⟨y', _, hs⟩ := bind_ok hs
    simp only [pure, Except.pure, Except.ok.injEq] at hs
    subst hs
    have hb' := ho _ _ _ hb
    simp only [deref, List.getElem?_map]
    cases hz : u[y]? with
    | none => rfl
    | some r =>
      cases r with
      | bit c => rfl
      | vec q =>
        obtain ⟨c, q⟩ := q
        have hc := ho _ _ _ hz
        simp only [Option.map_some, HReg.assign]
        rw [if_neg (by omega)]
  · cases hs
  · cases hs

/-- **C124** (shared objects).  After `y = x` the two names keep the same value, whatever is assigned to either. -/
theorem C124_shared {F : HFamily} {al : Alias F} {s s' u : List (HReg F.V F.B)} {x : Nat} {p : List HInstr}
    (hn : hstep F al s (.name x) = .ok s') (h : hrun F al s' p = .ok u) :
    (deref u)[s.length]? = (deref u)[x]? ∧ (deref u)[x]? ≠ none := by
  have hs : s'[s.length]? = s'[x]? ∧ x < s'.length := by
    simp only [hstep] at hn
    split at hn
    · rename_i r hr
      cases hn
      have hx := (List.getElem?_eq_some_iff.1 hr).1
      rw [List.getElem?_append_left hx, hr]
      simp; omega
    · cases hn
  have key : u[s.length]? = u[x]? ∧ x < u.length := by
    generalize s.length = n at hs
    clear hn
    induction p generalizing s' with
    | nil => cases h; exact hs
    | cons i p ih =>
      obtain ⟨w, hw, h⟩ := bind_ok h
      refine ih h ?_
      obtain ⟨e, hx⟩ := hs
      have hnl : n < s'.length := by
        by_contra hc
        rw [List.getElem?_eq_none (by omega), List.getElem?_eq_getElem hx] at e
        cases e
      have app : ∀ l, (s' ++ l)[n]? = (s' ++ l)[x]? ∧ x < (s' ++ l).length := fun l => by
        rw [List.getElem?_append_left hx, List.getElem?_append_left hnl]
        exact ⟨e, by simp; omega⟩
      cases i with
      | op i =>
        obtain ⟨t, _, hw⟩ := bind_ok hw
        split at hw
        · split at hw
          · cases hw; exact app _
          · cases hw
        · cases hw; exact app _
      | name z =>
        simp only [hstep] at hw
        split at hw
        · cases hw; exact app _
        · cases hw
      | set z k o =>
        obtain ⟨t, _, hw⟩ := bind_ok hw
        split at hw
        · obtain ⟨y, _, hw⟩ := bind_ok hw
          cases hw
          rw [assign_get, assign_get, e]
          exact ⟨rfl, by simpa using hx⟩
        · cases hw
        · cases hw
  simp only [deref, List.getElem?_map, key.1, ne_eq, Option.map_eq_none_iff, true_and]
  rw [List.getElem?_eq_getElem key.2]
  simp

/-! `y = x; y[0] = 1` sets the bit of `x` as well, everywhere; a copy made before keeps its bits.
The program: `c = x.bvor(0); y = x; y[0] = 1; out = (x & 1) == 1`. -/

def Circuit.aliasing : List HInstr :=
  [.op (.bin .or 0 (.int 0)), .name 0, .set 2 0 (.int 1), .op (.opA .and 0 (.int 1)), .op (.opC .eq 3 (.int 1)),
   .op (.cmp .eq 0 (.reg 1))]

example : hrun concreteH remSelf (tag 0 [.vec ⟨.root .uint, 4, 6⟩]) aliasing = .ok
    [.vec (0, ⟨.root .uint, 4, 7⟩), .vec (1, ⟨.root .uint, 4, 6⟩), .vec (0, ⟨.root .uint, 4, 7⟩),
     .vec (3, ⟨.root .uint, 4, 1⟩), .bit true, .bit false] := rfl
/-- `y[0] = 1` for the second of two inputs leaves the first alone. -/
example : ∃ u', hstep concreteH (fresh _) (tag 0 [.vec ⟨.root .uint, 4, 6⟩, .bit true, .vec ⟨.root .uint, 4, 6⟩])
    (.set 2 0 (.int 1)) = .ok u' ∧ (deref u')[0]? = some (.vec ⟨.root .uint, 4, 6⟩) ∧
    (deref u')[2]? = some (.vec ⟨.root .uint, 4, 7⟩) := ⟨_, rfl, rfl, rfl⟩
example : ∀ t, Clean t aliasing := C124_clean _ (by simp [aliasing])

example (v : Int) : Clean [.vec (0, ⟨.root .uint, 4, v⟩)] [.op (.bin .urem 0 (.int 3)), .set 1 0 (.int 1)] := by
  refine ⟨?_, fun t' _ => ⟨nofun, fun _ _ => trivial⟩⟩
  rintro j hj x y a b (rfl | rfl) hx hy <;> cases hj
  cases hx
  cases hy
  show operand 4 (.int 3) ≠ .ok 0
  decide
/-- The second output is not always true, and the solvers do not prove it. -/
example (S : Smt.Simplifier) : ¬ HSmtProves S [(['x'], .vec .uint 4)] aliasing 5 := by
  intro h
  have h := (C124_smt_verdict_partial S ⟨by decide, by intro q r n h; simp at h; omega⟩ aliasing 5
    (fun t _ => C124_clean _ (by simp [aliasing]) _)).1 h
  obtain ⟨u, h1, h2⟩ := h [.vec ⟨.root .uint, 4, 6⟩] (.cons (.vec (by decide) (by decide)) .nil)
  have : hrun concreteH remSelf (tag 0 [.vec ⟨.root .uint, 4, 6⟩]) aliasing = .ok
    [.vec (0, ⟨.root .uint, 4, 7⟩), .vec (1, ⟨.root .uint, 4, 6⟩), .vec (0, ⟨.root .uint, 4, 7⟩),
     .vec (3, ⟨.root .uint, 4, 1⟩), .bit true, .bit false] := rfl
  cases this.symm.trans h1
  cases h2

end HW
