import Verif.Lemmas.IfConv
import Verif.Props.Z3Ite

/-! # Property C151: `if` replaced by `ite` -/

namespace HW
open Spec Circuit IfConv

namespace Circuit.IfConv

/-- With `if`, in simulation: no `assert` fails and no exception is raised, whatever the inputs. -/
def SimSafe (ps : List (List Char × Port)) (p : Code) : Prop := ∀ t, List.Forall₂ InPort ps t → ∃ u, simulate t p = .ok u

/-- With `if`, in simulation: value `o` is true, whatever the inputs. -/
def SimOut (ps : List (List Char × Port)) (p : Code) (o : Nat) : Prop :=
  ∀ t, List.Forall₂ InPort ps t → ∃ u, simulate t p = .ok u ∧ u[o]? = some (.bit true)

/-- The rewritten function can be run with pysmt over free variables. -/
def SmtReturns (S : Smt.Simplifier) (ps : List (List Char × Port)) (p : Code) : Prop :=
  ∃ r, both (smt S) none (ps.map smtIn) p = .ok r
def Z3Returns (ps : List (List Char × Port)) (p : Code) : Prop := ∃ r, both z3 none (ps.map z3In) p = .ok r

/-- The solver proves all obligations of the rewritten function. -/
def SmtSafe (S : Smt.Simplifier) (ps : List (List Char × Port)) (p : Code) : Prop :=
  ∃ r, both (smt S) none (ps.map smtIn) p = .ok r ∧ ∀ b ∈ r.2, ∀ e, b.eval e = some (.bool true)
def Z3Safe (ps : List (List Char × Port)) (p : Code) : Prop :=
  ∃ r, both z3 none (ps.map z3In) p = .ok r ∧ ∀ b ∈ r.2, ∀ e, b e = true

/-- ... and value `o`. -/
def SmtOut (S : Smt.Simplifier) (ps : List (List Char × Port)) (p : Code) (o : Nat) : Prop :=
  ∃ r b, both (smt S) none (ps.map smtIn) p = .ok r ∧ r.1[o]? = some (.bit b) ∧
    ∀ e, b.eval e = some (.bool true) ∧ ∀ c ∈ r.2, c.eval e = some (.bool true)
def Z3Out (ps : List (List Char × Port)) (p : Code) (o : Nat) : Prop :=
  ∃ r b, both z3 none (ps.map z3In) p = .ok r ∧ r.1[o]? = some (.bit b) ∧ ∀ e, b e = true ∧ ∀ c ∈ r.2, c e = true

theorem good_in {ps : List (List Char × Port)} (hp : PortsOk ps) {t : List (Reg BVal Bool)} (h : List.Forall₂ InPort ps t) :
    ∀ r ∈ t, InRange r := by
  obtain ⟨f, g, h⟩ := exists_values h hp.1
  exact goods_of_rel (reads_z3 h hp.2)

theorem rel_all {B : Type} {R : B → Bool → Prop} {T : B → Prop} (hT : ∀ b v, R b v → (T b ↔ v = true)) {l : List B}
    {m : List Bool} (h : List.Forall₂ R l m) : (∀ b ∈ m, b = true) ↔ ∀ b ∈ l, T b := by
  induction h with
  | nil => simp
  | cons hb _ ih => simp only [List.forall_mem_cons, ih, hT _ _ hb]

theorem smt_true {e : Smt.Env} (b : Smt.Term) (v : Bool) (h : Smt.DenBit e b v) : b.eval e = some (.bool true) ↔ v = true := by
  have h : b.eval e = some (.bool v) := h
  rw [h]; simp

theorem z3_true {e : Z3.Env} (b : Z3.BoolE) (v : Bool) (h : Z3.DenBit e b v) : b e = true ↔ v = true := by
  have h : b e = v := h
  rw [h]

end Circuit.IfConv

/-- **C151** (simulation).  If the rewritten function returns on some inputs then the function with `if` does what it
says: when all obligations are true it returns the same values, when one is false it raises AssertionError. -/
theorem C151_simulation {ps : List (List Char × Port)} (hp : PortsOk ps) {t : List (Reg BVal Bool)}
    (ht : List.Forall₂ InPort ps t) {p : Code} {u : List (Reg BVal Bool)} {obs : List Bool}
    (h : both concrete none t p = .ok (u, obs)) :
    simulate t p = if ∀ b ∈ obs, b = true then .ok u else .error .assertionError := by
  rw [(exec_both p (good_in hp ht) h).1 rfl]
  simp only [List.all_eq_true, id]

/-- **C151** (pysmt).  Under every assignment, the rewritten function run with pysmt describes the run with `if` on the
inputs read off the assignment: the same values, unless an obligation is false under it; then AssertionError. -/
theorem C151_smt (S : Smt.Simplifier) {ps : List (List Char × Port)} (hp : PortsOk ps) {p : Code}
    {u : List (Reg Smt.SBV Smt.Term)} {obs : List Smt.Term} (h : both (smt S) none (ps.map smtIn) p = .ok (u, obs))
    (e : Smt.Env) :
    ((∀ b ∈ obs, b.eval e = some (.bool true)) → ∃ w, simulate (ps.map (readBack e.bool e.bv)) p = .ok w ∧
      List.Forall₂ (RegRel (SVec e) (Smt.DenBit e)) u w) ∧
    ((∃ b ∈ obs, b.eval e ≠ some (.bool true)) → simulate (ps.map (readBack e.bool e.bv)) p = .error .assertionError) := by
  have hr := readBack_reads e.bool e.bv ps
  obtain ⟨⟨w, ws⟩, hw, h1, h2⟩ := RelP.ok_left ((smt_sim e S).both_rel p .none (reads_smt e.int hr hp.2)) h
  have hs := C151_simulation hp (reads_in hr) hw
  have ha := rel_all (T := fun b : Smt.Term => b.eval e = some (.bool true)) smt_true h2
  constructor
  · intro hb
    rw [if_pos (ha.2 hb)] at hs
    exact ⟨w, hs, h1⟩
  · rintro ⟨b, hb, hn⟩
    rwa [if_neg (fun hc => hn (ha.1 hc b hb))] at hs

/-- The same with z3. -/
theorem C151_z3 {ps : List (List Char × Port)} (hp : PortsOk ps) {p : Code}
    {u : List (Reg Z3.ZBV Z3.BoolE)} {obs : List Z3.BoolE} (h : both z3 none (ps.map z3In) p = .ok (u, obs))
    (e : Z3.Env) :
    ((∀ b ∈ obs, b e = true) → ∃ w, simulate (ps.map (readBack e.bool e.bv)) p = .ok w ∧
      List.Forall₂ (RegRel (Z3.Den e) (Z3.DenBit e)) u w) ∧
    ((∃ b ∈ obs, b e = false) → simulate (ps.map (readBack e.bool e.bv)) p = .error .assertionError) := by
  have hr := readBack_reads e.bool e.bv ps
  obtain ⟨⟨w, ws⟩, hw, h1, h2⟩ := RelP.ok_left ((z3_sim e).both_rel p .none (reads_z3 hr hp.2)) h
  have hs := C151_simulation hp (reads_in hr) hw
  have ha := rel_all (T := fun b : Z3.BoolE => b e = true) z3_true h2
  constructor
  · intro hb
    rw [if_pos (ha.2 hb)] at hs
    exact ⟨w, hs, h1⟩
  · rintro ⟨b, hb, hn⟩
    rwa [if_neg (fun hc => by simp [ha.1 hc b hb] at hn)] at hs

/-- **C151** (when it returns).  Whether the rewritten function returns does not depend on the inputs, nor on the family. -/
theorem C151_returns (S : Smt.Simplifier) {ps : List (List Char × Port)} (hp : PortsOk ps) (p : Code)
    {t : List (Reg BVal Bool)} (ht : List.Forall₂ InPort ps t) :
    (SmtReturns S ps p ↔ ∃ r, both concrete none t p = .ok r) ∧ (Z3Returns ps p ↔ ∃ r, both concrete none t p = .ok r) := by
  obtain ⟨f, g, h⟩ := exists_values ht hp.1
  have h1 := (smt_sim ⟨f, fun _ => 0, g⟩ S).both_rel p .none (reads_smt (fun _ => 0) h hp.2)
  have h2 := (z3_sim ⟨f, g⟩).both_rel p .none (reads_z3 h hp.2)
  refine ⟨⟨?_, ?_⟩, ⟨?_, ?_⟩⟩
  · rintro ⟨u, hu⟩
    obtain ⟨w, hw, -⟩ := RelP.ok_left h1 hu
    exact ⟨w, hw⟩
  · rintro ⟨w, hw⟩
    obtain ⟨u, hu, -⟩ := RelP.ok_right h1 hw
    exact ⟨u, hu⟩
  · rintro ⟨u, hu⟩
    obtain ⟨w, hw, -⟩ := RelP.ok_left h2 hu
    exact ⟨w, hw⟩
  · rintro ⟨w, hw⟩
    obtain ⟨u, hu, -⟩ := RelP.ok_right h2 hw
    exact ⟨u, hu⟩

/-- **C151** (verdicts, assertions).  Missing: functions of which the rewritten form raises (`C151_refuted`). -/
theorem C151_smt_verdict_partial (S : Smt.Simplifier) {ps : List (List Char × Port)} (hp : PortsOk ps) {p : Code}
    (hr : SmtReturns S ps p) : SmtSafe S ps p ↔ SimSafe ps p := by
  obtain ⟨⟨u, obs⟩, h⟩ := hr
  constructor
  · rintro ⟨r, h', hv⟩ t ht
    cases h.symm.trans h'
    obtain ⟨f, g, hf⟩ := exists_values ht hp.1
    obtain ⟨⟨w, ws⟩, hw, h1, h2⟩ := RelP.ok_left ((smt_sim ⟨f, fun _ => 0, g⟩ S).both_rel p .none (reads_smt _ hf hp.2)) h
    have ha := rel_all (T := fun b : Smt.Term => b.eval ⟨f, fun _ => 0, g⟩ = some (.bool true)) smt_true h2
    exact ⟨w, by rw [C151_simulation hp ht hw, if_pos (ha.2 fun b hb => hv b hb _)]⟩
  · intro hs
    refine ⟨_, h, fun b hb e => by_contra fun hn => ?_⟩
    obtain ⟨w, hw⟩ := hs _ (reads_in (readBack_reads e.bool e.bv ps))
    cases hw.symm.trans ((C151_smt S hp h e).2 ⟨b, hb, hn⟩)

theorem C151_z3_verdict_partial {ps : List (List Char × Port)} (hp : PortsOk ps) {p : Code}
    (hr : Z3Returns ps p) : Z3Safe ps p ↔ SimSafe ps p := by
  obtain ⟨⟨u, obs⟩, h⟩ := hr
  constructor
  · rintro ⟨r, h', hv⟩ t ht
    cases h.symm.trans h'
    obtain ⟨f, g, hf⟩ := exists_values ht hp.1
    obtain ⟨⟨w, ws⟩, hw, h1, h2⟩ := RelP.ok_left ((z3_sim ⟨f, g⟩).both_rel p .none (reads_z3 hf hp.2)) h
    have ha := rel_all (T := fun b : Z3.BoolE => b ⟨f, g⟩ = true) z3_true h2
    exact ⟨w, by rw [C151_simulation hp ht hw, if_pos (ha.2 fun b hb => hv b hb _)]⟩
  · intro hs
    refine ⟨_, h, fun b hb e => by_contra fun hn => ?_⟩
    obtain ⟨w, hw⟩ := hs _ (reads_in (readBack_reads e.bool e.bv ps))
    cases hw.symm.trans ((C151_z3 hp h e).2 ⟨b, hb, by simpa using hn⟩)

/-- **C151** (verdicts, outputs).  Missing: as above. -/
theorem C151_smt_output_partial (S : Smt.Simplifier) {ps : List (List Char × Port)} (hp : PortsOk ps) {p : Code}
    (hr : SmtReturns S ps p) (o : Nat) : SmtOut S ps p o ↔ SimOut ps p o := by
  constructor
  · rintro ⟨⟨u, obs⟩, b, h, hb, hv⟩ t ht
    obtain ⟨f, g, hf⟩ := exists_values ht hp.1
    obtain ⟨⟨w, ws⟩, hw, h1, h2⟩ := RelP.ok_left ((smt_sim ⟨f, fun _ => 0, g⟩ S).both_rel p .none (reads_smt _ hf hp.2)) h
    have ha := rel_all (T := fun b : Smt.Term => b.eval ⟨f, fun _ => 0, g⟩ = some (.bool true)) smt_true h2
    obtain ⟨c, c1, c2⟩ := (getElem?_rel h1 o).1 b hb
    have c3 := (smt_true b c c2).1 (hv _).1
    exact ⟨w, by rw [C151_simulation hp ht hw, if_pos (ha.2 (hv _).2)], c3 ▸ c1⟩
  · intro hs
    obtain ⟨⟨u, obs⟩, h⟩ := hr
    have at_ : ∀ e, ∃ b, u[o]? = some (.bit b) ∧ b.eval e = some (.bool true) ∧ ∀ c ∈ obs, c.eval e = some (.bool true) := by
      intro e
      obtain ⟨w, hw, ho⟩ := hs _ (reads_in (readBack_reads e.bool e.bv ps))
      have hall : ∀ c ∈ obs, c.eval e = some (.bool true) := fun c hc => by_contra fun hn => by
        cases hw.symm.trans ((C151_smt S hp h e).2 ⟨c, hc, hn⟩)
      obtain ⟨w', hw', hrel⟩ := (C151_smt S hp h e).1 hall
      cases hw.symm.trans hw'
      obtain ⟨b, b1, b2⟩ := (getElem?_rel hrel o).2 _ ho
      exact ⟨b, b1, b2, hall⟩
    obtain ⟨b, hb, -⟩ := at_ ⟨fun _ => false, fun _ => 0, fun _ _ => 0⟩
    refine ⟨_, b, h, hb, fun e => ?_⟩
    obtain ⟨b', hb', h'⟩ := at_ e
    cases hb.symm.trans hb'
    exact h'

theorem C151_z3_output_partial {ps : List (List Char × Port)} (hp : PortsOk ps) {p : Code}
    (hr : Z3Returns ps p) (o : Nat) : Z3Out ps p o ↔ SimOut ps p o := by
  constructor
  · rintro ⟨⟨u, obs⟩, b, h, hb, hv⟩ t ht
    obtain ⟨f, g, hf⟩ := exists_values ht hp.1
    obtain ⟨⟨w, ws⟩, hw, h1, h2⟩ := RelP.ok_left ((z3_sim ⟨f, g⟩).both_rel p .none (reads_z3 hf hp.2)) h
    have ha := rel_all (T := fun b : Z3.BoolE => b ⟨f, g⟩ = true) z3_true h2
    obtain ⟨c, c1, c2⟩ := (getElem?_rel h1 o).1 b hb
    have c3 := (z3_true b c c2).1 (hv _).1
    exact ⟨w, by rw [C151_simulation hp ht hw, if_pos (ha.2 (hv _).2)], c3 ▸ c1⟩
  · intro hs
    obtain ⟨⟨u, obs⟩, h⟩ := hr
    have at_ : ∀ e, ∃ b, u[o]? = some (.bit b) ∧ b e = true ∧ ∀ c ∈ obs, c e = true := by
      intro e
      obtain ⟨w, hw, ho⟩ := hs _ (reads_in (readBack_reads e.bool e.bv ps))
      have hall : ∀ c ∈ obs, c e = true := fun c hc => by_contra fun hn => by
        cases hw.symm.trans ((C151_z3 hp h e).2 ⟨c, hc, by simpa using hn⟩)
      obtain ⟨w', hw', hrel⟩ := (C151_z3 hp h e).1 hall
      cases hw.symm.trans hw'
      obtain ⟨b, b1, b2⟩ := (getElem?_rel hrel o).2 _ ho
      exact ⟨b, b1, b2, hall⟩
    obtain ⟨b, hb, -⟩ := at_ ⟨fun _ => false, fun _ _ => 0⟩
    refine ⟨_, b, h, hb, fun e => ?_⟩
    obtain ⟨b', hb', h'⟩ := at_ e
    cases hb.symm.trans hb'
    exact h'

/-- **C151** (bits).  `(c & t) | (~c & f)` is what `c.ite(t, f)` returns for bits, in simulation and with pysmt.  With z3
`c.ite(t, f)` is not a bit but a vector of width 1. -/
theorem C151_bits (S : Smt.Simplifier) (i : Nat) :
    (∀ c t f : Bool, ∃ v, ite c (.bit t) (.bit f) i = .ok (.bit v, i) ∧ merge concrete c (.bit t) (.bit f) = .ok (.bit v)) ∧
    (∀ (e : Smt.Env) {c t f : Smt.Term} {C T F : Bool}, Smt.DenBit e c C → Smt.DenBit e t T → Smt.DenBit e f F →
      ∃ x y, Smt.sIte S c (.bit t) (.bit f) i = .ok (.bit x, i) ∧ merge (smt S) c (.bit t) (.bit f) = .ok (.bit y) ∧
        x.eval e = some (.bool (if C then T else F)) ∧ y.eval e = some (.bool (if C then T else F))) ∧
    ∀ (e : Z3.Env) {c t f : Z3.BoolE} {C T F : Bool}, Z3.DenBit e c C → Z3.DenBit e t T → Z3.DenBit e f F →
      ∃ z y, Z3.zIte c (.bit t) (.bit f) = .ok z ∧ z.size = 1 ∧ merge z3 c (.bit t) (.bit f) = .ok (.bit y) ∧
        y e = if C then T else F := by
  have hc : ∀ c t f : Bool, merge concrete c (.bit t) (.bit f) = .ok (.bit (if c then t else f)) := by
    intro c t f; cases c <;> cases t <;> cases f <;> rfl
  refine ⟨fun c t f => ⟨if c then t else f, ?_, hc c t f⟩, ?_, ?_⟩
  · exact (C96_bits (e := e0) (c := fun _ => c) (t := fun _ => t) (f := fun _ => f) rfl rfl rfl i).2
  · intro e c t f C T F h1 h2 h3
    have hm := (smt_sim e S).merge_rel h1 (.bit h2) (.bit h3)
    obtain ⟨r, hr, hrel⟩ := RelP.ok_right hm (hc C T F)
    obtain ⟨x, hx, hd⟩ : ∃ x, Smt.sIte S c (.bit t) (.bit f) i = .ok (.bit x, i) ∧
        x.eval e = some (.bool (if C then T else F)) := by
      have h := C38_ite (S := S) h1 (.bit h2) (.bit h3) (by simp [ClassesDistinct, branchKinds, branchProtos]) i
      rw [(C96_bits (e := e0) (c := fun _ => C) (t := fun _ => T) (f := fun _ => F) rfl rfl rfl i).2] at h
      cases hx : Smt.sIte S c (.bit t) (.bit f) i with
      | error er => rw [hx] at h; exact h.elim
      | ok r =>
        rw [hx] at h
        obtain ⟨x, j⟩ := r
        obtain ⟨h4, h5⟩ := h
        replace h5 : j = i := h5
        subst h5
        cases h4 with
        | bit hb => exact ⟨_, rfl, hb⟩
    cases hrel with
    | bit hy => exact ⟨x, _, hx, hr, hd, hy⟩
  · intro e c t f C T F h1 h2 h3
    obtain ⟨z, hz, hd⟩ := (C96_bits h1 h2 h3 i).1
    have hm := (z3_sim e).merge_rel h1 (.bit h2) (.bit h3)
    obtain ⟨r, hr, hrel⟩ := RelP.ok_right hm (hc C T F)
    cases hrel with
    | bit hy => exact ⟨z, _, hz, hd.2.1.symm, hr, hy⟩

namespace Circuit.IfConv

/-- `if x.bvne(x): x.bvadd(y)` where `y` has another width. -/
def deadPorts : List (List Char × Port) := [(['x'], .vec .bv 8), (['y'], .vec .bv 4)]
def dead : Code := .instr (.cmp .ne 0 (.reg 0)) (.cond 2 (.instr (.bin .add 0 (.reg 1)) .done) .done [] .done)

theorem deadOk : PortsOk deadPorts := ⟨by decide, by
  intro q r n h
  simp [deadPorts] at h
  omega⟩

end Circuit.IfConv

/-- **C151 refuted** without the restriction: a branch that is never taken is run by the rewritten function, so a function
that never raises becomes one that always does, in every family. -/
theorem C151_refuted (S : Smt.Simplifier) : SimSafe deadPorts dead ∧ ¬ SmtReturns S deadPorts dead ∧ ¬ Z3Returns deadPorts dead ∧
    ∀ t, List.Forall₂ InPort deadPorts t → both concrete none t dead = .error .inconsistentSize := by
  have key : ∀ t, List.Forall₂ InPort deadPorts t → (∃ u, simulate t dead = .ok u) ∧
      both concrete none t dead = .error .inconsistentSize := by
    intro t ht
    cases ht with
    | cons hx h =>
      cases h with
      | cons hy h =>
        cases h
        cases hx with
        | @vec _ _ _ v _ _ =>
          cases hy with
          | @vec _ _ _ w _ _ =>
            have hs : step concrete [.vec ⟨.root .bv, 8, v⟩, .vec ⟨.root .bv, 4, w⟩] (.cmp .ne 0 (.reg 0)) =
                .ok [.vec ⟨.root .bv, 8, v⟩, .vec ⟨.root .bv, 4, w⟩, .bit false] := by
              have hb : (!decide (v = v)) = false := by simp
              exact congrArg (fun b => (.ok [.vec ⟨.root .bv, 8, v⟩, .vec ⟨.root .bv, 4, w⟩, .bit b] : PyM (List (Reg BVal Bool)))) hb
            refine ⟨⟨[.vec ⟨.root .bv, 8, v⟩, .vec ⟨.root .bv, 4, w⟩, .bit false], ?_⟩, ?_⟩
            · exact (exec_instr hs).trans rfl
            · exact (both_instr hs).trans rfl
  have hin : List.Forall₂ InPort deadPorts [.vec ⟨.root .bv, 8, 0⟩, .vec ⟨.root .bv, 4, 0⟩] :=
    .cons (.vec (by decide) (by decide)) (.cons (.vec (by decide) (by decide)) .nil)
  have hno : ¬ ∃ r, both concrete none [.vec ⟨.root .bv, 8, 0⟩, .vec ⟨.root .bv, 4, 0⟩] dead = .ok r := by
    rintro ⟨r, hr⟩
    cases hr.symm.trans (key _ hin).2
  exact ⟨fun t ht => (key t ht).1, fun h => hno ((C151_returns S deadOk dead hin).1.1 h),
    fun h => hno ((C151_returns S deadOk dead hin).2.1 h), fun t ht => (key t ht).2⟩

/-! The absolute value, with an `assert` in each branch:

`if x < 0: y = -x; assert y >u 0` `else: assert x != 255; y = x` -/

def Circuit.IfConv.absPorts : List (List Char × Port) := [(['x'], .vec .sint 8)]
def Circuit.IfConv.abs : Code :=
  .instr (.cmp .slt 0 (.int 0)) (.cond 1
    (.instr (.un .neg 0) (.instr (.cmp .ugt 2 (.int 0)) (.check 3 .done)))
    (.instr (.cmp .ne 0 (.int 255)) (.check 2 .done)) [(2, 0)] .done)

theorem Circuit.IfConv.absOk : PortsOk absPorts := ⟨by decide, by
  intro q r n h
  simp [absPorts] at h
  omega⟩
example (S : Smt.Simplifier) : SmtReturns S absPorts abs ∧ Z3Returns absPorts abs :=
  have h : ∃ r, both concrete none [.vec ⟨.root .sint, 8, 200⟩] abs = .ok r := ⟨_, rfl⟩
  have hin : List.Forall₂ InPort absPorts [.vec ⟨.root .sint, 8, 200⟩] := .cons (.vec (by decide) (by decide)) .nil
  ⟨(C151_returns S absOk abs hin).1.2 h, (C151_returns S absOk abs hin).2.2 h⟩
example : both concrete none [.vec ⟨.root .sint, 8, 200⟩] abs =
    .ok ([.vec ⟨.root .sint, 8, 200⟩, .bit true, .vec ⟨.root .sint, 8, 56⟩], [true, true]) := rfl
example : simulate [.vec ⟨.root .sint, 8, 200⟩] abs =
    .ok [.vec ⟨.root .sint, 8, 200⟩, .bit true, .vec ⟨.root .sint, 8, 56⟩] := rfl

end HW
