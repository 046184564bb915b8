import Verif.Lemmas.Returns
import Verif.Props.IfConv

/-! # Property C153: functions with several returns, replaced by `ite` -/

namespace HW
open Spec Circuit IfConv Returns

namespace Circuit.Returns

/-- With `if` and `return`, in simulation: no `assert` fails and no exception is raised, whatever the inputs. -/
def SimSafe (ps : List (List Char × Port)) (p : Fn) : Prop := ∀ t, List.Forall₂ InPort ps t → ∃ u, simCall t p = .ok u

/-- With `if` and `return`, in simulation: returned value `o` is true, whatever the inputs. -/
def SimOut (ps : List (List Char × Port)) (p : Fn) (o : Nat) : Prop :=
  ∀ t, List.Forall₂ InPort ps t → ∃ u, simCall t p = .ok u ∧ u[o]? = some (.bit true)

/-- The rewritten function can be run with pysmt over free variables. -/
def SmtReturns (S : Smt.Simplifier) (ps : List (List Char × Port)) (p : Fn) : Prop :=
  ∃ r, fork (smt S) none (ps.map smtIn) p = .ok r
def Z3Returns (ps : List (List Char × Port)) (p : Fn) : Prop := ∃ r, fork z3 none (ps.map z3In) p = .ok r

/-- The solver proves all obligations of the rewritten function. -/
def SmtSafe (S : Smt.Simplifier) (ps : List (List Char × Port)) (p : Fn) : Prop :=
  ∃ r, fork (smt S) none (ps.map smtIn) p = .ok r ∧ ∀ b ∈ r.2, ∀ e, b.eval e = some (.bool true)
def Z3Safe (ps : List (List Char × Port)) (p : Fn) : Prop :=
  ∃ r, fork z3 none (ps.map z3In) p = .ok r ∧ ∀ b ∈ r.2, ∀ e, b e = true

/-- ... and returned value `o`. -/
def SmtOut (S : Smt.Simplifier) (ps : List (List Char × Port)) (p : Fn) (o : Nat) : Prop :=
  ∃ r b, fork (smt S) none (ps.map smtIn) p = .ok r ∧ r.1[o]? = some (.bit b) ∧
    ∀ e, b.eval e = some (.bool true) ∧ ∀ c ∈ r.2, c.eval e = some (.bool true)
def Z3Out (ps : List (List Char × Port)) (p : Fn) (o : Nat) : Prop :=
  ∃ r b, fork z3 none (ps.map z3In) p = .ok r ∧ r.1[o]? = some (.bit b) ∧ ∀ e, b e = true ∧ ∀ c ∈ r.2, c e = true

end Circuit.Returns

/-- **C153** (simulation).  If the rewritten function returns on some inputs then the function with `if` and early
`return` does what it says: when all obligations are true it returns the same tuple, when one is false it raises
AssertionError. -/
theorem C153_simulation {ps : List (List Char × Port)} (hp : PortsOk ps) {t : List (Reg BVal Bool)}
    (ht : List.Forall₂ InPort ps t) {p : Fn} {u : List (Reg BVal Bool)} {obs : List Bool}
    (h : fork concrete none t p = .ok (u, obs)) :
    simCall t p = if ∀ b ∈ obs, b = true then .ok u else .error .assertionError := by
  rw [(call_fork p (good_in hp ht) h).1 rfl]
  simp only [List.all_eq_true, id]

/-- **C153** (pysmt).  Under every assignment, the rewritten function run with pysmt describes the original run on the
inputs read off the assignment: the same tuple, unless an obligation is false under it; then AssertionError. -/
theorem C153_smt (S : Smt.Simplifier) {ps : List (List Char × Port)} (hp : PortsOk ps) {p : Fn}
    {u : List (Reg Smt.SBV Smt.Term)} {obs : List Smt.Term} (h : fork (smt S) none (ps.map smtIn) p = .ok (u, obs))
    (e : Smt.Env) :
    ((∀ b ∈ obs, b.eval e = some (.bool true)) → ∃ w, simCall (ps.map (readBack e.bool e.bv)) p = .ok w ∧
      List.Forall₂ (RegRel (SVec e) (Smt.DenBit e)) u w) ∧
    ((∃ b ∈ obs, b.eval e ≠ some (.bool true)) → simCall (ps.map (readBack e.bool e.bv)) p = .error .assertionError) := by
  have hr := readBack_reads e.bool e.bv ps
  obtain ⟨⟨w, ws⟩, hw, h1, h2⟩ := RelP.ok_left ((smt_sim e S).fork_rel p .none (reads_smt e.int hr hp.2)) h
  have hs := C153_simulation hp (reads_in hr) hw
  have ha := rel_all (T := fun b : Smt.Term => b.eval e = some (.bool true)) smt_true h2
  constructor
  · intro hb
    rw [if_pos (ha.2 hb)] at hs
    exact ⟨w, hs, h1⟩
  · rintro ⟨b, hb, hn⟩
    rwa [if_neg (fun hc => hn (ha.1 hc b hb))] at hs

/-- The same with z3. -/
theorem C153_z3 {ps : List (List Char × Port)} (hp : PortsOk ps) {p : Fn}
    {u : List (Reg Z3.ZBV Z3.BoolE)} {obs : List Z3.BoolE} (h : fork z3 none (ps.map z3In) p = .ok (u, obs))
    (e : Z3.Env) :
    ((∀ b ∈ obs, b e = true) → ∃ w, simCall (ps.map (readBack e.bool e.bv)) p = .ok w ∧
      List.Forall₂ (RegRel (Z3.Den e) (Z3.DenBit e)) u w) ∧
    ((∃ b ∈ obs, b e = false) → simCall (ps.map (readBack e.bool e.bv)) p = .error .assertionError) := by
  have hr := readBack_reads e.bool e.bv ps
  obtain ⟨⟨w, ws⟩, hw, h1, h2⟩ := RelP.ok_left ((z3_sim e).fork_rel p .none (reads_z3 hr hp.2)) h
  have hs := C153_simulation hp (reads_in hr) hw
  have ha := rel_all (T := fun b : Z3.BoolE => b e = true) z3_true h2
  constructor
  · intro hb
    rw [if_pos (ha.2 hb)] at hs
    exact ⟨w, hs, h1⟩
  · rintro ⟨b, hb, hn⟩
    rwa [if_neg (fun hc => by simp [ha.1 hc b hb] at hn)] at hs

/-- **C153** (when it returns).  Whether the rewritten function returns does not depend on the inputs, nor on the family. -/
theorem C153_returns (S : Smt.Simplifier) {ps : List (List Char × Port)} (hp : PortsOk ps) (p : Fn)
    {t : List (Reg BVal Bool)} (ht : List.Forall₂ InPort ps t) :
    (Returns.SmtReturns S ps p ↔ ∃ r, fork concrete none t p = .ok r) ∧ (Returns.Z3Returns ps p ↔ ∃ r, fork concrete none t p = .ok r) := by
  obtain ⟨f, g, h⟩ := exists_values ht hp.1
  have h1 := (smt_sim ⟨f, fun _ => 0, g⟩ S).fork_rel p .none (reads_smt (fun _ => 0) h hp.2)
  have h2 := (z3_sim ⟨f, g⟩).fork_rel p .none (reads_z3 h hp.2)
  refine ⟨⟨?_, ?_⟩, ⟨?_, ?_⟩⟩
  · rintro ⟨u, hu⟩
    obtain ⟨w, hw, -⟩ := RelP.ok_left h1 hu
    exact ⟨w, hw⟩
  · rintro ⟨w, hw⟩
    obtain ⟨u, hu, -⟩ := RelP.ok_right h1 hw
    exact ⟨u, hu⟩
  · rintro ⟨u, hu⟩
    obtain ⟨w, hw, -⟩ := RelP.ok_left h2 hu
    exact ⟨w, hw⟩
  · rintro ⟨w, hw⟩
    obtain ⟨u, hu, -⟩ := RelP.ok_right h2 hw
    exact ⟨u, hu⟩

/-- **C153** (verdicts, assertions).  Missing: functions of which the rewritten form raises (`C153_refuted`). -/
theorem C153_smt_verdict_partial (S : Smt.Simplifier) {ps : List (List Char × Port)} (hp : PortsOk ps) {p : Fn}
    (hr : Returns.SmtReturns S ps p) : Returns.SmtSafe S ps p ↔ Returns.SimSafe ps p := by
  obtain ⟨⟨u, obs⟩, h⟩ := hr
  constructor
  · rintro ⟨r, h', hv⟩ t ht
    cases h.symm.trans h'
    obtain ⟨f, g, hf⟩ := exists_values ht hp.1
    obtain ⟨⟨w, ws⟩, hw, h1, h2⟩ := RelP.ok_left ((smt_sim ⟨f, fun _ => 0, g⟩ S).fork_rel p .none (reads_smt _ hf hp.2)) h
    have ha := rel_all (T := fun b : Smt.Term => b.eval ⟨f, fun _ => 0, g⟩ = some (.bool true)) smt_true h2
    exact ⟨w, by rw [C153_simulation hp ht hw, if_pos (ha.2 fun b hb => hv b hb _)]⟩
  · intro hs
    refine ⟨_, h, fun b hb e => by_contra fun hn => ?_⟩
    obtain ⟨w, hw⟩ := hs _ (reads_in (readBack_reads e.bool e.bv ps))
    cases hw.symm.trans ((C153_smt S hp h e).2 ⟨b, hb, hn⟩)

theorem C153_z3_verdict_partial {ps : List (List Char × Port)} (hp : PortsOk ps) {p : Fn}
    (hr : Returns.Z3Returns ps p) : Returns.Z3Safe ps p ↔ Returns.SimSafe ps p := by
  obtain ⟨⟨u, obs⟩, h⟩ := hr
  constructor
  · rintro ⟨r, h', hv⟩ t ht
    cases h.symm.trans h'
    obtain ⟨f, g, hf⟩ := exists_values ht hp.1
    obtain ⟨⟨w, ws⟩, hw, h1, h2⟩ := RelP.ok_left ((z3_sim ⟨f, g⟩).fork_rel p .none (reads_z3 hf hp.2)) h
    have ha := rel_all (T := fun b : Z3.BoolE => b ⟨f, g⟩ = true) z3_true h2
    exact ⟨w, by rw [C153_simulation hp ht hw, if_pos (ha.2 fun b hb => hv b hb _)]⟩
  · intro hs
    refine ⟨_, h, fun b hb e => by_contra fun hn => ?_⟩
    obtain ⟨w, hw⟩ := hs _ (reads_in (readBack_reads e.bool e.bv ps))
    cases hw.symm.trans ((C153_z3 hp h e).2 ⟨b, hb, by simpa using hn⟩)

/-- **C153** (verdicts, outputs).  Missing: as above. -/
theorem C153_smt_output_partial (S : Smt.Simplifier) {ps : List (List Char × Port)} (hp : PortsOk ps) {p : Fn}
    (hr : Returns.SmtReturns S ps p) (o : Nat) : Returns.SmtOut S ps p o ↔ Returns.SimOut ps p o := by
  constructor
  · rintro ⟨⟨u, obs⟩, b, h, hb, hv⟩ t ht
    obtain ⟨f, g, hf⟩ := exists_values ht hp.1
    obtain ⟨⟨w, ws⟩, hw, h1, h2⟩ := RelP.ok_left ((smt_sim ⟨f, fun _ => 0, g⟩ S).fork_rel p .none (reads_smt _ hf hp.2)) h
    have ha := rel_all (T := fun b : Smt.Term => b.eval ⟨f, fun _ => 0, g⟩ = some (.bool true)) smt_true h2
    obtain ⟨c, c1, c2⟩ := (getElem?_rel h1 o).1 b hb
    have c3 := (smt_true b c c2).1 (hv _).1
    exact ⟨w, by rw [C153_simulation hp ht hw, if_pos (ha.2 (hv _).2)], c3 ▸ c1⟩
  · intro hs
    obtain ⟨⟨u, obs⟩, h⟩ := hr
    have at_ : ∀ e, ∃ b, u[o]? = some (.bit b) ∧ b.eval e = some (.bool true) ∧ ∀ c ∈ obs, c.eval e = some (.bool true) := by
      intro e
      obtain ⟨w, hw, ho⟩ := hs _ (reads_in (readBack_reads e.bool e.bv ps))
      have hall : ∀ c ∈ obs, c.eval e = some (.bool true) := fun c hc => by_contra fun hn => by
        cases hw.symm.trans ((C153_smt S hp h e).2 ⟨c, hc, hn⟩)
      obtain ⟨w', hw', hrel⟩ := (C153_smt S hp h e).1 hall
      cases hw.symm.trans hw'
      obtain ⟨b, b1, b2⟩ := (getElem?_rel hrel o).2 _ ho
      exact ⟨b, b1, b2, hall⟩
    obtain ⟨b, hb, -⟩ := at_ ⟨fun _ => false, fun _ => 0, fun _ _ => 0⟩
    refine ⟨_, b, h, hb, fun e => ?_⟩
    obtain ⟨b', hb', h'⟩ := at_ e
    cases hb.symm.trans hb'
    exact h'

theorem C153_z3_output_partial {ps : List (List Char × Port)} (hp : PortsOk ps) {p : Fn}
    (hr : Returns.Z3Returns ps p) (o : Nat) : Returns.Z3Out ps p o ↔ Returns.SimOut ps p o := by
  constructor
  · rintro ⟨⟨u, obs⟩, b, h, hb, hv⟩ t ht
    obtain ⟨f, g, hf⟩ := exists_values ht hp.1
    obtain ⟨⟨w, ws⟩, hw, h1, h2⟩ := RelP.ok_left ((z3_sim ⟨f, g⟩).fork_rel p .none (reads_z3 hf hp.2)) h
    have ha := rel_all (T := fun b : Z3.BoolE => b ⟨f, g⟩ = true) z3_true h2
    obtain ⟨c, c1, c2⟩ := (getElem?_rel h1 o).1 b hb
    have c3 := (z3_true b c c2).1 (hv _).1
    exact ⟨w, by rw [C153_simulation hp ht hw, if_pos (ha.2 (hv _).2)], c3 ▸ c1⟩
  · intro hs
    obtain ⟨⟨u, obs⟩, h⟩ := hr
    have at_ : ∀ e, ∃ b, u[o]? = some (.bit b) ∧ b e = true ∧ ∀ c ∈ obs, c e = true := by
      intro e
      obtain ⟨w, hw, ho⟩ := hs _ (reads_in (readBack_reads e.bool e.bv ps))
      have hall : ∀ c ∈ obs, c e = true := fun c hc => by_contra fun hn => by
        cases hw.symm.trans ((C153_z3 hp h e).2 ⟨c, hc, by simpa using hn⟩)
      obtain ⟨w', hw', hrel⟩ := (C153_z3 hp h e).1 hall
      cases hw.symm.trans hw'
      obtain ⟨b, b1, b2⟩ := (getElem?_rel hrel o).2 _ ho
      exact ⟨b, b1, b2, hall⟩
    obtain ⟨b, hb, -⟩ := at_ ⟨fun _ => false, fun _ _ => 0⟩
    refine ⟨_, b, h, hb, fun e => ?_⟩
    obtain ⟨b', hb', h'⟩ := at_ e
    cases hb.symm.trans hb'
    exact h'

namespace Circuit.Returns

/-- `def f(x, b): if b: return x` and otherwise `return b`. -/
def mixedPorts : List (List Char × Port) := [(['x'], .vec .bv 8), (['b'], .bit)]
def mixed : Fn := .cond 1 (.ret [0]) (.ret [1])

theorem mixedOk : PortsOk mixedPorts := ⟨by decide, by
  intro q r n h
  simp [mixedPorts] at h
  omega⟩

end Circuit.Returns

/-- **C153 refuted** without the restriction: returns of different types, or of different numbers of values, cannot be
merged.  The function never raises, the rewritten one always does. -/
theorem C153_refuted (S : Smt.Simplifier) : Returns.SimSafe mixedPorts mixed ∧ ¬ Returns.SmtReturns S mixedPorts mixed ∧
    ¬ Returns.Z3Returns mixedPorts mixed ∧
    ∀ t, List.Forall₂ InPort mixedPorts t → fork concrete none t mixed = .error .assertionError := by
  have key : ∀ t, List.Forall₂ InPort mixedPorts t → (∃ u, simCall t mixed = .ok u) ∧
      fork concrete none t mixed = .error .assertionError := by
    intro t ht
    cases ht with
    | cons hx h =>
      cases h with
      | cons hy h =>
        cases h
        cases hx with
        | vec _ _ =>
          cases hy with
          | @bit _ b => cases b <;> exact ⟨⟨_, rfl⟩, rfl⟩
  have hin : List.Forall₂ InPort mixedPorts [.vec ⟨.root .bv, 8, 0⟩, .bit true] :=
    .cons (.vec (by decide) (by decide)) (.cons .bit .nil)
  have hno : ¬ ∃ r, fork concrete none [.vec ⟨.root .bv, 8, 0⟩, .bit true] mixed = .ok r := by
    rintro ⟨r, hr⟩
    cases hr.symm.trans (key _ hin).2
  exact ⟨fun t ht => (key t ht).1, fun h => hno ((C153_returns S mixedOk mixed hin).1.1 h),
    fun h => hno ((C153_returns S mixedOk mixed hin).2.1 h), fun t ht => (key t ht).2⟩

/-! `if x < 0: assert x != 128; return -x, x < 0`; `if x > 100: y = x - 1 else: y = x`; `return y, x < 0` -/

def Circuit.Returns.abs : Fn :=
  .instr (.cmp .slt 0 (.int 0)) (.cond 1
    (.instr (.cmp .ne 0 (.int 128)) (.check 2 (.instr (.un .neg 0) (.ret [3, 1]))))
    (.instr (.cmp .ugt 0 (.int 100)) (.join 2 (.instr (.bin .sub 0 (.int 1)) .done) .done [(3, 0)] (.ret [3, 1]))))

example (S : Smt.Simplifier) : Returns.SmtReturns S absPorts Returns.abs ∧ Returns.Z3Returns absPorts Returns.abs :=
  have h : ∃ r, fork concrete none [.vec ⟨.root .sint, 8, 200⟩] Returns.abs = .ok r := ⟨_, rfl⟩
  have hin : List.Forall₂ InPort absPorts [.vec ⟨.root .sint, 8, 200⟩] := .cons (.vec (by decide) (by decide)) .nil
  ⟨(C153_returns S absOk Returns.abs hin).1.2 h, (C153_returns S absOk Returns.abs hin).2.2 h⟩
example : fork concrete none [.vec ⟨.root .sint, 8, 200⟩] Returns.abs = .ok ([.vec ⟨.root .sint, 8, 56⟩, .bit true], [true]) := rfl
example : simCall [.vec ⟨.root .sint, 8, 200⟩] Returns.abs = .ok [.vec ⟨.root .sint, 8, 56⟩, .bit true] := rfl
example : simCall [.vec ⟨.root .sint, 8, 101⟩] Returns.abs = .ok [.vec ⟨.root .sint, 8, 100⟩, .bit false] := rfl
example : simCall [.vec ⟨.root .sint, 8, 128⟩] Returns.abs = .error .assertionError := rfl
example : fork concrete none [.vec ⟨.root .sint, 8, 128⟩] Returns.abs = .ok ([.vec ⟨.root .sint, 8, 128⟩, .bit true], [false]) := rfl

end HW
