import Verif.Lemmas.LoopShape
import Verif.Props.IfConv

/-! # Property C154: `while` unrolled -/

namespace HW
open Spec Circuit IfConv Returns Loops

namespace Circuit.Loops

/-- With `while`, in simulation: no `assert` fails, no exception is raised and every loop stops after at most `k` turns,
whatever the inputs. -/
def SimSafe (k : Nat) (ps : List (List Char × Port)) (p : Prog) : Prop :=
  ∀ t, List.Forall₂ InPort ps t → ∃ u, Exec (· ≤ k) t p (.ok u)

/-- The same without the bound on the turns: the function stops. -/
def Stops (ps : List (List Char × Port)) (p : Prog) : Prop :=
  ∀ t, List.Forall₂ InPort ps t → ∃ u, Exec (fun _ => True) t p (.ok u)

/-- With `while`, in simulation, every loop in at most `k` turns: value `o` is true, whatever the inputs. -/
def SimOut (k : Nat) (ps : List (List Char × Port)) (p : Prog) (o : Nat) : Prop :=
  ∀ t, List.Forall₂ InPort ps t → ∃ u, Exec (· ≤ k) t p (.ok u) ∧ u[o]? = some (.bit true)

/-- The function, unrolled `k` times, can be run with pysmt over free variables. -/
def SmtReturns (S : Smt.Simplifier) (k : Nat) (ps : List (List Char × Port)) (p : Prog) : Prop :=
  ∃ r, unwind (smt S) k none (ps.map smtIn) p = .ok r
def Z3Returns (k : Nat) (ps : List (List Char × Port)) (p : Prog) : Prop := ∃ r, unwind z3 k none (ps.map z3In) p = .ok r

/-- The solver proves all obligations of the unrolled function. -/
def SmtSafe (S : Smt.Simplifier) (k : Nat) (ps : List (List Char × Port)) (p : Prog) : Prop :=
  ∃ r, unwind (smt S) k none (ps.map smtIn) p = .ok r ∧ ∀ b ∈ r.2, ∀ e, b.eval e = some (.bool true)
def Z3Safe (k : Nat) (ps : List (List Char × Port)) (p : Prog) : Prop :=
  ∃ r, unwind z3 k none (ps.map z3In) p = .ok r ∧ ∀ b ∈ r.2, ∀ e, b e = true

/-- ... and value `o`. -/
def SmtOut (S : Smt.Simplifier) (k : Nat) (ps : List (List Char × Port)) (p : Prog) (o : Nat) : Prop :=
  ∃ r b, unwind (smt S) k none (ps.map smtIn) p = .ok r ∧ r.1[o]? = some (.bit b) ∧
    ∀ e, b.eval e = some (.bool true) ∧ ∀ c ∈ r.2, c.eval e = some (.bool true)
def Z3Out (k : Nat) (ps : List (List Char × Port)) (p : Prog) (o : Nat) : Prop :=
  ∃ r b, unwind z3 k none (ps.map z3In) p = .ok r ∧ r.1[o]? = some (.bit b) ∧ ∀ e, b e = true ∧ ∀ c ∈ r.2, c e = true

end Circuit.Loops

/-- **C154** (one outcome).  On given inputs the function with `while` has at most one outcome, whatever bounds are put on
the turns of its loops. -/
theorem C154_one_outcome {ok ok' : Nat → Prop} {p : Prog} {s : Regs} {r r' : PyM Regs} (h : Exec ok s p r)
    (h' : Exec ok' s p r') : r = r' := det_exec p s r r' h h'

/-- **C154** (simulation).  If the function unrolled `k` times returns on some inputs, then the function with `while` does
what it says: when all obligations are true it gets to the same values and every loop takes at most `k` turns; when one is
false it raises AssertionError or some loop takes more than `k` turns. -/
theorem C154_simulation {ps : List (List Char × Port)} (hp : PortsOk ps) {t : List (Reg BVal Bool)}
    (ht : List.Forall₂ InPort ps t) {k : Nat} {p : Prog} {u : List (Reg BVal Bool)} {obs : List Bool}
    (h : unwind concrete k none t p = .ok (u, obs)) :
    ((∀ b ∈ obs, b = true) → Exec (· ≤ k) t p (.ok u)) ∧
    ((¬ ∀ b ∈ obs, b = true) → ∀ r, Exec (· ≤ k) t p r → r = .error .assertionError) := by
  obtain ⟨h1, h2⟩ := (unwind_describes k p (good_in hp ht) h).1 rfl
  have e : obs.all id = true ↔ ∀ b ∈ obs, b = true := by simp
  refine ⟨fun ho => h2 (e.2 ho), fun ho r hr => ?_⟩
  have := h1 r hr
  rwa [if_neg (fun hc => ho (e.1 hc))] at this

/-- **C154** (pysmt).  Under every assignment, the rewritten function run with pysmt describes the original run on the
inputs read off the assignment: it gets to the same values, every loop in at most `k` turns, unless an obligation is false
under it; then an assertion fails or some loop takes more turns. -/
theorem C154_smt (S : Smt.Simplifier) {ps : List (List Char × Port)} (hp : PortsOk ps) {k : Nat} {p : Prog}
    {u : List (Reg Smt.SBV Smt.Term)} {obs : List Smt.Term} (h : unwind (smt S) k none (ps.map smtIn) p = .ok (u, obs))
    (e : Smt.Env) :
    ((∀ b ∈ obs, b.eval e = some (.bool true)) → ∃ w, Exec (· ≤ k) (ps.map (readBack e.bool e.bv)) p (.ok w) ∧
      List.Forall₂ (RegRel (SVec e) (Smt.DenBit e)) u w) ∧
    ((∃ b ∈ obs, b.eval e ≠ some (.bool true)) → ∀ r, Exec (· ≤ k) (ps.map (readBack e.bool e.bv)) p r → r = .error .assertionError) := by
  have hr := readBack_reads e.bool e.bv ps
  obtain ⟨⟨w, ws⟩, hw, h1, h2⟩ := RelP.ok_left ((smt_sim e S).unwind_rel k p .none (reads_smt e.int hr hp.2)) h
  have hs := C154_simulation hp (reads_in hr) hw
  have ha := rel_all (T := fun b : Smt.Term => b.eval e = some (.bool true)) smt_true h2
  constructor
  · intro hb
    exact ⟨w, hs.1 (ha.2 hb), h1⟩
  · rintro ⟨b, hb, hn⟩
    exact hs.2 fun hc => hn (ha.1 hc b hb)

/-- The same with z3. -/
theorem C154_z3 {ps : List (List Char × Port)} (hp : PortsOk ps) {k : Nat} {p : Prog}
    {u : List (Reg Z3.ZBV Z3.BoolE)} {obs : List Z3.BoolE} (h : unwind z3 k none (ps.map z3In) p = .ok (u, obs))
    (e : Z3.Env) :
    ((∀ b ∈ obs, b e = true) → ∃ w, Exec (· ≤ k) (ps.map (readBack e.bool e.bv)) p (.ok w) ∧
      List.Forall₂ (RegRel (Z3.Den e) (Z3.DenBit e)) u w) ∧
    ((∃ b ∈ obs, b e = false) → ∀ r, Exec (· ≤ k) (ps.map (readBack e.bool e.bv)) p r → r = .error .assertionError) := by
  have hr := readBack_reads e.bool e.bv ps
  obtain ⟨⟨w, ws⟩, hw, h1, h2⟩ := RelP.ok_left ((z3_sim e).unwind_rel k p .none (reads_z3 hr hp.2)) h
  have hs := C154_simulation hp (reads_in hr) hw
  have ha := rel_all (T := fun b : Z3.BoolE => b e = true) z3_true h2
  constructor
  · intro hb
    exact ⟨w, hs.1 (ha.2 hb), h1⟩
  · rintro ⟨b, hb, hn⟩
    exact hs.2 fun hc => by simp [ha.1 hc b hb] at hn

/-- **C154** (when it returns).  Whether the rewritten function returns does not depend on the inputs, nor on the family. -/
theorem C154_returns (S : Smt.Simplifier) {ps : List (List Char × Port)} (hp : PortsOk ps) (k : Nat) (p : Prog)
    {t : List (Reg BVal Bool)} (ht : List.Forall₂ InPort ps t) :
    (Loops.SmtReturns S k ps p ↔ ∃ r, unwind concrete k none t p = .ok r) ∧ (Loops.Z3Returns k ps p ↔ ∃ r, unwind concrete k none t p = .ok r) := by
  obtain ⟨f, g, h⟩ := exists_values ht hp.1
  have h1 := (smt_sim ⟨f, fun _ => 0, g⟩ S).unwind_rel k p .none (reads_smt (fun _ => 0) h hp.2)
  have h2 := (z3_sim ⟨f, g⟩).unwind_rel k p .none (reads_z3 h hp.2)
  refine ⟨⟨?_, ?_⟩, ⟨?_, ?_⟩⟩
  · rintro ⟨u, hu⟩
    obtain ⟨w, hw, -⟩ := RelP.ok_left h1 hu
    exact ⟨w, hw⟩
  · rintro ⟨w, hw⟩
    obtain ⟨u, hu, -⟩ := RelP.ok_right h1 hw
    exact ⟨u, hu⟩
  · rintro ⟨u, hu⟩
    obtain ⟨w, hw, -⟩ := RelP.ok_left h2 hu
    exact ⟨w, hw⟩
  · rintro ⟨w, hw⟩
    obtain ⟨u, hu, -⟩ := RelP.ok_right h2 hw
    exact ⟨u, hu⟩

/-- **C154** (verdicts, assertions).  Missing: functions of which the rewritten form raises (`C154_refuted`). -/
theorem C154_smt_verdict_partial (S : Smt.Simplifier) {ps : List (List Char × Port)} (hp : PortsOk ps) {k : Nat} {p : Prog}
    (hr : Loops.SmtReturns S k ps p) : Loops.SmtSafe S k ps p ↔ Loops.SimSafe k ps p := by
  obtain ⟨⟨u, obs⟩, h⟩ := hr
  constructor
  · rintro ⟨r, h', hv⟩ t ht
    cases h.symm.trans h'
    obtain ⟨f, g, hf⟩ := exists_values ht hp.1
    obtain ⟨⟨w, ws⟩, hw, h1, h2⟩ := RelP.ok_left ((smt_sim ⟨f, fun _ => 0, g⟩ S).unwind_rel k p .none (reads_smt _ hf hp.2)) h
    have ha := rel_all (T := fun b : Smt.Term => b.eval ⟨f, fun _ => 0, g⟩ = some (.bool true)) smt_true h2
    exact ⟨w, (C154_simulation hp ht hw).1 (ha.2 fun b hb => hv b hb _)⟩
  · intro hs
    refine ⟨_, h, fun b hb e => by_contra fun hn => ?_⟩
    obtain ⟨w, hw⟩ := hs _ (reads_in (readBack_reads e.bool e.bv ps))
    cases (C154_smt S hp h e).2 ⟨b, hb, hn⟩ _ hw

theorem C154_z3_verdict_partial {ps : List (List Char × Port)} (hp : PortsOk ps) {k : Nat} {p : Prog}
    (hr : Loops.Z3Returns k ps p) : Loops.Z3Safe k ps p ↔ Loops.SimSafe k ps p := by
  obtain ⟨⟨u, obs⟩, h⟩ := hr
  constructor
  · rintro ⟨r, h', hv⟩ t ht
    cases h.symm.trans h'
    obtain ⟨f, g, hf⟩ := exists_values ht hp.1
    obtain ⟨⟨w, ws⟩, hw, h1, h2⟩ := RelP.ok_left ((z3_sim ⟨f, g⟩).unwind_rel k p .none (reads_z3 hf hp.2)) h
    have ha := rel_all (T := fun b : Z3.BoolE => b ⟨f, g⟩ = true) z3_true h2
    exact ⟨w, (C154_simulation hp ht hw).1 (ha.2 fun b hb => hv b hb _)⟩
  · intro hs
    refine ⟨_, h, fun b hb e => by_contra fun hn => ?_⟩
    obtain ⟨w, hw⟩ := hs _ (reads_in (readBack_reads e.bool e.bv ps))
    cases (C154_z3 hp h e).2 ⟨b, hb, by simpa using hn⟩ _ hw

/-- **C154** (verdicts, outputs).  Missing: as above. -/
theorem C154_smt_output_partial (S : Smt.Simplifier) {ps : List (List Char × Port)} (hp : PortsOk ps) {k : Nat} {p : Prog}
    (hr : Loops.SmtReturns S k ps p) (o : Nat) : Loops.SmtOut S k ps p o ↔ Loops.SimOut k ps p o := by
  constructor
  · rintro ⟨⟨u, obs⟩, b, h, hb, hv⟩ t ht
    obtain ⟨f, g, hf⟩ := exists_values ht hp.1
    obtain ⟨⟨w, ws⟩, hw, h1, h2⟩ := RelP.ok_left ((smt_sim ⟨f, fun _ => 0, g⟩ S).unwind_rel k p .none (reads_smt _ hf hp.2)) h
    have ha := rel_all (T := fun b : Smt.Term => b.eval ⟨f, fun _ => 0, g⟩ = some (.bool true)) smt_true h2
    obtain ⟨c, c1, c2⟩ := (getElem?_rel h1 o).1 b hb
    have c3 := (smt_true b c c2).1 (hv _).1
    exact ⟨w, (C154_simulation hp ht hw).1 (ha.2 (hv _).2), c3 ▸ c1⟩
  · intro hs
    obtain ⟨⟨u, obs⟩, h⟩ := hr
    have at_ : ∀ e, ∃ b, u[o]? = some (.bit b) ∧ b.eval e = some (.bool true) ∧ ∀ c ∈ obs, c.eval e = some (.bool true) := by
      intro e
      obtain ⟨w, hw, ho⟩ := hs _ (reads_in (readBack_reads e.bool e.bv ps))
      have hall : ∀ c ∈ obs, c.eval e = some (.bool true) := fun c hc => by_contra fun hn => by
        cases (C154_smt S hp h e).2 ⟨c, hc, hn⟩ _ hw
      obtain ⟨w', hw', hrel⟩ := (C154_smt S hp h e).1 hall
      cases det_exec p _ _ _ hw hw'
      obtain ⟨b, b1, b2⟩ := (getElem?_rel hrel o).2 _ ho
      exact ⟨b, b1, b2, hall⟩
    obtain ⟨b, hb, -⟩ := at_ ⟨fun _ => false, fun _ => 0, fun _ _ => 0⟩
    refine ⟨_, b, h, hb, fun e => ?_⟩
    obtain ⟨b', hb', h'⟩ := at_ e
    cases hb.symm.trans hb'
    exact h'

theorem C154_z3_output_partial {ps : List (List Char × Port)} (hp : PortsOk ps) {k : Nat} {p : Prog}
    (hr : Loops.Z3Returns k ps p) (o : Nat) : Loops.Z3Out k ps p o ↔ Loops.SimOut k ps p o := by
  constructor
  · rintro ⟨⟨u, obs⟩, b, h, hb, hv⟩ t ht
    obtain ⟨f, g, hf⟩ := exists_values ht hp.1
    obtain ⟨⟨w, ws⟩, hw, h1, h2⟩ := RelP.ok_left ((z3_sim ⟨f, g⟩).unwind_rel k p .none (reads_z3 hf hp.2)) h
    have ha := rel_all (T := fun b : Z3.BoolE => b ⟨f, g⟩ = true) z3_true h2
    obtain ⟨c, c1, c2⟩ := (getElem?_rel h1 o).1 b hb
    have c3 := (z3_true b c c2).1 (hv _).1
    exact ⟨w, (C154_simulation hp ht hw).1 (ha.2 (hv _).2), c3 ▸ c1⟩
  · intro hs
    obtain ⟨⟨u, obs⟩, h⟩ := hr
    have at_ : ∀ e, ∃ b, u[o]? = some (.bit b) ∧ b e = true ∧ ∀ c ∈ obs, c e = true := by
      intro e
      obtain ⟨w, hw, ho⟩ := hs _ (reads_in (readBack_reads e.bool e.bv ps))
      have hall : ∀ c ∈ obs, c e = true := fun c hc => by_contra fun hn => by
        cases (C154_z3 hp h e).2 ⟨c, hc, by simpa using hn⟩ _ hw
      obtain ⟨w', hw', hrel⟩ := (C154_z3 hp h e).1 hall
      cases det_exec p _ _ _ hw hw'
      obtain ⟨b, b1, b2⟩ := (getElem?_rel hrel o).2 _ ho
      exact ⟨b, b1, b2, hall⟩
    obtain ⟨b, hb, -⟩ := at_ ⟨fun _ => false, fun _ _ => 0⟩
    refine ⟨_, b, h, hb, fun e => ?_⟩
    obtain ⟨b', hb', h'⟩ := at_ e
    cases hb.symm.trans hb'
    exact h'

/-- **C154** (soundness for the function itself).  If the solver proves the obligations of the function unrolled `k` times,
for some `k`, the function stops on all inputs. -/
theorem C154_stops (S : Smt.Simplifier) {ps : List (List Char × Port)} (hp : PortsOk ps) {k : Nat} {p : Prog}
    (h : Loops.SmtSafe S k ps p ∨ Loops.Z3Safe k ps p) : Stops ps p := by
  have h' : Loops.SimSafe k ps p := by
    rcases h with h | h
    · obtain ⟨r, hr, hv⟩ := h
      exact (C154_smt_verdict_partial S hp ⟨r, hr⟩).1 ⟨r, hr, hv⟩
    · obtain ⟨r, hr, hv⟩ := h
      exact (C154_z3_verdict_partial hp ⟨r, hr⟩).1 ⟨r, hr, hv⟩
  intro t ht
  obtain ⟨u, hu⟩ := h' t ht
  exact ⟨u, exec_mono (fun _ _ => trivial) p hu⟩

/-- **C154** (how far to unroll does not matter for returning).  If the function unrolled once returns, then unrolled any
number of times. -/
theorem C154_returns_all (S : Smt.Simplifier) {ps : List (List Char × Port)} (hp : PortsOk ps) {p : Prog} (k : Nat) :
    (Loops.SmtReturns S 1 ps p → Loops.SmtReturns S k ps p) ∧ (Loops.Z3Returns 1 ps p → Loops.Z3Returns k ps p) := by
  obtain ⟨t, ht⟩ := exists_inputs ps
  obtain ⟨a1, a2⟩ := C154_returns S hp 1 p ht
  obtain ⟨b1, b2⟩ := C154_returns S hp k p ht
  have key : (∃ r, unwind concrete 1 none t p = .ok r) → ∃ r, unwind concrete k none t p = .ok r := by
    rintro ⟨r, hr⟩
    obtain ⟨r', hr', -⟩ := unwind_any k p (sameShape_refl (good_in hp ht)) .none hr
    exact ⟨r', hr'⟩
  exact ⟨fun h => b1.2 (key (a1.1 h)), fun h => b2.2 (key (a2.1 h))⟩

/-- **C154** (completeness).  If the function stops on all inputs, there is a number of turns from which on the solver
proves all obligations, provided the unrolled function returns.  Missing: as above. -/
theorem C154_complete_partial (S : Smt.Simplifier) {ps : List (List Char × Port)} (hp : PortsOk ps) {p : Prog}
    (h : Stops ps p) : ∃ k, ∀ m, k ≤ m → (Loops.SmtReturns S 1 ps p → Loops.SmtSafe S m ps p) ∧
      (Loops.Z3Returns 1 ps p → Loops.Z3Safe m ps p) := by
  obtain ⟨k, hk⟩ : ∃ k, Loops.SimSafe k ps p := by
    refine uniform (Q := fun k t => ∃ u, Exec (· ≤ k) t p (.ok u)) ps ?_ fun t ht => ?_
    · rintro k m t hkm ⟨u, hu⟩
      exact ⟨u, exec_mono (fun n hn => le_trans hn hkm) p hu⟩
    · obtain ⟨u, hu⟩ := h t ht
      obtain ⟨k, hk⟩ := exec_bound p hu
      exact ⟨k, u, hk⟩
  refine ⟨k, fun m hm => ?_⟩
  have hs : Loops.SimSafe m ps p := fun t ht => by
    obtain ⟨u, hu⟩ := hk t ht
    exact ⟨u, exec_mono (fun n hn => le_trans hn hm) p hu⟩
  exact ⟨fun hr => (C154_smt_verdict_partial S hp ((C154_returns_all S hp m).1 hr)).2 hs,
    fun hr => (C154_z3_verdict_partial hp ((C154_returns_all S hp m).2 hr)).2 hs⟩

namespace Circuit.Loops

/-- `while b: b = ~b; x = x.concat(x)` -/
def growPorts : List (List Char × Port) := [(['b'], .bit), (['x'], .vec .bv 8)]
def grow : Prog := .loop [0, 1] .done 2 (.instr (.bitNot 2) (.instr (.concat 3 3) .done)) [4, 5] .done

theorem growOk : PortsOk growPorts := ⟨by decide, by
  intro q r n h
  simp [growPorts] at h
  omega⟩

end Circuit.Loops

/-- **C154 refuted** for functions of which the unrolled form raises: a loop that makes a vector longer stops on all
inputs, after at most one turn, but no solver proves it, however often it is unrolled. -/
theorem C154_refuted (S : Smt.Simplifier) : Loops.SimSafe 1 growPorts grow ∧ Stops growPorts grow ∧
    (∀ k, ¬ Loops.SmtSafe S k growPorts grow ∧ ¬ Loops.Z3Safe k growPorts grow) ∧
    ∀ k, ¬ Loops.SmtReturns S (k + 1) growPorts grow ∧ ¬ Loops.Z3Returns (k + 1) growPorts grow := by
  have hin : List.Forall₂ InPort growPorts [.bit true, .vec ⟨.root .bv, 8, 0⟩] :=
    .cons .bit (.cons (.vec (by decide) (by decide)) .nil)
  have h1 : Loops.SimSafe 1 growPorts grow := by
    intro t ht
    cases ht with
    | cons hb h =>
      cases h with
      | cons hx h =>
        cases h
        cases hb with
        | @bit _ b =>
          cases hx with
          | @vec _ _ _ v h0 hv =>
            cases b with
            | false =>
              exact ⟨_, .inl ⟨[.bit false, .vec ⟨.root .bv, 8, v⟩], rfl, .inl ⟨_, ⟨0, by omega, .stop (.inl ⟨_, rfl, rfl⟩)⟩, rfl⟩⟩⟩
            | true =>
              refine ⟨_, .inl ⟨[.bit true, .vec ⟨.root .bv, 8, v⟩], rfl, .inl ⟨_, ⟨1, le_rfl,
                .turn (.inl ⟨_, rfl, rfl⟩) (.inl ⟨_, .inl ⟨_, rfl, .inl ⟨_, rfl, rfl⟩⟩, rfl⟩)
                  (.stop (.inl ⟨_, rfl, rfl⟩))⟩, rfl⟩⟩⟩
  have h2 : ∀ k, ¬ Loops.SmtReturns S (k + 1) growPorts grow ∧ ¬ Loops.Z3Returns (k + 1) growPorts grow := by
    intro k
    have hno : ¬ ∃ r, unwind concrete (k + 1) none [.bit true, .vec ⟨.root .bv, 8, 0⟩] grow = .ok r := by
      rintro ⟨r, h⟩
      obtain ⟨vs, e1, h⟩ := ok_bind_inv h
      cases e1
      obtain ⟨l, e2, -⟩ := ok_bind_inv h
      have hr := good_in growOk hin
      obtain ⟨pc, bs, e3, e4⟩ := turns_body (fun {pc vs r} hv h => by
        obtain ⟨u, g1, h⟩ := ok_bind_inv h
        obtain ⟨w, g2, h⟩ := ok_bind_inv h
        cases h
        exact readAll_good (good_unwind (good_append hr hv) g1) g2) hr e2
      cases e3
      cases e4 with
      | cons _ e4 =>
        cases e4 with
        | cons e4 _ =>
          cases e4 with
          | vec _ _ _ e5 => exact absurd e5 (by decide)
    obtain ⟨b1, b2⟩ := C154_returns S growOk (k + 1) grow hin
    exact ⟨fun h => hno (b1.1 h), fun h => hno (b2.1 h)⟩
  have h0 : ¬ Loops.SimSafe 0 growPorts grow := by
    intro h
    obtain ⟨u, hu⟩ := h _ hin
    obtain ⟨r, hr⟩ : ∃ r, unwind concrete 0 none [.bit true, .vec ⟨.root .bv, 8, 0⟩] grow = .ok r := ⟨_, rfl⟩
    cases hr
    have := (C154_simulation growOk hin (k := 0) (p := grow) (u := _) (obs := [false]) rfl).2 (by simp) _ hu
    cases this
  refine ⟨h1, fun t ht => ?_, fun k => ?_, h2⟩
  · obtain ⟨u, hu⟩ := h1 t ht
    exact ⟨u, exec_mono (fun _ _ => trivial) _ hu⟩
  · cases k with
    | zero => exact ⟨fun h => h0 ((C154_smt_verdict_partial S growOk (h.imp fun _ h => h.1)).1 h),
        fun h => h0 ((C154_z3_verdict_partial growOk (h.imp fun _ h => h.1)).1 h)⟩
    | succ k => exact ⟨fun h => (h2 k).1 (h.imp fun _ h => h.1), fun h => (h2 k).2 (h.imp fun _ h => h.1)⟩

/-! `while x != 0: assert n != 3; x = x - 1; n = n + 1` with `x` of width 1: proved with one turn, not with none. -/

def Circuit.Loops.downPorts : List (List Char × Port) := [(['x'], .vec .uint 1)]
def Circuit.Loops.down : Prog :=
  .instr (.const .uint 4 0) (.loop [0, 1] (.instr (.cmp .ne 2 (.int 0)) .done) 4
    (.instr (.cmp .ne 3 (.int 3)) (.check 4 (.instr (.bin .sub 2 (.int 1)) (.instr (.bin .add 3 (.int 1)) .done)))) [5, 6] .done)

theorem Circuit.Loops.downOk : PortsOk downPorts := ⟨by decide, by
  intro q r n h
  simp [downPorts] at h
  omega⟩
example (S : Smt.Simplifier) : Loops.SmtSafe S 1 downPorts down ∧ Loops.Z3Safe 1 downPorts down ∧
    ¬ Loops.SmtSafe S 0 downPorts down := by
  have hin : ∀ v : Int, 0 ≤ v → v < 2 → List.Forall₂ InPort downPorts [.vec ⟨.root .uint, 1, v⟩] :=
    fun v h1 h2 => .cons (.vec h1 (by simpa using h2)) .nil
  have hs : Loops.SimSafe 1 downPorts down := by
    intro t ht
    cases ht with
    | cons hx h =>
      cases h
      cases hx with
      | @vec _ _ _ v h1 h2 =>
        have hv : v = 0 ∨ v = 1 := by omega
        rcases hv with rfl | rfl
        · exact ⟨_, (C154_simulation downOk (hin 0 h1 (by omega)) (k := 1) (p := down) (obs := [true, true]) rfl).1 (by simp)⟩
        · exact ⟨_, (C154_simulation downOk (hin 1 h1 (by omega)) (k := 1) (p := down) (obs := [true, true]) rfl).1 (by simp)⟩
  have r := C154_returns S downOk 1 down (hin 0 (by decide) (by decide))
  have h : ∃ r, unwind concrete 1 none [.vec ⟨.root .uint, 1, 0⟩] down = .ok r := ⟨_, rfl⟩
  refine ⟨(C154_smt_verdict_partial S downOk (r.1.2 h)).2 hs, (C154_z3_verdict_partial downOk (r.2.2 h)).2 hs, fun h0 => ?_⟩
  obtain ⟨u, hu⟩ := (C154_smt_verdict_partial S downOk (h0.imp fun _ h => h.1)).1 h0 _ (hin 1 (by decide) (by decide))
  cases (C154_simulation downOk (hin 1 (by decide) (by decide)) (k := 0) (p := down) (obs := [false]) rfl).2 (by simp) _ hu

end HW
