import Verif.Lemmas.SeqCircuit

/-!
# Property C148: verifying circuits with state

Unrolling a circuit with a solver proves of the first cycles exactly what simulation shows, for every number of
cycles; and what is proved by induction over cycles holds in simulations of any length.
-/

namespace HW
open Spec Circuit

/-- **C148** (unrolling, pysmt).  The solver proves the assertions of the unrolled circuit exactly if no simulation
of those cycles violates one or raises. -/
theorem C148_smt_unrolled (S : Smt.Simplifier) (m : SeqCircuit) {pp : Ports} {iss : List Ports}
    (hp : PortsOk (pp ++ iss.flatten)) : SmtHolds S m pp iss ↔ SimHolds m pp iss :=
  (smtSolver S).verdict m hp

/-- **C148** (unrolling, z3). -/
theorem C148_z3_unrolled (m : SeqCircuit) {pp : Ports} {iss : List Ports}
    (hp : PortsOk (pp ++ iss.flatten)) : Z3Holds m pp iss ↔ SimHolds m pp iss :=
  z3Solver.verdict m hp

/-- **C148** (a counterexample is a simulation, pysmt).  Parameters and inputs read off any assignment, simulated,
give in every cycle the asserted bit the solver sees. -/
theorem C148_smt_replay (S : Smt.Simplifier) (m : SeqCircuit) {pp : Ports} {iss : List Ports}
    (hp : PortsOk (pp ++ iss.flatten)) {r} (hr : trace (smt S) m (pp.map smtIn) (iss.map (·.map smtIn)) = .ok r)
    (e : Smt.Env) :
    ∃ w, trace concrete m (pp.map (readBack e.bool e.bv)) (iss.map (·.map (readBack e.bool e.bv))) = .ok w ∧
      List.Forall₂ (fun (b : Smt.Term) c => b.eval e = some (.bool c)) r.2 w.2 :=
  (smtSolver S).replay m hp hr e

/-- **C148** (a counterexample is a simulation, z3). -/
theorem C148_z3_replay (m : SeqCircuit) {pp : Ports} {iss : List Ports} (hp : PortsOk (pp ++ iss.flatten)) {r}
    (hr : trace z3 m (pp.map z3In) (iss.map (·.map z3In)) = .ok r) (e : Z3.Env) :
    ∃ w, trace concrete m (pp.map (readBack e.bool e.bv)) (iss.map (·.map (readBack e.bool e.bv))) = .ok w ∧
      List.Forall₂ (fun (b : Z3.BoolE) c => b e = c) r.2 w.2 :=
  z3Solver.replay m hp hr e

/-- **C148** (all depths).  A circuit is safe in simulations of every length exactly if the solver proves it at every
depth. -/
theorem C148_all_depths (S : Smt.Simplifier) (m : SeqCircuit) {pp : Ports} {ins : Nat → Ports} (hs : SamePorts ins)
    (hp : ∀ n, PortsOk (pp ++ ((List.range n).map ins).flatten)) :
    (Safe m pp (ins 0) ↔ ∀ n, SmtHolds S m pp ((List.range n).map ins)) ∧
    (Safe m pp (ins 0) ↔ ∀ n, Z3Holds m pp ((List.range n).map ins)) := by
  have key : Safe m pp (ins 0) ↔ ∀ n, SimHolds m pp ((List.range n).map ins) := by
    constructor
    · intro h n t is ht hi
      refine h t is ht fun i hi' => ?_
      obtain ⟨ps, hps, hr⟩ := (forall₂_mem hi).2 i hi'
      obtain ⟨j, -, rfl⟩ := List.mem_map.1 hps
      exact inPorts_same hr (hs j)
    · intro h t is ht hi
      refine h is.length t is ht ?_
      rw [List.range_eq_range']
      exact inPorts_range hs 0 hi
  exact ⟨key.trans (forall_congr' fun n => (C148_smt_unrolled S m (hp n)).symm),
    key.trans (forall_congr' fun n => (C148_z3_unrolled m (hp n)).symm)⟩

/-- **C148** (induction, pysmt).  A circuit whose assertion the solver proves by induction with some window is safe in
simulations of every length. -/
theorem C148_smt_induction (S : Smt.Simplifier) {m : SeqCircuit} {pp st : Ports} {ins : Nat → Ports} {k : Nat}
    (hs : SamePorts ins) (hp : PortsOk (pp ++ ((List.range k).map ins).flatten))
    (hq : PortsOk (st ++ ((List.range (k + 1)).map ins).flatten)) (h : SmtInduction S m pp st ins k) :
    Safe m pp (ins 0) :=
  fun _ is ht hi => (smtSolver S).induction_sound m h hs hp hq ht is hi

/-- **C148** (induction, z3). -/
theorem C148_z3_induction {m : SeqCircuit} {pp st : Ports} {ins : Nat → Ports} {k : Nat}
    (hs : SamePorts ins) (hp : PortsOk (pp ++ ((List.range k).map ins).flatten))
    (hq : PortsOk (st ++ ((List.range (k + 1)).map ins).flatten)) (h : Z3Induction m pp st ins k) :
    Safe m pp (ins 0) :=
  fun _ is ht hi => z3Solver.induction_sound m h hs hp hq ht is hi

/-- **C148** (the induction proof is about the simulation).  Either solver accepts an induction proof exactly if its
four parts hold in simulation, from all states of the declared classes. -/
theorem C148_induction_exact (S : Smt.Simplifier) (m : SeqCircuit) {pp st : Ports} {ins : Nat → Ports} {k : Nat}
    (hp : PortsOk (pp ++ ((List.range k).map ins).flatten))
    (hq : PortsOk (st ++ ((List.range (k + 1)).map ins).flatten)) :
    (SmtInduction S m pp st ins k ↔ SimInduction m pp st ins k) ∧
    (Z3Induction m pp st ins k ↔ SimInduction m pp st ins k) :=
  ⟨(smtSolver S).induction_exact m hp hq, z3Solver.induction_exact m hp hq⟩

/-! ### Examples

Two flags, `a' = b` and `b' = b | i`, both set at reset; `a` is asserted. -/

namespace Circuit

def flags : SeqCircuit where
  reset := [.const .bv 1 1, .cmp .eq 0 (.reg 0)]
  first := [1, 1]
  body := [.bit .or 1 2]
  next := [1, 3]
  prop := 0

def flagState : Ports := [(['a'], .bit), (['b'], .bit)]
/-- The input of cycle `j` is called `i` with `j` primes. -/
def flagIns (j : Nat) : Ports := [('i' :: List.replicate j '\'', .bit)]

theorem flagIns_same : SamePorts flagIns := fun _ => rfl

theorem flag_names : ∀ n k, (((List.range' k n).map flagIns).flatten.map (·.1)).Nodup ∧
    ∀ x ∈ ((List.range' k n).map flagIns).flatten.map (·.1), ∃ j, k ≤ j ∧ x = 'i' :: List.replicate j '\''
  | 0, _ => by simp
  | n + 1, k => by
    obtain ⟨h1, h2⟩ := flag_names n (k + 1)
    simp only [List.range'_succ, List.map_cons, List.flatten_cons, flagIns,
      List.singleton_append] at h1 h2 ⊢
    refine ⟨List.nodup_cons.2 ⟨fun hm => ?_, h1⟩, fun x hx => ?_⟩
    · obtain ⟨j, hj, he⟩ := h2 _ hm
      have := congrArg List.length he
      simp at this; omega
    · simp only [List.mem_cons] at hx
      rcases hx with rfl | hx
      · exact ⟨k, le_refl _, rfl⟩
      · obtain ⟨j, hj, rfl⟩ := h2 x hx
        exact ⟨j, by omega, rfl⟩

theorem flag_ports (n : Nat) : PortsOk ([] ++ ((List.range n).map flagIns).flatten) ∧
    PortsOk (flagState ++ ((List.range n).map flagIns).flatten) := by
  obtain ⟨h1, h2⟩ := flag_names n 0
  rw [← List.range_eq_range'] at h1 h2
  have hb : ∀ q r w, (q, Port.vec r w) ∉ ((List.range n).map flagIns).flatten := by
    intro q r w h
    obtain ⟨ps, hps, hm⟩ := List.mem_flatten.1 h
    obtain ⟨j, -, rfl⟩ := List.mem_map.1 hps
    simp [flagIns] at hm
  refine ⟨⟨h1, fun q r w h => absurd h (hb q r w)⟩, ?_, fun q r w h => ?_⟩
  · rw [List.map_append]
    refine List.nodup_append.2 ⟨by decide, h1, fun x hx y hy he => ?_⟩
    subst he
    obtain ⟨j, -, rfl⟩ := h2 x hy
    simp [flagState] at hx
  · rcases List.mem_append.1 h with h | h
    · simp [flagState] at h
    · exact absurd h (hb q r w)

end Circuit

/-- One good cycle is not enough for the induction, two are. -/
example : Z3Induction flags [] flagState flagIns 2 := by
  refine ⟨⟨_, rfl, ?_⟩, ⟨_, rfl, ?_⟩, ⟨_, rfl, ?_⟩, ⟨_, rfl, ?_⟩⟩
  · intro e b hb
    cases hb with
    | head => rfl
    | tail _ hb =>
      cases hb with
      | head => rfl
      | tail _ hb => cases hb
  · exact .cons trivial (.cons trivial .nil)
  · exact .cons trivial (.cons trivial .nil)
  · intro e h b hb
    have h1 := h 1 _ (by decide) rfl
    have hb : _ = b := Option.some.inj hb
    subst hb
    show (e.bool ['b'] || _) = true
    rw [show e.bool ['b'] = true from h1]; rfl

example : ¬ Z3Induction flags [] flagState flagIns 1 := by
  rintro ⟨-, -, -, r, hr, h⟩
  cases hr
  have := h ⟨fun q => decide (q = ['a']), fun _ _ => 0⟩ (fun j b hj hb => by
    obtain rfl : j = 0 := by omega
    cases Option.some.inj hb
    rfl) _ rfl
  exact absurd this (by decide)

example (h : Z3Induction flags [] flagState flagIns 2) : Safe flags [] [(['i'], .bit)] :=
  C148_z3_induction flagIns_same (flag_ports 2).1 (flag_ports 3).2 h

/-- Three cycles of simulation. -/
example : ∃ r, trace concrete flags [] [[.bit false], [.bit true], [.bit false]] = .ok r ∧ r.2 = [true, true, true] :=
  ⟨_, rfl, rfl⟩

end HW
