import Verif.Lemmas.PolyCircuit
import Verif.Props.Circuit
import Verif.Props.Z3Ite

/-!
# Property C144: circuits whose multiplexers mix vector classes
-/

namespace HW
open Spec Circuit

/-- A vector of a predefined class is known to every run. -/
theorem Circuit.start_rel {e : Smt.Env} {S : Smt.Simplifier} {s : List (Reg Smt.SBV Smt.Term)} {t : List (Reg BVal Bool)}
    (h : List.Forall₂ (RegRel (SVec e) (Smt.DenBit e)) s t) (i : Nat) : PSt e S (s, i) (t, i) := by
  refine ⟨rfl, fun _ => .root .bv, h.imp fun a b hab => ?_⟩
  cases hab with
  | vec h =>
    obtain ⟨h1, ⟨r, hr⟩, h3⟩ := h
    exact .vec ⟨h1, h3, by rw [hr]; trivial⟩
  | bit h => exact .bit h

/-- **C144** a circuit with `ite` over branches of any vector classes, run with `SMTBitVector`: under every assignment its values
(their classes too) are those of the simulation, it makes as many classes, and it raises exactly when the simulation does, the
same exception.  `i`: how many classes had been made before. -/
theorem C144_smt_partial (S : Smt.Simplifier) (e : Smt.Env) (p : List PInstr) {s : List (Reg Smt.SBV Smt.Term)}
    {t : List (Reg BVal Bool)} (h : List.Forall₂ (RegRel (SVec e) (Smt.DenBit e)) s t) (i : Nat) :
    RelP (· = ·) (fun u w => u.2 = w.2 ∧ List.Forall₂ (RegRel (Smt.Den e) (Smt.DenBit e)) u.1 w.1)
      (prun (smtPF S) (s, i) p) (prun concretePF (t, i) p) := by
  refine (prun_rel p (start_rel h i)).mono fun u w hu => ⟨hu.1, ?_⟩
  obtain ⟨-, D, hD⟩ := hu
  refine hD.imp fun a b hab => ?_
  cases hab with
  | vec h => exact .vec h.1
  | bit h => exact .bit h

/-- In simulation, output `o` is true for all inputs. -/
def Circuit.PSimTrue (ps : List (List Char × Port)) (p : List PInstr) (o : Nat) : Prop :=
  ∀ t, List.Forall₂ InPort ps t → ∃ u, prun concretePF (t, 0) p = .ok u ∧ u.1[o]? = some (.bit true)

/-- The solver proves output `o` of the circuit over free variables. -/
def Circuit.PSmtProves (S : Smt.Simplifier) (ps : List (List Char × Port)) (p : List PInstr) (o : Nat) : Prop :=
  ∃ u b, prun (smtPF S) (ps.map smtIn, 0) p = .ok u ∧ u.1[o]? = some (.bit b) ∧ ∀ e, b.eval e = some (.bool true)

/-- **C144** the solver proves the output of a circuit over free variables exactly when simulation gives true for all inputs. -/
theorem C144_verdict_partial (S : Smt.Simplifier) {ps : List (List Char × Port)} (hp : PortsOk ps) (p : List PInstr) (o : Nat) :
    PSmtProves S ps p o ↔ PSimTrue ps p o := by
  have key : ∀ (e : Smt.Env) t, List.Forall₂ (Reads e.bool e.bv) ps t → _ := fun e t h =>
    C144_smt_partial S e p (reads_smt e.int h hp.2) 0
  constructor
  · rintro ⟨u, b, hu, hb, hv⟩ t ht
    obtain ⟨f, g, h⟩ := exists_values ht hp.1
    have hk := key ⟨f, fun _ => 0, g⟩ t h
    obtain ⟨w, hw, hk⟩ := RelP.ok_left hk hu
    obtain ⟨c, h1, h2⟩ := (getElem?_rel hk.2 o).1 b hb
    have h2 := (hv _).symm.trans h2
    injection h2 with h2
    injection h2 with h2
    exact ⟨w, hw, h2 ▸ h1⟩
  · intro hs
    have at_ : ∀ e : Smt.Env, ∃ u b, prun (smtPF S) (ps.map smtIn, 0) p = .ok u ∧ u.1[o]? = some (.bit b) ∧
        b.eval e = some (.bool true) := by
      intro e
      have hr := readBack_reads e.bool e.bv ps
      obtain ⟨w, hw, ho⟩ := hs _ (reads_in hr)
      have hk := key e _ hr
      obtain ⟨u, hu, hk⟩ := RelP.ok_right hk hw
      obtain ⟨b, h1, h2⟩ := (getElem?_rel hk.2 o).2 _ ho
      exact ⟨u, b, hu, h1, h2⟩
    obtain ⟨u, b, hu, hb, -⟩ := at_ ⟨fun _ => false, fun _ => 0, fun _ _ => 0⟩
    refine ⟨u, b, hu, hb, fun e => ?_⟩
    obtain ⟨u', b', hu', hb', h⟩ := at_ e
    cases hu.symm.trans hu'
    cases hb.symm.trans hb'
    exact h

/-- **C144** a counterexample replays. -/
theorem C144_replay_partial (S : Smt.Simplifier) {ps : List (List Char × Port)} (hp : PortsOk ps) {p : List PInstr} {o : Nat}
    {u : PState (smtPF S)} {b : Smt.Term} {v : Bool} (hu : prun (smtPF S) (ps.map smtIn, 0) p = .ok u)
    (hb : u.1[o]? = some (.bit b)) (e : Smt.Env) (hv : b.eval e = some (.bool v)) :
    ∃ w, prun concretePF (ps.map (readBack e.bool e.bv), 0) p = .ok w ∧ w.1[o]? = some (.bit v) := by
  have hk := C144_smt_partial S e p (reads_smt e.int (readBack_reads e.bool e.bv ps) hp.2) 0
  obtain ⟨w, hw, hk⟩ := RelP.ok_left hk hu
  obtain ⟨c, h1, h2⟩ := (getElem?_rel hk.2 o).1 b hb
  cases hv.symm.trans h2
  exact ⟨w, hw, h1⟩

/-! `m = c.ite(u, s)` with `u` unsigned and `s` signed; `m < 0` and `m >> 1` follow the branch taken, and so does
`m.ext(1)`. -/

def Circuit.muxPorts : List (List Char × Port) := [(['u'], .vec .uint 8), (['s'], .vec .sint 8), (['c'], .bit)]
def Circuit.muxCircuit : List PInstr :=
  [.ite 2 0 1, .opC .lt 3 (.int 0), .opA .shr 3 (.int 1), .ext 3 1, .op (.concat 5 3), .opC .lt 0 (.reg 3)]

example : PortsOk muxPorts := ⟨by decide, by
  intro q r n h
  simp [muxPorts] at h
  omega⟩

/-- A bit of the result of a run. -/
def Circuit.outBit (r : PyM (PState concretePF)) (o : Nat) : Option Bool :=
  match r with
  | .ok u => match u.1[o]? with
    | some (.bit b) => some b
    | _ => none
  | .error _ => none

example : outBit (prun concretePF ([.vec ⟨.root .uint, 8, 200⟩, .vec ⟨.root .sint, 8, 200⟩, .bit true], 0) muxCircuit) 4 =
      some false ∧
    outBit (prun concretePF ([.vec ⟨.root .uint, 8, 200⟩, .vec ⟨.root .sint, 8, 200⟩, .bit false], 0) muxCircuit) 4 =
      some true := ⟨rfl, rfl⟩

/-- **C144** the reading follows the condition: after `m = c.ite(u, s)`, `m < 0` is true exactly if the signed branch is taken and
is negative. -/
theorem C144_follows_condition {n : Nat} (hn : 0 < n) {a b : Int} (ha : 0 ≤ a ∧ a < 2 ^ n) (hb : 0 ≤ b ∧ b < 2 ^ n) (c : Bool) :
    outBit (prun concretePF ([.vec ⟨.root .uint, n, a⟩, .vec ⟨.root .sint, n, b⟩, .bit c], 0)
      [.ite 2 0 1, .opC .lt 3 (.int 0)]) 4 = some (!c && decide (signed n b < 0)) := by
  have h := iteBV_all c (X := ⟨.root .uint, n, a⟩) (Y := ⟨.root .sint, n, b⟩) ha hb 0
  have hk : ¬ (Kind.root .uint = Kind.root .sint) := by decide
  simp only [if_true, hk, if_false] at h
  have hw : BVal.WF ⟨.poly 0 (.root .uint) (.root .sint) c, n, if c then a else b⟩ := by
    cases c
    · exact hb
    · exact ha
  have g := (foreign_A hw hn (o := .int 0) trivial (b := wrap n 0) rfl nofun 0).2 .lt
  have e1 : prun concretePF ([.vec ⟨.root .uint, n, a⟩, .vec ⟨.root .sint, n, b⟩, .bit c], 0)
      [.ite 2 0 1, .opC .lt 3 (.int 0)] = .ok ([.vec ⟨.root .uint, n, a⟩, .vec ⟨.root .sint, n, b⟩, .bit c,
        .vec ⟨.poly 0 (.root .uint) (.root .sint) c, n, if c then a else b⟩,
        .bit (refC (readsSigned (.poly 0 (.root .uint) (.root .sint) c)) .lt n (if c then a else b) (wrap n 0))], 1) := by
    have s1 : pstep concretePF ([.vec ⟨.root .uint, n, a⟩, .vec ⟨.root .sint, n, b⟩, .bit c], 0) (.ite 2 0 1) =
        (do let r ← iteBV c ⟨.root .uint, n, a⟩ ⟨.root .sint, n, b⟩ 0
            return ([.vec ⟨.root .uint, n, a⟩, .vec ⟨.root .sint, n, b⟩, .bit c, .vec r.1], r.2)) := rfl
    have s2 : ∀ m : BVal, pstep concretePF ([.vec ⟨.root .uint, n, a⟩, .vec ⟨.root .sint, n, b⟩, .bit c, .vec m], 1)
        (.opC .lt 3 (.int 0)) = (do let r ← cOpC .lt m (.int 0)
                                    return ([.vec ⟨.root .uint, n, a⟩, .vec ⟨.root .sint, n, b⟩, .bit c, .vec m, .bit r], 1)) :=
      fun _ => rfl
    have g' : cOpC .lt ⟨.poly 0 (.root .uint) (.root .sint) c, n, if c then a else b⟩ (.int 0) =
        .ok (refC (readsSigned (.poly 0 (.root .uint) (.root .sint) c)) .lt n (if c then a else b) (wrap n 0)) := by
      simp only [cOpC, g, bind, Except.bind]; rfl
    rw [h] at s1
    have s2 := s2 ⟨.poly 0 (.root .uint) (.root .sint) c, n, if c then a else b⟩
    rw [g'] at s2
    simp only [prun]
    rw [s1]
    exact congrArg (· >>= fun s => prun concretePF s []) s2
  rw [e1]
  have w0 : wrap n 0 = 0 := by simp [wrap]
  have hs0 : signed n 0 = 0 := by
    unfold signed
    have := two_pow_pos n
    rw [if_pos (by omega)]
  cases c
  · simp [outBit, refC, readsSigned, w0, hs0]
  · have := ha.1
    simp [outBit, refC, readsSigned, w0]
    omega

/-- **C144 refuted** for z3: a multiplexer over different classes raises `TypeError`, whatever the condition, where the
simulation and `SMTBitVector` return. -/
theorem C144_z3_refuted (c : Z3.BoolE) {t f : Z3.ZBV} (hr : t.root ≠ f.root) (hs : t.size = f.size) {e : Z3.Env} {C : Bool}
    {T F : BVal} (ht : Z3.Den e t T) (hf : Z3.Den e f F) (i : Nat) :
    Z3.zIte c (.bv t) (.bv f) = .error .typeError ∧ ∃ v, iteBV C T F i = .ok (v, i + 1) ∧ v.value = (if C then T else F).value := by
  refine ⟨C96_classes c fun h => hr h.1, ?_⟩
  have hk : ¬ T.kind = F.kind := by
    rw [ht.kind_eq, hf.kind_eq]
    exact fun h => hr (Kind.root.inj h)
  rw [iteBV_all C ht.WF hf.WF i, if_pos (by rw [ht.size_eq, hf.size_eq, hs]), if_neg hk, if_neg hk]
  exact ⟨_, rfl, by cases C <;> rfl⟩

example := C144_follows_condition (n := 8) (by decide) (a := 200) (b := 200) (by decide) (by decide) false
example := C144_z3_refuted (fun _ => true) (t := zSym .uint 4 'x') (f := zSym .sint 4 'y') (by decide) rfl (e := zEnv9) (C := true)
  (T := ⟨.root .uint, 4, 9⟩) (F := ⟨.root .sint, 4, 2⟩) ⟨rfl, rfl, by decide, _, rfl, by decide⟩
  ⟨rfl, rfl, by decide, _, rfl, by decide⟩ 0

end HW
