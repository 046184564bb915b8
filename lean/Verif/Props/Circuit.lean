import Verif.Lemmas.CircuitFamilies

/-!
# Property C123: a circuit means the same under simulation and under both solvers
-/

namespace HW
open Spec Circuit

/-- A circuit run with `SMTBitVector`: under every assignment its values are those of the simulation, and it
raises exactly when the simulation does, the same exception. -/
theorem C123_smt (S : Smt.Simplifier) (e : Smt.Env) (p : List Instr) {s : List (Reg Smt.SBV Smt.Term)}
    {t : List (Reg BVal Bool)} (h : List.Forall₂ (RegRel (SVec e) (Smt.DenBit e)) s t) :
    RelP (· = ·) (List.Forall₂ (RegRel (SVec e) (Smt.DenBit e))) (run (smt S) s p) (run concrete t p) :=
  (smt_sim e S).run_rel p h

/-- The same with `z3BitVector`; a plain `TypeError` stands for `InconsistentSizeError`. -/
theorem C123_z3 (e : Z3.Env) (p : List Instr) {s : List (Reg Z3.ZBV Z3.BoolE)}
    {t : List (Reg BVal Bool)} (h : List.Forall₂ (RegRel (Z3.Den e) (Z3.DenBit e)) s t) :
    RelP ZErr (List.Forall₂ (RegRel (Z3.Den e) (Z3.DenBit e))) (run z3 s p) (run concrete t p) :=
  (z3_sim e).run_rel p h

/-! ### Verifying a circuit -/

/-- The declaration of an input. -/
inductive Circuit.Port
  | vec (r : Root) (n : Nat)
  | bit

/-- Inputs with their names: different, and vectors of positive width. -/
def Circuit.PortsOk (ps : List (List Char × Port)) : Prop :=
  (ps.map (·.1)).Nodup ∧ ∀ q r n, (q, Port.vec r n) ∈ ps → 0 < n

/-- Fresh variables for the inputs: `SMTBitVector[n](name=q)`, `SMTBit(name=q)`. -/
def Circuit.smtIn (q : List Char × Port) : Reg Smt.SBV Smt.Term :=
  match q.2 with
  | .vec r n => .vec ⟨.root r, n, .sym q.1 (.bv n)⟩
  | .bit => .bit (.sym q.1 .bool)

/-- `z3BitVector[n](name=q)`, `z3Bit(name=q)`. -/
def Circuit.z3In (q : List Char × Port) : Reg Z3.ZBV Z3.BoolE :=
  match q.2 with
  | .vec r n => .vec ⟨r, n, ⟨n, fun e => e.bv q.1 n⟩⟩
  | .bit => .bit fun e => e.bool q.1

/-- A value the input can take. -/
inductive Circuit.InPort : List Char × Port → Reg BVal Bool → Prop
  | vec {q r n v} : 0 ≤ v → v < 2 ^ n → InPort (q, .vec r n) (.vec ⟨.root r, n, v⟩)
  | bit {q b} : InPort (q, .bit) (.bit b)

/-- In simulation, output `o` is true for all inputs. -/
def Circuit.SimTrue (ps : List (List Char × Port)) (p : List Instr) (o : Nat) : Prop :=
  ∀ t, List.Forall₂ InPort ps t → ∃ u, run concrete t p = .ok u ∧ u[o]? = some (.bit true)

/-- The solver proves output `o` of the circuit over free variables: it holds under every assignment. -/
def Circuit.SmtProves (S : Smt.Simplifier) (ps : List (List Char × Port)) (p : List Instr) (o : Nat) : Prop :=
  ∃ u b, run (smt S) (ps.map smtIn) p = .ok u ∧ u[o]? = some (.bit b) ∧ ∀ e, b.eval e = some (.bool true)

def Circuit.Z3Proves (ps : List (List Char × Port)) (p : List Instr) (o : Nat) : Prop :=
  ∃ u b, run z3 (ps.map z3In) p = .ok u ∧ u[o]? = some (.bit b) ∧ ∀ e, b e = true

namespace Circuit

/-- The input's value under an assignment. -/
inductive Reads (f : List Char → Bool) (g : List Char → (w : Nat) → BitVec w) : List Char × Port → Reg BVal Bool → Prop
  | vec {q r n} : Reads f g (q, .vec r n) (.vec ⟨.root r, n, (g q n).toNat⟩)
  | bit {q} : Reads f g (q, .bit) (.bit (f q))

theorem reads_congr {f f' : List Char → Bool} {g g' : List Char → (w : Nat) → BitVec w} {ps : List (List Char × Port)}
    {t : List (Reg BVal Bool)} (h : List.Forall₂ (Reads f g) ps t) (hc : ∀ q ∈ ps, f' q.1 = f q.1 ∧ g' q.1 = g q.1) :
    List.Forall₂ (Reads f' g') ps t := by
  induction h with
  | nil => exact .nil
  | cons hx _ ih =>
    refine .cons ?_ (ih fun q hq => hc q (List.mem_cons_of_mem _ hq))
    obtain ⟨h1, h2⟩ := hc _ List.mem_cons_self
    cases hx with
    | vec => rw [← show g' _ = g _ from h2]; exact .vec
    | bit => rw [← show f' _ = f _ from h1]; exact .bit

/-- Every input is some assignment of the variables. -/
theorem exists_values {ps : List (List Char × Port)} {t : List (Reg BVal Bool)} (h : List.Forall₂ InPort ps t)
    (hd : (ps.map (·.1)).Nodup) :
    ∃ (f : List Char → Bool) (g : List Char → (w : Nat) → BitVec w), List.Forall₂ (Reads f g) ps t := by
  induction h with
  | nil => exact ⟨fun _ => false, fun _ w => 0, .nil⟩
  | @cons q x ps t hx _ ih =>
    simp only [List.map_cons, List.nodup_cons, List.mem_map, not_exists, not_and] at hd
    obtain ⟨f, g, h⟩ := ih hd.2
    cases hx with
    | @vec q r n v h0 h1 =>
      refine ⟨f, fun q' w => if q' = q then BitVec.ofInt w v else g q' w, .cons ?_ (reads_congr h fun a ha => ⟨rfl, ?_⟩)⟩
      · have hv : ((if q = q then BitVec.ofInt n v else g q n).toNat : Int) = v := by
          rw [if_pos rfl, BitVec.toNat_ofInt]
          have : v % (2 ^ n : Nat) = v := Int.emod_eq_of_lt h0 (by exact_mod_cast h1)
          rw [this]; omega
        have := Reads.vec (f := f) (g := fun q' w => if q' = q then BitVec.ofInt w v else g q' w) (q := q) (r := r) (n := n)
        have e : (⟨.root r, n, ((if q = q then BitVec.ofInt n v else g q n).toNat : Int)⟩ : BVal) = ⟨.root r, n, v⟩ := by rw [hv]
        exact e ▸ this
      · funext w
        rw [if_neg (hd.1 a ha)]
    | @bit q b =>
      refine ⟨fun q' => if q' = q then b else f q', g, .cons ?_ (reads_congr h fun a ha => ⟨if_neg (hd.1 a ha), rfl⟩)⟩
      have := Reads.bit (f := fun q' => if q' = q then b else f q') (g := g) (q := q)
      simpa using this

theorem reads_smt (i : List Char → Int) {f : List Char → Bool} {g : List Char → (w : Nat) → BitVec w}
    {ps : List (List Char × Port)} {t : List (Reg BVal Bool)} (h : List.Forall₂ (Reads f g) ps t)
    (hp : ∀ q r n, (q, Port.vec r n) ∈ ps → 0 < n) :
    List.Forall₂ (RegRel (SVec ⟨f, i, g⟩) (Smt.DenBit ⟨f, i, g⟩)) (ps.map smtIn) t := by
  induction h with
  | nil => exact .nil
  | cons hx _ ih =>
    refine .cons ?_ (ih fun q r n hq => hp q r n (List.mem_cons_of_mem _ hq))
    cases hx with
    | vec => exact .vec ⟨⟨rfl, rfl, g _ _, rfl, rfl⟩, ⟨_, rfl⟩, hp _ _ _ List.mem_cons_self⟩
    | bit => exact .bit rfl

theorem reads_z3 {f : List Char → Bool} {g : List Char → (w : Nat) → BitVec w}
    {ps : List (List Char × Port)} {t : List (Reg BVal Bool)} (h : List.Forall₂ (Reads f g) ps t)
    (hp : ∀ q r n, (q, Port.vec r n) ∈ ps → 0 < n) :
    List.Forall₂ (RegRel (Z3.Den ⟨f, g⟩) (Z3.DenBit ⟨f, g⟩)) (ps.map z3In) t := by
  induction h with
  | nil => exact .nil
  | cons hx _ ih =>
    refine .cons ?_ (ih fun q r n hq => hp q r n (List.mem_cons_of_mem _ hq))
    cases hx with
    | vec => exact .vec ⟨rfl, rfl, hp _ _ _ List.mem_cons_self, _, rfl, rfl⟩
    | bit => exact .bit rfl

/-- The inputs an assignment gives, as a counterexample of the solver is read back. -/
def readBack (f : List Char → Bool) (g : List Char → (w : Nat) → BitVec w) (q : List Char × Port) : Reg BVal Bool :=
  match q.2 with
  | .vec r n => .vec ⟨.root r, n, (g q.1 n).toNat⟩
  | .bit => .bit (f q.1)

theorem readBack_reads (f : List Char → Bool) (g : List Char → (w : Nat) → BitVec w) (ps : List (List Char × Port)) :
    List.Forall₂ (Reads f g) ps (ps.map (readBack f g)) := by
  induction ps with
  | nil => exact .nil
  | cons q ps ih =>
    refine .cons ?_ ih
    obtain ⟨q, port⟩ := q
    cases port with
    | vec r n => exact .vec
    | bit => exact .bit

theorem reads_in {f : List Char → Bool} {g : List Char → (w : Nat) → BitVec w} {ps : List (List Char × Port)}
    {t : List (Reg BVal Bool)} (h : List.Forall₂ (Reads f g) ps t) : List.Forall₂ InPort ps t := by
  refine h.imp fun q x hx => ?_
  cases hx with
  | @vec q r n => exact .vec (Int.natCast_nonneg _) (by exact_mod_cast (g q n).isLt)
  | bit => exact .bit

theorem getElem?_rel {V B : Type} {RV : V → BVal → Prop} {RB : B → Bool → Prop} {u : List (Reg V B)}
    {w : List (Reg BVal Bool)} (h : List.Forall₂ (RegRel RV RB) u w) (o : Nat) :
    (∀ b, u[o]? = some (.bit b) → ∃ c, w[o]? = some (.bit c) ∧ RB b c) ∧
    (∀ c, w[o]? = some (.bit c) → ∃ b, u[o]? = some (.bit b) ∧ RB b c) := by
  induction h generalizing o with
  | nil => simp
  | cons hx _ ih =>
    cases o with
    | zero =>
      cases hx with
      | vec h => simp
      | bit h =>
        simp only [List.getElem?_cons_zero, Option.some.injEq, Reg.bit.injEq]
        exact ⟨fun b hb => ⟨_, rfl, hb ▸ h⟩, fun b hb => ⟨_, rfl, hb ▸ h⟩⟩
    | succ o => simpa using ih o

end Circuit

/-- A solver proves the output of a circuit over free variables exactly when simulation gives true for all
inputs. -/
theorem C123_smt_verdict (S : Smt.Simplifier) {ps : List (List Char × Port)} (hp : PortsOk ps) (p : List Instr) (o : Nat) :
    SmtProves S ps p o ↔ SimTrue ps p o := by
  have key : ∀ (e : Smt.Env) t, List.Forall₂ (Reads e.bool e.bv) ps t → _ := fun e t h =>
    C123_smt S e p (reads_smt e.int h hp.2)
  constructor
  · rintro ⟨u, b, hu, hb, hv⟩ t ht
    obtain ⟨f, g, h⟩ := exists_values ht hp.1
    have hk := key ⟨f, fun _ => 0, g⟩ t h
    obtain ⟨w, hw, hk⟩ := RelP.ok_left hk hu
    obtain ⟨c, h1, h2⟩ := (getElem?_rel hk o).1 b hb
    have h2 := (hv _).symm.trans h2
    injection h2 with h2
    injection h2 with h2
    exact ⟨w, hw, h2 ▸ h1⟩
  · intro hs
    have at_ : ∀ e : Smt.Env, ∃ u b, run (smt S) (ps.map smtIn) p = .ok u ∧ u[o]? = some (.bit b) ∧
        b.eval e = some (.bool true) := by
      intro e
      have hr := readBack_reads e.bool e.bv ps
      obtain ⟨w, hw, ho⟩ := hs _ (reads_in hr)
      have hk := key e _ hr
      obtain ⟨u, hu, hk⟩ := RelP.ok_right hk hw
      obtain ⟨b, h1, h2⟩ := (getElem?_rel hk o).2 _ ho
      exact ⟨u, b, hu, h1, h2⟩
    obtain ⟨u, b, hu, hb, -⟩ := at_ ⟨fun _ => false, fun _ => 0, fun _ _ => 0⟩
    refine ⟨u, b, hu, hb, fun e => ?_⟩
    obtain ⟨u', b', hu', hb', h⟩ := at_ e
    cases hu.symm.trans hu'
    cases hb.symm.trans hb'
    exact h

theorem C123_z3_verdict {ps : List (List Char × Port)} (hp : PortsOk ps) (p : List Instr) (o : Nat) :
    Z3Proves ps p o ↔ SimTrue ps p o := by
  have key : ∀ (e : Z3.Env) t, List.Forall₂ (Reads e.bool e.bv) ps t → _ := fun e t h =>
    C123_z3 e p (reads_z3 h hp.2)
  constructor
  · rintro ⟨u, b, hu, hb, hv⟩ t ht
    obtain ⟨f, g, h⟩ := exists_values ht hp.1
    have hk := key ⟨f, g⟩ t h
    obtain ⟨w, hw, hk⟩ := RelP.ok_left hk hu
    obtain ⟨c, h1, h2⟩ := (getElem?_rel hk o).1 b hb
    have h2 := (hv _).symm.trans h2
    exact ⟨w, hw, h2 ▸ h1⟩
  · intro hs
    have at_ : ∀ e : Z3.Env, ∃ u b, run z3 (ps.map z3In) p = .ok u ∧ u[o]? = some (.bit b) ∧ b e = true := by
      intro e
      have hr := readBack_reads e.bool e.bv ps
      obtain ⟨w, hw, ho⟩ := hs _ (reads_in hr)
      have hk := key e _ hr
      obtain ⟨u, hu, hk⟩ := RelP.ok_right hk hw
      obtain ⟨b, h1, h2⟩ := (getElem?_rel hk o).2 _ ho
      exact ⟨u, b, hu, h1, h2⟩
    obtain ⟨u, b, hu, hb, -⟩ := at_ ⟨fun _ => false, fun _ _ => 0⟩
    refine ⟨u, b, hu, hb, fun e => ?_⟩
    obtain ⟨u', b', hu', hb', h⟩ := at_ e
    cases hu.symm.trans hu'
    cases hb.symm.trans hb'
    exact h

/-- So the two solvers give one verdict. -/
theorem C123_same_verdict (S : Smt.Simplifier) {ps : List (List Char × Port)} (hp : PortsOk ps) (p : List Instr) (o : Nat) :
    SmtProves S ps p o ↔ Z3Proves ps p o :=
  (C123_smt_verdict S hp p o).trans (C123_z3_verdict hp p o).symm

/-- A counterexample replays: the inputs read off an assignment give in simulation what the output is under that
assignment. -/
theorem C123_replay (S : Smt.Simplifier) {ps : List (List Char × Port)} (hp : PortsOk ps) {p : List Instr} {o : Nat}
    {u : List (Reg Smt.SBV Smt.Term)} {b : Smt.Term} {v : Bool} (hu : run (smt S) (ps.map smtIn) p = .ok u)
    (hb : u[o]? = some (.bit b)) (e : Smt.Env) (hv : b.eval e = some (.bool v)) :
    ∃ w, run concrete (ps.map (readBack e.bool e.bv)) p = .ok w ∧ w[o]? = some (.bit v) := by
  have hk := C123_smt S e p (reads_smt e.int (readBack_reads e.bool e.bv ps) hp.2)
  obtain ⟨w, hw, hk⟩ := RelP.ok_left hk hu
  obtain ⟨c, h1, h2⟩ := (getElem?_rel hk o).1 b hb
  cases hv.symm.trans h2
  exact ⟨w, hw, h1⟩

theorem C123_replay_z3 {ps : List (List Char × Port)} (hp : PortsOk ps) {p : List Instr} {o : Nat}
    {u : List (Reg Z3.ZBV Z3.BoolE)} {b : Z3.BoolE} (hu : run z3 (ps.map z3In) p = .ok u)
    (hb : u[o]? = some (.bit b)) (e : Z3.Env) :
    ∃ w, run concrete (ps.map (readBack e.bool e.bv)) p = .ok w ∧ w[o]? = some (.bit (b e)) := by
  have hk := C123_z3 e p (reads_z3 (readBack_reads e.bool e.bv ps) hp.2)
  obtain ⟨w, hw, hk⟩ := RelP.ok_left hk hu
  obtain ⟨c, h1, h2⟩ := (getElem?_rel hk o).1 b hb
  have h2 : b e = c := h2
  exact ⟨w, hw, h2 ▸ h1⟩

/-- The symbolic runs return exactly when the simulation does, whatever the inputs. -/
theorem C123_returns (S : Smt.Simplifier) {ps : List (List Char × Port)} (hp : PortsOk ps) (p : List Instr)
    {t : List (Reg BVal Bool)} (ht : List.Forall₂ InPort ps t) :
    ((∃ u, run (smt S) (ps.map smtIn) p = .ok u) ↔ ∃ w, run concrete t p = .ok w) ∧
    ((∃ u, run z3 (ps.map z3In) p = .ok u) ↔ ∃ w, run concrete t p = .ok w) := by
  obtain ⟨f, g, h⟩ := exists_values ht hp.1
  have h1 := C123_smt S ⟨f, fun _ => 0, g⟩ p (reads_smt _ h hp.2)
  have h2 := C123_z3 ⟨f, g⟩ p (reads_z3 h hp.2)
  refine ⟨⟨?_, ?_⟩, ⟨?_, ?_⟩⟩
  · rintro ⟨u, hu⟩
    obtain ⟨w, hw, -⟩ := RelP.ok_left h1 hu
    exact ⟨w, hw⟩
  · rintro ⟨w, hw⟩
    obtain ⟨u, hu, -⟩ := RelP.ok_right h1 hw
    exact ⟨u, hu⟩
  · rintro ⟨u, hu⟩
    obtain ⟨w, hw, -⟩ := RelP.ok_left h2 hu
    exact ⟨w, hw⟩
  · rintro ⟨w, hw⟩
    obtain ⟨u, hu, -⟩ := RelP.ok_right h2 hw
    exact ⟨u, hu⟩

/-! De Morgan at 8 bits: `~(x & y) == ~x | ~y`. -/

def Circuit.deMorganPorts : List (List Char × Port) := [(['x'], .vec .uint 8), (['y'], .vec .uint 8)]
def Circuit.deMorgan : List Instr :=
  [.opA .and 0 (.reg 1), .un .not 2, .un .not 0, .un .not 1, .opA .or 4 (.reg 5), .opC .eq 3 (.reg 6)]

example : PortsOk deMorganPorts := ⟨by decide, by
  intro q r n h
  simp [deMorganPorts] at h
  omega⟩
example : ∃ u, run concrete [.vec ⟨.root .uint, 8, 200⟩, .vec ⟨.root .uint, 8, 77⟩] deMorgan = .ok u ∧
    u[7]? = some (.bit true) := ⟨_, rfl, rfl⟩
/-- Not a theorem of arithmetic: `x + 1 > x` fails at 255, and the solver's assignment replays. -/
example : ¬ SimTrue [(['x'], .vec .uint 8)] [.bin .add 0 (.int 1), .cmp .ugt 1 (.reg 0)] 2 := by
  intro h
  obtain ⟨u, h1, h2⟩ := h [.vec ⟨.root .uint, 8, 255⟩] (.cons (.vec (by decide) (by decide)) .nil)
  have : run concrete [.vec ⟨.root .uint, 8, 255⟩] [.bin .add 0 (.int 1), .cmp .ugt 1 (.reg 0)] =
      .ok [.vec ⟨.root .uint, 8, 255⟩, .vec ⟨.root .uint, 8, 0⟩, .bit false] := rfl
  cases this.symm.trans h1
  cases h2
/-- And one all inputs satisfy: `x.bveq(x)`. -/
example : SimTrue [(['x'], .vec .uint 8)] [.cmp .eq 0 (.reg 0)] 1 := by
  intro t ht
  cases ht with
  | cons hx h =>
    cases h
    cases hx with
    | @vec _ _ _ v _ _ =>
      refine ⟨[.vec ⟨.root .uint, 8, v⟩, .bit (decide (v = v))], ?_, by simp⟩
      rfl

end HW
