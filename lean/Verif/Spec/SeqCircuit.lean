import Verif.Model.SeqCircuit
import Verif.Props.Circuit

/-! What it is to verify a circuit with state, by unrolling it and by induction over the cycles. -/

namespace HW.Circuit
open HW

abbrev Ports := List (List Char × Port)

/-- The inputs of all cycles are of the same classes. -/
def SamePorts (ins : Nat → Ports) : Prop := ∀ j, (ins j).map (·.2) = (ins 0).map (·.2)

/-- In simulation from reset, with any parameters and inputs of the given cycles, no exception is raised and the bit
asserted is true in every cycle. -/
def SimHolds (m : SeqCircuit) (pp : Ports) (iss : List Ports) : Prop :=
  ∀ t is, List.Forall₂ InPort pp t → List.Forall₂ (List.Forall₂ InPort) iss is →
    ∃ r, trace concrete m t is = .ok r ∧ ∀ b ∈ r.2, b = true

/-- The same for simulations of any length. -/
def Safe (m : SeqCircuit) (pp ins : Ports) : Prop :=
  ∀ t is, List.Forall₂ InPort pp t → (∀ i ∈ is, List.Forall₂ InPort ins i) →
    ∃ r, trace concrete m t is = .ok r ∧ ∀ b ∈ r.2, b = true

/-- Induction in simulation: the first `k` cycles from reset are good; reset and every cycle, from any state, give a
state of the declared classes; and after `k` good cycles from any state there is another one. -/
structure SimInduction (m : SeqCircuit) (pp st : Ports) (ins : Nat → Ports) (k : Nat) : Prop where
  base : SimHolds m pp ((List.range k).map ins)
  first : ∀ t, List.Forall₂ InPort pp t → ∃ s, start concrete m t = .ok s ∧ List.Forall₂ InPort st s
  next : ∀ s i, List.Forall₂ InPort st s → List.Forall₂ InPort (ins 0) i →
    ∃ r, cycle concrete m s i = .ok r ∧ List.Forall₂ InPort st r.1
  step : ∀ s is, List.Forall₂ InPort st s → List.Forall₂ (List.Forall₂ InPort) ((List.range (k + 1)).map ins) is →
    ∃ r, unroll concrete m s is = .ok r ∧
      ((∀ j b, j < k → r.2[j]? = some b → b = true) → ∀ b, r.2[k]? = some b → b = true)

section
variable (F : Family) {Env : Type} (true_ : Env → F.B → Prop) (inp : List Char × Port → Reg F.V F.B)
  (declared : List Char × Port → Reg F.V F.B → Prop) (m : SeqCircuit)

/-- The circuit unrolled over variables: the solver proves all the bits asserted. -/
def Holds (pp : Ports) (iss : List Ports) : Prop :=
  ∃ r, trace F m (pp.map inp) (iss.map (·.map inp)) = .ok r ∧ ∀ e, ∀ b ∈ r.2, true_ e b

/-- Induction with window `k`, checked with the solver. -/
structure Induction (pp st : Ports) (ins : Nat → Ports) (k : Nat) : Prop where
  /-- the bits asserted in the first `k` cycles after reset hold -/
  base : Holds F true_ inp m pp ((List.range k).map ins)
  /-- the initial state is of the declared classes -/
  first : ∃ s, start F m (pp.map inp) = .ok s ∧ List.Forall₂ declared st s
  /-- the next state is of the declared classes -/
  next : ∃ r, cycle F m (st.map inp) ((ins 0).map inp) = .ok r ∧ List.Forall₂ declared st r.1
  /-- in `k + 1` cycles from any state: if the first `k` bits hold then the last does -/
  step : ∃ r, unroll F m (st.map inp) ((List.range (k + 1)).map fun j => (ins j).map inp) = .ok r ∧
    ∀ e, (∀ j b, j < k → r.2[j]? = some b → true_ e b) → ∀ b, r.2[k]? = some b → true_ e b
end

/-- `type(x)` is the declared class: `isinstance(x, SMTBitVector[n])`, ... -/
def smtDeclared : List Char × Port → Reg Smt.SBV Smt.Term → Prop
  | (_, .vec r n), .vec x => x.kind = .root r ∧ x.size = n
  | (_, .bit), .bit _ => True
  | _, _ => False
def z3Declared : List Char × Port → Reg Z3.ZBV Z3.BoolE → Prop
  | (_, .vec r n), .vec x => x.root = r ∧ x.size = n
  | (_, .bit), .bit _ => True
  | _, _ => False

/-- With pysmt: the formula is valid. -/
abbrev SmtHolds (S : Smt.Simplifier) : SeqCircuit → Ports → List Ports → Prop :=
  Holds (smt S) (fun (e : Smt.Env) (b : Smt.Term) => b.eval e = some (.bool true)) smtIn
abbrev SmtInduction (S : Smt.Simplifier) : SeqCircuit → Ports → Ports → (Nat → Ports) → Nat → Prop :=
  Induction (smt S) (fun (e : Smt.Env) (b : Smt.Term) => b.eval e = some (.bool true)) smtIn smtDeclared

/-- With z3. -/
abbrev Z3Holds : SeqCircuit → Ports → List Ports → Prop :=
  Holds z3 (fun (e : Z3.Env) (b : Z3.BoolE) => b e = true) z3In
abbrev Z3Induction : SeqCircuit → Ports → Ports → (Nat → Ports) → Nat → Prop :=
  Induction z3 (fun (e : Z3.Env) (b : Z3.BoolE) => b e = true) z3In z3Declared

end HW.Circuit
