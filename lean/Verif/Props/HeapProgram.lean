import Verif.Lemmas.HeapProgram
import Verif.Props.CircuitHeap
import Verif.Props.PyProgram

/-!
# Property C137: Python functions that assign to bits
-/

namespace HW
open Spec Circuit

namespace Circuit

/-- The states in which the turns of a loop start. -/
inductive TurnAt {S σ β : Type} (body : σ → S → Option (S × PyM (σ ⊕ β))) (a : σ) (s : S) : σ → S → Prop
  | first : TurnAt body a s a s
  | next {a1 s1 a2 s2} : TurnAt body a s a1 s1 → body a1 s1 = some (s2, .ok (.inl a2)) → TurnAt body a s a2 s2

/-- The simulation, run from `t` with at most `n` turns per loop, never takes a remainder by zero. -/
def HProg.Clean (n : Nat) : {α : Type} → HProg α → HStore concreteH → Prop
  | _, .ret _, _ => True
  | _, .op i k, t => (∀ j, i = .op j → RemOk (deref t) j) ∧ ∀ t', hstep concreteH remSelf t i = .ok t' → k.Clean n t'
  | _, .ask q k, t => ∀ a, query concreteH cTruthH t q = .ok a → (k a).Clean n t
  | _, .raise _, _ => True
  | _, .tryElse body h k, t => body.Clean n t ∧
      (∀ t' b, hexec concreteH remSelf cTruthH n body t = some (t', .ok b) → (k b).Clean n t') ∧
      ∀ t' e, hexec concreteH remSelf cTruthH n body t = some (t', .error e) → (h e).Clean n t'
  | _, .loop a body k, t =>
      (∀ a' t', TurnAt (fun a t => hexec concreteH remSelf cTruthH n (body a) t) a t a' t' → (body a').Clean n t') ∧
      ∀ t' b, hturns concreteH (fun a t => hexec concreteH remSelf cTruthH n (body a) t) n a t = some (t', .ok b) → (k b).Clean n t'

theorem hturns_congr {F : HFamily} {σ β : Type} {f g : σ → HStore F → Option (HStore F × PyM (σ ⊕ β))} (n : Nat) (a : σ)
    (s : HStore F) (h : ∀ a' s', TurnAt f a s a' s' → f a' s' = g a' s') : hturns F f n a s = hturns F g n a s := by
  have key : ∀ n a' s', TurnAt f a s a' s' → hturns F f n a' s' = hturns F g n a' s' := by
    intro n
    induction n with
    | zero => intro a' s' _; rfl
    | succ n ih =>
      intro a' s' ht
      unfold hturns
      rw [← h a' s' ht]
      match hf : f a' s' with
      | none => rfl
      | some (s', .error e) => rfl
      | some (s', .ok (.inl a')) => exact ih _ _ (.next ht hf)
      | some (s', .ok (.inr b)) => rfl
  exact key n a s .first

/-- Without remainders by zero the simulation creates new objects only. -/
theorem hexec_copy (n : Nat) {α : Type} (p : HProg α) : ∀ t : HStore concreteH, p.Clean n t →
    hexec concreteH remSelf cTruthH n p t = hexec concreteH (fresh concreteH) cTruthH n p t := by
  induction p with
  | ret => intro t _; rfl
  | raise => intro t _; rfl
  | op i k ih =>
    intro t h
    unfold hexec
    rw [← hstep_copy h.1]
    match hs : hstep concreteH remSelf t i with
    | .ok t' => exact ih t' (h.2 t' hs)
    | .error e => rfl
  | ask q k ih =>
    intro t h
    unfold hexec
    match hs : query concreteH cTruthH t q with
    | .ok a => exact ih a t (h a hs)
    | .error e => rfl
  | tryElse body hd k ihb ihh ihk =>
    intro t h
    unfold hexec
    rw [← ihb t h.1]
    match hs : hexec concreteH remSelf cTruthH n body t with
    | none => rfl
    | some (t', .ok b) => exact ihk b t' (h.2.1 t' b hs)
    | some (t', .error e) => exact ihh e t' (h.2.2 t' e hs)
  | loop a body k ihb ihk =>
    intro t h
    unfold hexec
    rw [← hturns_congr n a t fun a' t' ht => ihb a' t' (h.1 a' t' ht)]
    match hs : hturns concreteH (fun a t => hexec concreteH remSelf cTruthH n (body a) t) n a t with
    | none => rfl
    | some (t', .ok b) => exact ihk b t' (h.2 t' b hs)
    | some (t', .error e) => rfl

theorem HRelO.ends_left {F G : HFamily} {E : PyErr → PyErr → Prop} {RV : F.V → G.V → Prop} {RB : F.B → G.B → Prop} {α : Type}
    {m : Option (HStore F × PyM α)} {M : Option (HStore G × PyM α)} (h : HRelO E RV RB m M) {s : HStore F} {r : PyM α}
    (hm : m = some (s, r)) : ∃ t q, M = some (t, q) ∧ List.Forall₂ (RegRel (ObjRel RV) RB) s t ∧ RelP E (· = ·) r q := by
  subst hm
  cases M with
  | none => exact h.elim
  | some M => exact ⟨M.1, M.2, rfl, h.1, h.2⟩

theorem HRelO.ends_right {F G : HFamily} {E : PyErr → PyErr → Prop} {RV : F.V → G.V → Prop} {RB : F.B → G.B → Prop} {α : Type}
    {m : Option (HStore F × PyM α)} {M : Option (HStore G × PyM α)} (h : HRelO E RV RB m M) {t : HStore G} {q : PyM α}
    (hM : M = some (t, q)) : ∃ s r, m = some (s, r) ∧ List.Forall₂ (RegRel (ObjRel RV) RB) s t ∧ RelP E (· = ·) r q := by
  subst hM
  cases m with
  | none => exact h.elim
  | some m => exact ⟨m.1, m.2, rfl, h.1, h.2⟩

theorem HProg.respects_eq {α : Type} (p : HProg α) : p.Respects (· = ·) := by
  induction p with
  | ret => trivial
  | raise => trivial
  | op _ _ ih => exact ih
  | ask _ _ ih => exact ih
  | tryElse _ _ _ h1 h2 h3 => exact ⟨h1, h2, h3, fun _ _ h => .inl (by rw [h])⟩
  | loop _ _ _ h1 h2 => exact ⟨h1, h2⟩

end Circuit

/-- **C137** (`is`).  `x is y` tells whether an assignment `x[i] = v` is seen under the name `y`. -/
theorem C137_is {F : HFamily} {al : Alias F} {T : Truth F.toFamily} {s s' : HStore F} {x y : Nat} {i : Int} {v : Arg} {b : Bool}
    (hq : query F T s (.ident x y) = .ok b) (hs : hstep F al s (.set x i v) = .ok s') :
    (deref s')[y]? = if b then (deref s')[x]? else (deref s)[y]? := by
  simp only [query, readObj, hstep] at hq hs
  cases hv : readArg F.toFamily (deref s) v with
  | error => rw [hv] at hs; cases hs
  | ok v' =>
    simp only [hv, bind, Except.bind] at hs
    cases hx : s[x]? with
    | none => rw [hx] at hs; cases hs
    | some r => cases r with
      | bit => rw [hx] at hs; cases hs
      | vec p =>
        rw [hx] at hs hq
        cases hy : s[y]? with
        | none => rw [hy] at hq; cases hq
        | some r => cases r with
          | bit => rw [hy] at hq; cases hq
          | vec q =>
            rw [hy] at hq
            have hb : decide (p.1 = q.1) = b := by injection hq
            dsimp only at hs
            cases hw : F.setitem p.2 i v' with
            | error => rw [hw] at hs; cases hs
            | ok w =>
              simp only [hw] at hs
              have hs : s.map (HReg.assign p.1 w) = s' := by injection hs
              subst hs; subst hb
              simp only [deref, List.getElem?_map, hx, hy, Option.map_some, HReg.assign, HReg.val]
              by_cases h : q.1 = p.1
              · simp [h]
              · simp [h, Ne.symm h]

/-- **C137** (pysmt, partial).  A Python function that assigns to bits and tests none, run with `SMTBitVector`, ends
exactly when the simulation does, with the same Python value or exception; the same names are names of one object, and
the objects stand for those of the simulation.  Missing: the simulation must take no remainder by zero, which would
return the operand itself. -/
theorem C137_smt_partial (S : Smt.Simplifier) (e : Smt.Env) {α : Type} {p : HProg α} (hp : p.NoTest) {s : HStore (smtH S)}
    {t : HStore concreteH} (h : List.Forall₂ (RegRel (ObjRel (SVec e)) (Smt.DenBit e)) s t) (hc : ∀ n, p.Clean n t) :
    (∀ s' r, HEnds (smtH S) (fresh _) (sTruthH S) p s s' r → ∃ t', HEnds concreteH remSelf cTruthH p t t' r ∧
      List.Forall₂ (RegRel (ObjRel (SVec e)) (Smt.DenBit e)) s' t') ∧
    (∀ t' r, HEnds concreteH remSelf cTruthH p t t' r → ∃ s', HEnds (smtH S) (fresh _) (sTruthH S) p s s' r ∧
      List.Forall₂ (RegRel (ObjRel (SVec e)) (Smt.DenBit e)) s' t') := by
  constructor
  · rintro s' r ⟨n, hn⟩
    obtain ⟨t', q, h1, h2, h3⟩ := ((smt_hsim e S).hexec_rel (sTruthH S) cTruthH n p hp p.respects_eq h).ends_left hn
    exact ⟨t', ⟨n, (hexec_copy n p t (hc n)).trans (relP_eq h3 ▸ h1)⟩, h2⟩
  · rintro t' r ⟨n, hn⟩
    obtain ⟨s', q, h1, h2, h3⟩ := ((smt_hsim e S).hexec_rel (sTruthH S) cTruthH n p hp p.respects_eq h).ends_right
      ((hexec_copy n p t (hc n)).symm.trans hn)
    exact ⟨s', ⟨n, relP_eq h3 ▸ h1⟩, h2⟩

/-- **C137** (z3, partial), for functions whose handlers do not tell `InconsistentSizeError` from `TypeError`. -/
theorem C137_z3_partial (e : Z3.Env) {α : Type} {p : HProg α} (hp : p.NoTest) (hr : p.Respects ZErr) {s : HStore z3H}
    {t : HStore concreteH} (h : List.Forall₂ (RegRel (ObjRel (Z3.Den e)) (Z3.DenBit e)) s t) (hc : ∀ n, p.Clean n t) :
    (∀ s' r, HEnds z3H (fresh _) zTruthH p s s' r → ∃ t' q, HEnds concreteH remSelf cTruthH p t t' q ∧
      RelP ZErr (· = ·) r q ∧ List.Forall₂ (RegRel (ObjRel (Z3.Den e)) (Z3.DenBit e)) s' t') ∧
    (∀ t' q, HEnds concreteH remSelf cTruthH p t t' q → ∃ s' r, HEnds z3H (fresh _) zTruthH p s s' r ∧
      RelP ZErr (· = ·) r q ∧ List.Forall₂ (RegRel (ObjRel (Z3.Den e)) (Z3.DenBit e)) s' t') := by
  constructor
  · rintro s' r ⟨n, hn⟩
    obtain ⟨t', q, h1, h2, h3⟩ := ((z3_hsim e).hexec_rel zTruthH cTruthH n p hp hr h).ends_left hn
    exact ⟨t', q, ⟨n, (hexec_copy n p t (hc n)).trans h1⟩, h3, h2⟩
  · rintro t' r ⟨n, hn⟩
    obtain ⟨s', q, h1, h2, h3⟩ := ((z3_hsim e).hexec_rel zTruthH cTruthH n p hp hr h).ends_right
      ((hexec_copy n p t (hc n)).symm.trans hn)
    exact ⟨s', q, ⟨n, h1⟩, h3, h2⟩

/-- Functions without `bvurem` and `%` take no remainder by zero. -/
theorem C137_no_remainder {α : Type} (p : HProg α) (hp : p.NoRem) (n : Nat) : ∀ t, p.Clean n t := by
  induction p with
  | ret => intro t; trivial
  | raise => intro t; trivial
  | op i k ih =>
    intro t
    refine ⟨?_, fun t' _ => ih hp.2 t'⟩
    rintro j rfl x y a b (rfl | rfl)
    · exact absurd rfl (hp.1 x y).1
    · exact absurd rfl (hp.1 x y).2
  | ask q k ih => intro t a _; exact ih a (hp a) t
  | tryElse body h k ihb ihh ihk => intro t; exact ⟨ihb hp.1 t, fun t' b _ => ihk b (hp.2.2 b) t', fun t' e _ => ihh e (hp.2.1 e) t'⟩
  | loop a body k ihb ihk => intro t; exact ⟨fun a' t' _ => ihb a' (hp.1 a') t', fun t' b _ => ihk b (hp.2 b) t'⟩

namespace Circuit

/-- In simulation, the function returns the name of a true bit for all inputs. -/
def HProgTrue (ps : List (List Char × Port)) (p : HProg Nat) : Prop :=
  ∀ t, List.Forall₂ InPort ps t → ∃ (u : HStore concreteH) (o : Nat), HEnds concreteH remSelf cTruthH p (tag 0 t) u (.ok o) ∧
    u[o]? = some (.bit true)

/-- The same if `bvurem` never returned its operand. -/
def HProgCopy (ps : List (List Char × Port)) (p : HProg Nat) : Prop :=
  ∀ t, List.Forall₂ InPort ps t → ∃ (u : HStore concreteH) (o : Nat),
    HEnds concreteH (fresh concreteH) cTruthH p (tag 0 t) u (.ok o) ∧ u[o]? = some (.bit true)

/-- The solver proves the bit the function returns over free variables. -/
def HProgSmt (S : Smt.Simplifier) (ps : List (List Char × Port)) (p : HProg Nat) : Prop :=
  ∃ (u : HStore (smtH S)) (o : Nat) (b : Smt.Term), HEnds (smtH S) (fresh _) (sTruthH S) p (tag 0 (ps.map smtIn)) u (.ok o) ∧
    u[o]? = some (.bit b) ∧ ∀ e, b.eval e = some (.bool true)

def HProgZ3 (ps : List (List Char × Port)) (p : HProg Nat) : Prop :=
  ∃ (u : HStore z3H) (o : Nat) (b : Z3.BoolE), HEnds z3H (fresh _) zTruthH p (tag 0 (ps.map z3In)) u (.ok o) ∧
    u[o]? = some (.bit b) ∧ ∀ e, b e = true

theorem smt_hcopy (S : Smt.Simplifier) {ps : List (List Char × Port)} (hps : PortsOk ps) {p : HProg Nat} (hp : p.NoTest) :
    HProgSmt S ps p ↔ HProgCopy ps p := by
  have key : ∀ (e : Smt.Env) t, List.Forall₂ (Reads e.bool e.bv) ps t → ∀ n,
      HRelO (F := smtH S) (G := concreteH) (· = ·) (SVec e) (Smt.DenBit e) (hexec (smtH S) (fresh _) (sTruthH S) n p (tag 0 (ps.map smtIn)))
        (hexec concreteH (fresh _) cTruthH n p (tag 0 t)) := fun e t h n =>
    (smt_hsim e S).hexec_rel _ _ n p hp p.respects_eq (tag_rel (reads_smt e.int h hps.2) 0)
  constructor
  · rintro ⟨u, o, b, ⟨n, hu⟩, hb, hv⟩ t ht
    obtain ⟨f, g, h⟩ := exists_values ht hps.1
    obtain ⟨w, q, hw, hk, hq⟩ := (key ⟨f, fun _ => 0, g⟩ t h n).ends_left hu
    obtain ⟨c, h1, h2⟩ := (hgetElem?_rel hk o).1 b hb
    have h2 := (hv _).symm.trans h2
    injection h2 with h2
    injection h2 with h2
    exact ⟨w, o, ⟨n, relP_eq hq ▸ hw⟩, h2 ▸ h1⟩
  · intro hs
    have at_ : ∀ e : Smt.Env, ∃ (u : HStore (smtH S)) (o : Nat) (b : Smt.Term),
        HEnds (smtH S) (fresh _) (sTruthH S) p (tag 0 (ps.map smtIn)) u (.ok o) ∧ u[o]? = some (.bit b) ∧
        b.eval e = some (.bool true) := by
      intro e
      have hr := readBack_reads e.bool e.bv ps
      obtain ⟨w, o, ⟨n, hw⟩, ho⟩ := hs _ (reads_in hr)
      obtain ⟨u, q, hu, hk, hq⟩ := (key e _ hr n).ends_right hw
      obtain ⟨b, h1, h2⟩ := (hgetElem?_rel hk o).2 _ ho
      exact ⟨u, o, b, ⟨n, relP_eq hq ▸ hu⟩, h1, h2⟩
    obtain ⟨u, o, b, hu, hb, -⟩ := at_ ⟨fun _ => false, fun _ => 0, fun _ _ => 0⟩
    refine ⟨u, o, b, hu, hb, fun e => ?_⟩
    obtain ⟨u', o', b', hu', hb', h⟩ := at_ e
    obtain ⟨rfl, ho⟩ := hu.unique hu'
    cases ho
    cases hb.symm.trans hb'
    exact h

theorem z3_hcopy {ps : List (List Char × Port)} (hps : PortsOk ps) {p : HProg Nat} (hp : p.NoTest) (hr : p.Respects ZErr) :
    HProgZ3 ps p ↔ HProgCopy ps p := by
  have key : ∀ (e : Z3.Env) t, List.Forall₂ (Reads e.bool e.bv) ps t → ∀ n,
      HRelO (F := z3H) (G := concreteH) ZErr (Z3.Den e) (Z3.DenBit e) (hexec z3H (fresh _) zTruthH n p (tag 0 (ps.map z3In)))
        (hexec concreteH (fresh _) cTruthH n p (tag 0 t)) := fun e t h n =>
    (z3_hsim e).hexec_rel _ _ n p hp hr (tag_rel (reads_z3 h hps.2) 0)
  constructor
  · rintro ⟨u, o, b, ⟨n, hu⟩, hb, hv⟩ t ht
    obtain ⟨f, g, h⟩ := exists_values ht hps.1
    obtain ⟨w, q, hw, hk, hq⟩ := (key ⟨f, g⟩ t h n).ends_left hu
    obtain ⟨o', rfl, rfl⟩ := RelP.ok_left hq rfl
    obtain ⟨c, h1, h2⟩ := (hgetElem?_rel hk o).1 b hb
    have h2 := (hv _).symm.trans h2
    exact ⟨w, o, ⟨n, hw⟩, h2 ▸ h1⟩
  · intro hs
    have at_ : ∀ e : Z3.Env, ∃ (u : HStore z3H) (o : Nat) (b : Z3.BoolE),
        HEnds z3H (fresh _) zTruthH p (tag 0 (ps.map z3In)) u (.ok o) ∧ u[o]? = some (.bit b) ∧ b e = true := by
      intro e
      have hd := readBack_reads e.bool e.bv ps
      obtain ⟨w, o, ⟨n, hw⟩, ho⟩ := hs _ (reads_in hd)
      obtain ⟨u, q, hu, hk, hq⟩ := (key e _ hd n).ends_right hw
      obtain ⟨o', rfl, rfl⟩ := RelP.ok_right hq rfl
      obtain ⟨b, h1, h2⟩ := (hgetElem?_rel hk _).2 _ ho
      exact ⟨u, _, b, ⟨n, hu⟩, h1, h2⟩
    obtain ⟨u, o, b, hu, hb, -⟩ := at_ ⟨fun _ => false, fun _ _ => 0⟩
    refine ⟨u, o, b, hu, hb, fun e => ?_⟩
    obtain ⟨u', o', b', hu', hb', h⟩ := at_ e
    obtain ⟨rfl, ho⟩ := hu.unique hu'
    cases ho
    cases hb.symm.trans hb'
    exact h

end Circuit

/-- **C137** (verdict, partial).  A solver proves the bit a function returns exactly when simulation gives true for all
inputs, if no simulation takes a remainder by zero. -/
theorem C137_verdict_partial {ps : List (List Char × Port)} (hps : PortsOk ps) {p : HProg Nat} (hp : p.NoTest)
    (hc : ∀ t n, List.Forall₂ InPort ps t → p.Clean n (tag 0 t)) :
    (∀ S : Smt.Simplifier, HProgSmt S ps p ↔ HProgTrue ps p) ∧ (p.Respects ZErr → (HProgZ3 ps p ↔ HProgTrue ps p)) := by
  have hcopy : HProgCopy ps p ↔ HProgTrue ps p := by
    refine forall_congr' fun t => forall_congr' fun ht => ?_
    constructor
    · rintro ⟨u, o, ⟨n, hu⟩, ho⟩; exact ⟨u, o, ⟨n, (hexec_copy n p _ (hc t n ht)).trans hu⟩, ho⟩
    · rintro ⟨u, o, ⟨n, hu⟩, ho⟩; exact ⟨u, o, ⟨n, (hexec_copy n p _ (hc t n ht)).symm.trans hu⟩, ho⟩
  exact ⟨fun S => (smt_hcopy S hps hp).trans hcopy, fun hr => (z3_hcopy hps hp hr).trans hcopy⟩

/-- The two solvers give one verdict, with remainders by zero as well. -/
theorem C137_same_verdict (S : Smt.Simplifier) {ps : List (List Char × Port)} (hps : PortsOk ps) {p : HProg Nat} (hp : p.NoTest)
    (hr : p.Respects ZErr) : HProgSmt S ps p ↔ HProgZ3 ps p := (smt_hcopy S hps hp).trans (z3_hcopy hps hp hr).symm

/-- **C137** (what a function can learn, partial).  In simulation too the outcome of a function that tests no bit,
including what it learns from `is`, depends on the classes and widths of its arguments only, if it takes no remainder by
zero. -/
theorem C137_values_unseen_partial {α : Type} {p : HProg α} (hp : p.NoTest) {t u : List (Circuit.Reg BVal Bool)}
    (ht : ∀ r ∈ t, GoodReg r) (hu : ∀ r ∈ u, GoodReg r) (htu : List.Forall₂ SameType t u)
    (hct : ∀ n, p.Clean n (tag 0 t)) (hcu : ∀ n, p.Clean n (tag 0 u))
    {t' : HStore concreteH} {r : PyM α} (h : HEnds concreteH remSelf cTruthH p (tag 0 t) t' r) :
    ∃ u' : HStore concreteH, HEnds concreteH remSelf cTruthH p (tag 0 u) u' r ∧ List.Forall₂ SameType (deref t') (deref u') := by
  obtain ⟨f, g, h1⟩ := exists_values (portsOf_in 0 (sameType_refl t) ht) (portsOf_names 0 t).1
  obtain ⟨f', g', h2⟩ := exists_values (portsOf_in 0 htu hu) (portsOf_names 0 t).1
  have r1 := tag_rel (reads_smt (fun _ => 0) h1 (portsOf_pos 0 ht)) 0
  have r2 := tag_rel (reads_smt (fun _ => 0) h2 (portsOf_pos 0 ht)) 0
  obtain ⟨s', e1, e2⟩ := (C137_smt_partial ⟨id, fun _ _ h => h, fun _ _ _ h => h⟩ _ hp r1 hct).2 t' r h
  obtain ⟨u', e3, e4⟩ := (C137_smt_partial ⟨id, fun _ _ h => h, fun _ _ _ h => h⟩ _ hp r2 hcu).1 s' r e1
  exact ⟨u', e3, same_of_smt (deref_rel e2) (deref_rel e4)⟩

/-- `y = x.bvurem(d); return y is x` -/
def Circuit.probe : HProg Bool := .op (.op (.bin .urem 0 (.reg 1))) <| .ask (.ident 0 2) .ret

/-- The condition on remainders is needed: this function tells a zero divisor from others without testing any bit, in
simulation; with both solvers it returns `False`. -/
theorem C137_refuted : probe.NoTest ∧
    (∃ u, HEnds concreteH remSelf cTruthH probe (tag 0 [.vec ⟨.root .bv, 4, 5⟩, .vec ⟨.root .bv, 4, 0⟩]) u (.ok true)) ∧
    (∃ u, HEnds concreteH remSelf cTruthH probe (tag 0 [.vec ⟨.root .bv, 4, 5⟩, .vec ⟨.root .bv, 4, 3⟩]) u (.ok false)) ∧
    (∀ S, ∃ u, HEnds (smtH S) (fresh _) (sTruthH S) probe
      (tag 0 [.vec ⟨.root .bv, 4, .sym ['x'] (.bv 4)⟩, .vec ⟨.root .bv, 4, .sym ['d'] (.bv 4)⟩]) u (.ok false)) ∧
    ∃ u, HEnds z3H (fresh _) zTruthH probe (tag 0 [.vec ⟨.bv, 4, ⟨4, fun e => e.bv ['x'] 4⟩⟩,
      .vec ⟨.bv, 4, ⟨4, fun e => e.bv ['d'] 4⟩⟩]) u (.ok false) :=
  ⟨⟨trivial, fun _ => trivial⟩, ⟨_, 0, rfl⟩, ⟨_, 0, rfl⟩, fun _ => ⟨_, 0, rfl⟩, ⟨_, 0, rfl⟩⟩

/-! ### Examples -/

namespace Circuit

/-- Reverses `x` in place: `y = x | 0`, `n = len(x)`, `for i in range(n): x[i] = y[n - 1 - i]`; then `return x is z`. -/
def reverse (x z : Nat) : HProg Bool :=
  .ask .next fun (y : Nat) => .op (.op (.bin .or x (.int 0))) <| .ask (.len x) fun (n : Nat) => .loop 0
    (fun (i : Nat) => if i < n then .ask .next fun (b : Nat) => .op (.op (.index y (n - 1 - i))) <| .op (.set x i (.reg b)) <| .ret (.inl (i + 1))
      else .ret (.inr ()))
    fun (_ : Unit) => .ask (.ident x z) .ret

theorem reverse_noTest (x z : Nat) : (reverse x z).NoTest := by
  refine ⟨trivial, fun y => ⟨trivial, fun n => ⟨fun i => ?_, fun _ => ⟨trivial, fun _ => trivial⟩⟩⟩⟩
  dsimp only
  split
  · exact ⟨trivial, fun _ => trivial⟩
  · trivial

theorem reverse_noRem (x z : Nat) : (reverse x z).NoRem := by
  refine fun y => ⟨fun _ _ => ⟨nofun, nofun⟩, fun n => ⟨fun i => ?_, fun _ _ => trivial⟩⟩
  dsimp only
  split
  · exact fun b => ⟨fun _ _ => ⟨nofun, nofun⟩, fun _ _ => ⟨nofun, nofun⟩, trivial⟩
  · trivial

theorem reverse_respects (x z : Nat) : (reverse x z).Respects ZErr := by
  refine fun y n => ⟨fun i => ?_, fun _ _ => trivial⟩
  dsimp only
  split
  · exact fun _ => trivial
  · trivial

example : ∃ s' : HStore concreteH, query concreteH cTruthH
      [.vec (0, ⟨.root .bv, 4, 13⟩), .vec (0, ⟨.root .bv, 4, 13⟩), .vec (2, ⟨.root .bv, 4, 13⟩)] (.ident 0 1) = .ok true ∧
    hstep concreteH remSelf [.vec (0, ⟨.root .bv, 4, 13⟩), .vec (0, ⟨.root .bv, 4, 13⟩), .vec (2, ⟨.root .bv, 4, 13⟩)]
      (.set 0 0 (.int 0)) = .ok s' ∧ s'[1]? = some (.vec (0, ⟨.root .bv, 4, 12⟩)) := ⟨_, rfl, rfl, rfl⟩

/-- `0b1101` becomes `0b1011` under both names of the object. -/
example : ∃ u : HStore concreteH, HEnds concreteH remSelf cTruthH (reverse 0 1)
    [.vec (0, ⟨.root .bv, 4, 13⟩), .vec (0, ⟨.root .bv, 4, 13⟩)] u (.ok true) ∧
    u[0]? = some (.vec (0, ⟨.root .bv, 4, 11⟩)) ∧ u[1]? = some (.vec (0, ⟨.root .bv, 4, 11⟩)) := ⟨_, ⟨5, rfl⟩, rfl, rfl⟩

example (S : Smt.Simplifier) (e : Smt.Env) := C137_smt_partial S e (reverse_noTest 0 1) (tag_rel (symRel e) 0)
  fun n => C137_no_remainder _ (reverse_noRem 0 1) n _
example (e : Z3.Env) := C137_z3_partial e (reverse_noTest 0 1) (reverse_respects 0 1) (tag_rel (symRelZ e) 0)
  fun n => C137_no_remainder _ (reverse_noRem 0 1) n _

/-- `y = x | 0; y[0] = 1; return y[0]` -/
def setFirst : HProg Nat := .op (.op (.bin .or 0 (.int 0))) <| .op (.set 1 0 (.int 1)) <| .op (.op (.index 1 0)) <| .ret 2

theorem setFirst_noTest : setFirst.NoTest := trivial
theorem setFirst_noRem : setFirst.NoRem := ⟨fun _ _ => ⟨nofun, nofun⟩, fun _ _ => ⟨nofun, nofun⟩, fun _ _ => ⟨nofun, nofun⟩, trivial⟩

example := C137_verdict_partial (ps := [(['x'], .vec .bv 4)]) ⟨by decide, by intro q r n h; simp at h; omega⟩ setFirst_noTest
  fun t n _ => C137_no_remainder _ setFirst_noRem n _
example (S : Smt.Simplifier) := C137_same_verdict S (ps := [(['x'], .vec .bv 4)]) ⟨by decide, by intro q r n h; simp at h; omega⟩
  setFirst_noTest trivial
/-- The answer of `reverse` for 13 is its answer for every vector of four bits. -/
example (v : Int) (h0 : 0 ≤ v) (h1 : v < 16) : ∃ u' : HStore concreteH,
    HEnds concreteH remSelf cTruthH (reverse 0 0) (tag 0 [.vec ⟨.root .bv, 4, v⟩]) u' (.ok true) := by
  have hw : (⟨.root .bv, 4, v⟩ : BVal).WF := ⟨h0, h1⟩
  obtain ⟨u, h, -⟩ := C137_values_unseen_partial (reverse_noTest 0 0) (t := [.vec ⟨.root .bv, 4, 13⟩]) (u := [.vec ⟨.root .bv, 4, v⟩])
    (by intro r hr; cases List.mem_singleton.1 hr; exact ⟨by decide, ⟨_, rfl⟩, by decide⟩)
    (by intro r hr; cases List.mem_singleton.1 hr; exact ⟨hw, ⟨_, rfl⟩, Nat.zero_lt_succ 3⟩)
    (.cons (.vec ⟨rfl, rfl⟩) .nil) (fun n => C137_no_remainder _ (reverse_noRem 0 0) n _)
    (fun n => C137_no_remainder _ (reverse_noRem 0 0) n _) ⟨5, rfl⟩
  exact ⟨u, h⟩

end Circuit

end HW
