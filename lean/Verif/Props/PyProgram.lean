import Verif.Lemmas.PyProgram
import Verif.Props.Circuit
import Verif.Props.BitVector

/-!
# Properties C134 and C135: Python programs over the three families
-/

namespace HW
open Spec Circuit

namespace Circuit

theorem Prog.respects_eq {α : Type} (p : Prog α) : p.Respects (· = ·) := by
  induction p with
  | ret => trivial
  | raise => trivial
  | op _ _ ih => exact ih
  | next _ ih => exact ih
  | len _ _ ih => exact ih
  | same _ _ _ ih => exact ih
  | signed _ _ ih => exact ih
  | isBit _ _ ih => exact ih
  | test _ _ ih => exact ih
  | testV _ _ ih => exact ih
  | tryElse _ _ _ h1 h2 h3 => exact ⟨h1, h2, h3, fun _ _ h => .inl (by rw [h])⟩
  | loop _ _ _ h1 h2 => exact ⟨h1, h2⟩

theorem RelO.ends_left {F G : Family} {E : PyErr → PyErr → Prop} {RV : F.V → G.V → Prop} {RB : F.B → G.B → Prop} {α : Type}
    {m : Option (Store F × PyM α)} {M : Option (Store G × PyM α)} (h : RelO E RV RB m M) {s : Store F} {r : PyM α}
    (hm : m = some (s, r)) : ∃ t q, M = some (t, q) ∧ List.Forall₂ (RegRel RV RB) s t ∧ RelP E (· = ·) r q := by
  subst hm
  cases M with
  | none => exact h.elim
  | some M => exact ⟨M.1, M.2, rfl, h.1, h.2⟩

theorem RelO.ends_right {F G : Family} {E : PyErr → PyErr → Prop} {RV : F.V → G.V → Prop} {RB : F.B → G.B → Prop} {α : Type}
    {m : Option (Store F × PyM α)} {M : Option (Store G × PyM α)} (h : RelO E RV RB m M) {t : Store G} {q : PyM α}
    (hM : M = some (t, q)) : ∃ s r, m = some (s, r) ∧ List.Forall₂ (RegRel RV RB) s t ∧ RelP E (· = ·) r q := by
  subst hM
  cases m with
  | none => exact h.elim
  | some m => exact ⟨m.1, m.2, rfl, h.1, h.2⟩

theorem relP_eq {α : Type} {r q : PyM α} (h : RelP (· = ·) (· = ·) r q) : r = q := by
  cases r <;> cases q
  · exact congrArg _ h
  · exact h.elim
  · exact h.elim
  · exact congrArg _ h

end Circuit

/-- **C134** (kinds).  In every family `isinstance(x, Bit)` holds of the names that hold a bit, and fails of those that hold
a vector. -/
theorem C134_isBit (F : Family) (T : Truth F) (s : Store F) (x : Nat) :
    (Ends F T (.isBit x .ret) s s (.ok true) ↔ ∃ b, s[x]? = some (.bit b)) ∧
    (Ends F T (.isBit x .ret) s s (.ok false) ↔ ∃ v, s[x]? = some (.vec v)) := by
  unfold Ends
  simp only [exec, look, Circuit.read]
  match s[x]? with
  | none => simp
  | some (.bit b) => simp [regIsBit]
  | some (.vec v) => simp [regIsBit]

example : Ends concrete cTruth (.isBit 1 .ret) [.vec ⟨.root .uint, 1, 1⟩, .bit true] [.vec ⟨.root .uint, 1, 1⟩, .bit true]
    (.ok true) := (C134_isBit concrete cTruth _ 1).1.2 ⟨true, rfl⟩

/-- **C134** (pysmt).  A Python function that tests no bit, run with `SMTBitVector`, ends exactly when the simulation
does, with the same Python value or the same exception, and its vectors and bits stand for those of the simulation. -/
theorem C134_smt (S : Smt.Simplifier) (e : Smt.Env) {α : Type} {p : Prog α} (hp : p.NoTest) {s : Store (smt S)}
    {t : Store concrete} (h : List.Forall₂ (RegRel (SVec e) (Smt.DenBit e)) s t) :
    (∀ s' r, Ends (smt S) (sTruth S) p s s' r → ∃ t', Ends concrete cTruth p t t' r ∧
      List.Forall₂ (RegRel (SVec e) (Smt.DenBit e)) s' t') ∧
    (∀ t' r, Ends concrete cTruth p t t' r → ∃ s', Ends (smt S) (sTruth S) p s s' r ∧
      List.Forall₂ (RegRel (SVec e) (Smt.DenBit e)) s' t') := by
  constructor
  · rintro s' r ⟨n, hn⟩
    obtain ⟨t', q, h1, h2, h3⟩ := ((smt_sim e S).exec_rel (sTruth S) cTruth n p hp p.respects_eq h).ends_left hn
    exact ⟨t', ⟨n, relP_eq h3 ▸ h1⟩, h2⟩
  · rintro t' r ⟨n, hn⟩
    obtain ⟨s', q, h1, h2, h3⟩ := ((smt_sim e S).exec_rel (sTruth S) cTruth n p hp p.respects_eq h).ends_right hn
    exact ⟨s', ⟨n, relP_eq h3 ▸ h1⟩, h2⟩

/-- **C134** (z3), for functions whose handlers do not tell `InconsistentSizeError` from `TypeError`. -/
theorem C134_z3 (e : Z3.Env) {α : Type} {p : Prog α} (hp : p.NoTest) (hr : p.Respects ZErr) {s : Store z3}
    {t : Store concrete} (h : List.Forall₂ (RegRel (Z3.Den e) (Z3.DenBit e)) s t) :
    (∀ s' r, Ends z3 zTruth p s s' r → ∃ t' q, Ends concrete cTruth p t t' q ∧ RelP ZErr (· = ·) r q ∧
      List.Forall₂ (RegRel (Z3.Den e) (Z3.DenBit e)) s' t') ∧
    (∀ t' q, Ends concrete cTruth p t t' q → ∃ s' r, Ends z3 zTruth p s s' r ∧ RelP ZErr (· = ·) r q ∧
      List.Forall₂ (RegRel (Z3.Den e) (Z3.DenBit e)) s' t') := by
  constructor
  · rintro s' r ⟨n, hn⟩
    obtain ⟨t', q, h1, h2, h3⟩ := ((z3_sim e).exec_rel zTruth cTruth n p hp hr h).ends_left hn
    exact ⟨t', q, ⟨n, h1⟩, h3, h2⟩
  · rintro t' r ⟨n, hn⟩
    obtain ⟨s', q, h1, h2, h3⟩ := ((z3_sim e).exec_rel zTruth cTruth n p hp hr h).ends_right hn
    exact ⟨s', q, ⟨n, h1⟩, h3, h2⟩

/-- `try: x.bvadd(y)`, `except InconsistentSizeError: return 1`, `except TypeError: return 2`, `else: return 0` -/
def Circuit.sizeProbe : Prog Nat :=
  .tryElse (.op (.bin .add 0 (.reg 1)) (.ret ())) (fun e => match e with
    | .inconsistentSize => .ret 1
    | _ => .ret 2) fun _ => .ret 0

/-- The condition on the handlers is needed: this function returns 1 in simulation and 2 with z3. -/
theorem C134_z3_handlers_refuted (e : Z3.Env) : ∃ (s : Store z3) (t : Store concrete),
    List.Forall₂ (RegRel (Z3.Den e) (Z3.DenBit e)) s t ∧ sizeProbe.NoTest ∧
    Ends z3 zTruth sizeProbe s s (.ok 2) ∧ Ends concrete cTruth sizeProbe t t (.ok 1) := by
  refine ⟨[.vec ⟨.bv, 8, ⟨8, fun e => e.bv ['x'] 8⟩⟩, .vec ⟨.bv, 4, ⟨4, fun e => e.bv ['y'] 4⟩⟩],
    [.vec ⟨.root .bv, 8, (e.bv ['x'] 8).toNat⟩, .vec ⟨.root .bv, 4, (e.bv ['y'] 4).toNat⟩],
    .cons (.vec ⟨rfl, rfl, by decide, _, rfl, rfl⟩) (.cons (.vec ⟨rfl, rfl, by decide, _, rfl, rfl⟩) .nil),
    ⟨trivial, ?_, fun _ => trivial⟩, ⟨0, rfl⟩, ⟨0, rfl⟩⟩
  intro e
  cases e <;> exact trivial

/-! ### What a program can learn from its inputs -/

namespace Circuit

/-- A value of a predefined class of positive width, or a bit. -/
def GoodReg : Reg BVal Bool → Prop
  | .vec x => x.WF ∧ (∃ r, x.kind = .root r) ∧ 0 < x.size
  | .bit _ => True

/-- Two values of one class. -/
def SameType : Reg BVal Bool → Reg BVal Bool → Prop := RegRel (fun x y => x.kind = y.kind ∧ x.size = y.size) fun _ _ => True

def portOf : Reg BVal Bool → Port
  | .vec x => match x.kind with
    | .root r => .vec r x.size
    | .poly .. => .bit
  | .bit _ => .bit

/-- Names `a`, `aa`, ... -/
def portsOf : Nat → List (Reg BVal Bool) → List (List Char × Port)
  | _, [] => []
  | n, r :: t => (List.replicate n 'a', portOf r) :: portsOf (n + 1) t

theorem portsOf_names (n : Nat) (t : List (Reg BVal Bool)) :
    ((portsOf n t).map (·.1)).Nodup ∧ ∀ q ∈ (portsOf n t).map (·.1), n ≤ q.length := by
  induction t generalizing n with
  | nil => exact ⟨List.nodup_nil, by simp [portsOf]⟩
  | cons r t ih =>
    obtain ⟨h1, h2⟩ := ih (n + 1)
    simp only [portsOf, List.map_cons, List.nodup_cons, List.mem_cons, forall_eq_or_imp, List.length_replicate, le_refl,
      true_and]
    refine ⟨⟨fun hm => ?_, h1⟩, fun q hq => Nat.le_of_succ_le (h2 q hq)⟩
    have := h2 _ hm
    simp at this

theorem portsOf_pos (n : Nat) {t : List (Reg BVal Bool)} (ht : ∀ r ∈ t, GoodReg r) :
    ∀ q r m, (q, Port.vec r m) ∈ portsOf n t → 0 < m := by
  induction t generalizing n with
  | nil => intro q r m h; cases h
  | cons x t ih =>
    intro q r m h
    rcases List.mem_cons.1 h with h | h
    · have hx := ht x List.mem_cons_self
      cases x with
      | bit => cases h
      | vec x =>
        obtain ⟨-, ⟨k, hk⟩, hp⟩ := hx
        simp only [portOf, hk, Prod.mk.injEq, Port.vec.injEq] at h
        omega
    · exact ih (n + 1) (fun r hr => ht r (List.mem_cons_of_mem _ hr)) q r m h

theorem portsOf_in (n : Nat) {t u : List (Reg BVal Bool)} (htu : List.Forall₂ SameType t u) (hu : ∀ r ∈ u, GoodReg r) :
    List.Forall₂ InPort (portsOf n t) u := by
  induction htu generalizing n with
  | nil => exact .nil
  | @cons x y t u hxy _ ih =>
    refine .cons ?_ (ih (n + 1) fun r hr => hu r (List.mem_cons_of_mem _ hr))
    have hy := hu y List.mem_cons_self
    cases hxy with
    | bit => exact .bit
    | @vec x y h =>
      obtain ⟨hw, ⟨r, hr⟩, -⟩ := hy
      have hx : portOf (.vec x) = .vec r y.size := by
        simp only [portOf]
        rw [h.1, hr, h.2]
      rw [hx]
      obtain ⟨k, m, v⟩ := y
      dsimp only at hr
      subst hr
      exact .vec hw.1 hw.2

theorem sameType_refl (t : List (Reg BVal Bool)) : List.Forall₂ SameType t t := by
  induction t with
  | nil => exact .nil
  | cons x t ih =>
    refine .cons ?_ ih
    cases x with
    | vec => exact .vec ⟨rfl, rfl⟩
    | bit => exact .bit trivial

theorem same_of_smt {e e' : Smt.Env} {s : List (Reg Smt.SBV Smt.Term)} {t u : List (Reg BVal Bool)}
    (h1 : List.Forall₂ (RegRel (SVec e) (Smt.DenBit e)) s t) (h2 : List.Forall₂ (RegRel (SVec e') (Smt.DenBit e')) s u) :
    List.Forall₂ SameType t u := by
  induction h1 generalizing u with
  | nil => cases h2; exact .nil
  | cons hx _ ih =>
    cases h2 with
    | cons hy h2 =>
      refine .cons ?_ (ih h2)
      cases hx with
      | bit => cases hy; exact .bit trivial
      | vec hx => cases hy with
        | vec hy =>
          obtain ⟨r, hr⟩ := hx.2.1
          exact .vec ⟨(hx.kind hr).trans (hy.kind hr).symm, hx.1.2.1.trans hy.1.2.1.symm⟩

end Circuit

/-- **C134** (what a function can learn).  In simulation too, the outcome of a function that tests no bit depends on
the classes and widths of its arguments only: for other arguments of the same classes it ends as well, with the same
Python value or the same exception, and with vectors of the same classes.  In particular no method raises because of
the value of a vector. -/
theorem C134_values_unseen {α : Type} {p : Prog α} (hp : p.NoTest) {t u : Store concrete}
    (ht : ∀ r : Reg BVal Bool, r ∈ t → GoodReg r) (hu : ∀ r : Reg BVal Bool, r ∈ u → GoodReg r) (htu : List.Forall₂ SameType t u)
    {t' : Store concrete} {r : PyM α} (h : Ends concrete cTruth p t t' r) :
    ∃ u' : Store concrete, Ends concrete cTruth p u u' r ∧ List.Forall₂ SameType t' u' := by
  obtain ⟨f, g, h1⟩ := exists_values (portsOf_in 0 (sameType_refl t) ht) (portsOf_names 0 t).1
  obtain ⟨f', g', h2⟩ := exists_values (portsOf_in 0 htu hu) (portsOf_names 0 t).1
  have r1 := reads_smt (fun _ => 0) h1 (portsOf_pos 0 ht)
  have r2 := reads_smt (fun _ => 0) h2 (portsOf_pos 0 ht)
  obtain ⟨s', e1, e2⟩ := (C134_smt ⟨id, fun _ _ h => h, fun _ _ _ h => h⟩ _ hp r1).2 t' r h
  obtain ⟨u', e3, e4⟩ := (C134_smt ⟨id, fun _ _ h => h, fun _ _ _ h => h⟩ _ hp r2).1 s' r e1
  exact ⟨u', e3, same_of_smt e2 e4⟩

/-- In simulation, the function returns the name of a true bit for all inputs. -/
def Circuit.ProgTrue (ps : List (List Char × Port)) (p : Prog Nat) : Prop :=
  ∀ t : Store concrete, List.Forall₂ InPort ps t → ∃ (u : Store concrete) (o : Nat), Ends concrete cTruth p t u (.ok o) ∧
    u[o]? = some (.bit true)

/-- The solver proves the bit the function returns over free variables. -/
def Circuit.ProgSmt (S : Smt.Simplifier) (ps : List (List Char × Port)) (p : Prog Nat) : Prop :=
  ∃ (u : Store (smt S)) (o : Nat) (b : Smt.Term), Ends (smt S) (sTruth S) p (ps.map smtIn) u (.ok o) ∧
    u[o]? = some (.bit b) ∧ ∀ e, b.eval e = some (.bool true)

def Circuit.ProgZ3 (ps : List (List Char × Port)) (p : Prog Nat) : Prop :=
  ∃ (u : Store z3) (o : Nat) (b : Z3.BoolE), Ends z3 zTruth p (ps.map z3In) u (.ok o) ∧
    u[o]? = some (.bit b) ∧ ∀ e, b e = true

/-- **C134** (verdict).  A solver proves the bit that a function returns exactly when simulation gives true for all
inputs. -/
theorem C134_verdict {ps : List (List Char × Port)} (hps : PortsOk ps) {p : Prog Nat} (hp : p.NoTest) :
    (∀ S : Smt.Simplifier, ProgSmt S ps p ↔ ProgTrue ps p) ∧ (p.Respects ZErr → (ProgZ3 ps p ↔ ProgTrue ps p)) := by
  refine ⟨fun S => ⟨?_, fun hs => ?_⟩, fun hr => ⟨?_, fun hs => ?_⟩⟩
  · rintro ⟨u, o, b, hu, hb, hv⟩ t ht
    obtain ⟨f, g, h⟩ := exists_values ht hps.1
    obtain ⟨w, hw, hk⟩ := (C134_smt S ⟨f, fun _ => 0, g⟩ hp (reads_smt _ h hps.2)).1 _ _ hu
    obtain ⟨c, h1, h2⟩ := (getElem?_rel hk o).1 b hb
    have h2 := (hv _).symm.trans h2
    injection h2 with h2
    injection h2 with h2
    exact ⟨w, o, hw, h2 ▸ h1⟩
  · have at_ : ∀ e : Smt.Env, ∃ (u : Store (smt S)) (o : Nat) (b : Smt.Term),
        Ends (smt S) (sTruth S) p (ps.map smtIn) u (.ok o) ∧ u[o]? = some (.bit b) ∧ b.eval e = some (.bool true) := by
      intro e
      have hr := readBack_reads e.bool e.bv ps
      obtain ⟨w, o, hw, ho⟩ := hs _ (reads_in hr)
      obtain ⟨u, hu, hk⟩ := (C134_smt S e hp (reads_smt e.int hr hps.2)).2 _ _ hw
      obtain ⟨b, h1, h2⟩ := (getElem?_rel hk o).2 _ ho
      exact ⟨u, o, b, hu, h1, h2⟩
    obtain ⟨u, o, b, hu, hb, -⟩ := at_ ⟨fun _ => false, fun _ => 0, fun _ _ => 0⟩
    refine ⟨u, o, b, hu, hb, fun e => ?_⟩
    obtain ⟨u', o', b', hu', hb', h⟩ := at_ e
    obtain ⟨rfl, ho⟩ := hu.unique hu'
    cases ho
    cases hb.symm.trans hb'
    exact h
  · rintro ⟨u, o, b, hu, hb, hv⟩ t ht
    obtain ⟨f, g, h⟩ := exists_values ht hps.1
    obtain ⟨w, q, hw, hq, hk⟩ := (C134_z3 ⟨f, g⟩ hp hr (reads_z3 h hps.2)).1 _ _ hu
    obtain ⟨o', rfl, rfl⟩ := RelP.ok_left hq rfl
    obtain ⟨c, h1, h2⟩ := (getElem?_rel hk o).1 b hb
    have h2 := (hv _).symm.trans h2
    exact ⟨w, o, hw, h2 ▸ h1⟩
  · have at_ : ∀ e : Z3.Env, ∃ (u : Store z3) (o : Nat) (b : Z3.BoolE),
        Ends z3 zTruth p (ps.map z3In) u (.ok o) ∧ u[o]? = some (.bit b) ∧ b e = true := by
      intro e
      have hd := readBack_reads e.bool e.bv ps
      obtain ⟨w, o, hw, ho⟩ := hs _ (reads_in hd)
      obtain ⟨u, q, hu, hq, hk⟩ := (C134_z3 e hp hr (reads_z3 hd hps.2)).2 _ _ hw
      obtain ⟨o', rfl, rfl⟩ := RelP.ok_right hq rfl
      obtain ⟨b, h1, h2⟩ := (getElem?_rel hk _).2 _ ho
      exact ⟨u, _, b, hu, h1, h2⟩
    obtain ⟨u, o, b, hu, hb, -⟩ := at_ ⟨fun _ => false, fun _ _ => 0⟩
    refine ⟨u, o, b, hu, hb, fun e => ?_⟩
    obtain ⟨u', o', b', hu', hb', h⟩ := at_ e
    obtain ⟨rfl, ho⟩ := hu.unique hu'
    cases ho
    cases hb.symm.trans hb'
    exact h

/-! ### Testing bits -/

/-- **C135** (pysmt bits, partial).  A function that tests bits, and lets `TypeError`s through, either does with
`SMTBitVector` what it does in simulation or ends with a `TypeError`; it never silently takes another branch.
Missing: it takes no branch at all, not even on constant bits, and vectors are different (`C135_vectors`). -/
theorem C135_smt_bits_partial (S : Smt.Simplifier) (e : Smt.Env) {α : Type} {p : Prog α} (hp : p.Plain) {s : Store (smt S)}
    {t : Store concrete} (h : List.Forall₂ (RegRel (SVec e) (Smt.DenBit e)) s t) {s' : Store (smt S)} {r : PyM α}
    (hs : Ends (smt S) (sTruth S) p s s' r) :
    r = .error .typeError ∨ ∃ t', Ends concrete cTruth p t t' r ∧ List.Forall₂ (RegRel (SVec e) (Smt.DenBit e)) s' t' := by
  obtain ⟨n, hn⟩ := hs
  rcases (smt_sim e S).exec_relT (sTruth S) cTruth (fun _ => rfl) n p hp p.respects_eq h with h' | ⟨s1, h'⟩
  · obtain ⟨t', q, h1, h2, h3⟩ := h'.ends_left hn
    exact .inr ⟨t', ⟨n, relP_eq h3 ▸ h1⟩, h2⟩
  · rw [hn] at h'
    injection h' with h'
    injection h' with _ h'
    exact .inl h'

/-- **C135** (vectors).  `if x:` on a symbolic vector is taken whatever the vector is, with both libraries. -/
theorem C135_vectors :
    (∀ (S : Smt.Simplifier) (e : Smt.Env) (x : Smt.SBV) (X : BVal), SVec e x X → (sTruth S).vec x = .ok true) ∧
    (∀ (e : Z3.Env) (x : Z3.ZBV) (X : BVal), Z3.Den e x X → zTruth.vec x = .ok true) ∧
    (∀ X : BVal, X.WF → 0 < X.size → cTruth.vec X = .ok (decide (X.value ≠ 0))) := by
  refine ⟨fun S e x X h => ?_, fun e x X h => ?_, fun X hX hn => ?_⟩
  · have : x.size ≠ 0 := by have := h.2.2; omega
    exact congrArg _ (decide_eq_true this)
  · have : x.size ≠ 0 := by have := h.2.2.1; omega
    exact congrArg _ (decide_eq_true this)
  · show BVal.toBool X = _
    unfold BVal.toBool BVal.toInt
    split
    · obtain ⟨v, hv⟩ : ∃ v, X.asSint = .ok v := by
        rw [C03_as_sint hX, if_neg (by omega)]
        exact ⟨_, rfl⟩
      have hu := (C03_unique hX hn v).mp hv
      rw [hv]
      show Except.ok (truthy v) = _
      have : v = 0 ↔ X.value = 0 := by
        constructor
        · rintro rfl
          rw [← hu.2.2, Int.zero_emod]
        · intro h0
          have hp := two_pow_pos (X.size - 1)
          have h1 := (C03_unique hX hn 0).mpr ⟨by omega, hp, by rw [h0, Int.zero_emod]⟩
          cases hv.symm.trans h1
          rfl
      congr 1
      simp [truthy, bne, beq_eq_decide, this]
    · show Except.ok (X.asUint != 0) = _
      congr 1
      simp [BVal.asUint, bne, beq_eq_decide]

/-- `if b: return True`, `return False`. -/
def Circuit.branch : Prog Bool := .test 0 .ret
/-- `if x: return True`, `return False`. -/
def Circuit.branchV : Prog Bool := .testV 0 .ret

/-- **C135** is false of z3: `if b:` is taken for a bit that stands for false, without any error. -/
theorem C135_refuted :
    (∃ (e : Z3.Env) (s : Store z3) (t : Store concrete), List.Forall₂ (RegRel (Z3.Den e) (Z3.DenBit e)) s t ∧
      Ends z3 zTruth branch s s (.ok true) ∧ Ends concrete cTruth branch t t (.ok false)) ∧
    (∃ (e : Z3.Env) (s : Store z3) (t : Store concrete), List.Forall₂ (RegRel (Z3.Den e) (Z3.DenBit e)) s t ∧
      Ends z3 zTruth branchV s s (.ok true) ∧ Ends concrete cTruth branchV t t (.ok false)) ∧
    ∀ S : Smt.Simplifier, ∃ (e : Smt.Env) (s : Store (smt S)) (t : Store concrete),
      List.Forall₂ (RegRel (SVec e) (Smt.DenBit e)) s t ∧
      Ends (smt S) (sTruth S) branchV s s (.ok true) ∧ Ends concrete cTruth branchV t t (.ok false) := by
  refine ⟨⟨⟨fun _ => false, fun _ _ => 0⟩, [.bit fun e => e.bool ['b']], [.bit false], .cons (.bit rfl) .nil,
    ⟨0, rfl⟩, ⟨0, rfl⟩⟩, ⟨⟨fun _ => false, fun _ _ => 0⟩, [.vec ⟨.bv, 8, ⟨8, fun e => e.bv ['x'] 8⟩⟩],
    [.vec ⟨.root .bv, 8, 0⟩], .cons (.vec ⟨rfl, rfl, by decide, _, rfl, rfl⟩) .nil, ⟨0, rfl⟩, ⟨0, rfl⟩⟩, fun S =>
    ⟨⟨fun _ => false, fun _ => 0, fun _ _ => 0⟩, [.vec ⟨.root .bv, 8, .sym ['x'] (.bv 8)⟩], [.vec ⟨.root .bv, 8, 0⟩],
    .cons (.vec ⟨⟨rfl, rfl, _, rfl, rfl⟩, ⟨_, rfl⟩, by decide⟩) .nil, ⟨0, rfl⟩, ⟨0, rfl⟩⟩⟩

/-! ### Examples -/

namespace Circuit

/-- The parity of a vector, computed in a loop over its bits: `r = x[0]`, `for i in range(1, len(x)): r = r ^ x[i]`; returns
the name of the result.  For a bit the function returns it. -/
def parity (x : Nat) : Prog Nat :=
  .isBit x fun b => if b then .ret x else
    .len x fun n => .next fun r => .op (.index x 0) <| .loop (1, r)
      (fun ir => if ir.1 < n then .next fun j => .op (.index x ir.1) <| .op (.bit .xor ir.2 j) <| .ret (.inl (ir.1 + 1, j + 1))
        else .ret (.inr ir.2)) .ret

/-- `try: return parity(x)`, `except IndexError: return None`. -/
def parity? (x : Nat) : Prog (Option Nat) :=
  .tryElse (parity x) (fun e => if e = .indexError then .ret none else .raise e) fun r => .ret (some r)

theorem parity_noTest (x : Nat) : (parity? x).NoTest := by
  refine ⟨?_, fun e => ?_, fun _ => trivial⟩
  · intro b
    cases b
    · intro n r
      refine ⟨fun ir => ?_, fun _ => trivial⟩
      dsimp only
      split
      · exact fun _ => trivial
      · trivial
    · trivial
  · dsimp only
    split <;> trivial

theorem parity_respects (x : Nat) : (parity? x).Respects ZErr := by
  refine ⟨?_, fun e => ?_, fun _ => trivial, fun e e' h => ?_⟩
  · intro b
    cases b
    · intro n r
      refine ⟨fun ir => ?_, fun _ => trivial⟩
      dsimp only
      split
      · exact fun _ => trivial
      · trivial
    · trivial
  · dsimp only
    split <;> trivial
  · rcases h with rfl | ⟨rfl, rfl⟩
    · exact .inl rfl
    · exact .inr ⟨rfl, rfl⟩

/-- Three bits set among four: odd. -/
example : ∃ t', Ends concrete cTruth (parity? 0) [.vec ⟨.root .bv, 4, 13⟩] t' (.ok (some 7)) ∧ t'[7]? = some (.bit true) :=
  ⟨_, ⟨5, rfl⟩, rfl⟩
/-- An empty vector: `IndexError` is caught. -/
example : Ends concrete cTruth (parity? 0) [.vec ⟨.root .bv, 0, 0⟩] [.vec ⟨.root .bv, 0, 0⟩] (.ok none) := ⟨5, rfl⟩

/-- A symbolic vector and what it stands for. -/
theorem symRel (e : Smt.Env) : List.Forall₂ (RegRel (SVec e) (Smt.DenBit e)) [.vec ⟨.root .bv, 4, .sym ['x'] (.bv 4)⟩]
    [.vec ⟨.root .bv, 4, (e.bv ['x'] 4).toNat⟩] := .cons (.vec ⟨⟨rfl, rfl, _, rfl, rfl⟩, ⟨_, rfl⟩, by decide⟩) .nil
theorem symRelZ (e : Z3.Env) : List.Forall₂ (RegRel (Z3.Den e) (Z3.DenBit e)) [.vec ⟨.bv, 4, ⟨4, fun e => e.bv ['x'] 4⟩⟩]
    [.vec ⟨.root .bv, 4, (e.bv ['x'] 4).toNat⟩] := .cons (.vec ⟨rfl, rfl, by decide, _, rfl, rfl⟩) .nil

example (S : Smt.Simplifier) (e : Smt.Env) := C134_smt S e (parity_noTest 0) (symRel e)
example (e : Z3.Env) := C134_z3 e (parity_noTest 0) (parity_respects 0) (symRelZ e)
example := C134_verdict (ps := [(['x'], .vec .bv 4)]) ⟨by decide, by intro q r n h; simp at h; omega⟩ (parity_noTest 0).1
/-- The result is register 7 for every 4-bit vector, since it is for 13. -/
example (v : Int) (h0 : 0 ≤ v) (h1 : v < 16) : ∃ u' : Store concrete,
    Ends concrete cTruth (parity? 0) [.vec ⟨.root .bv, 4, v⟩] u' (.ok (some 7)) := by
  have hw : (⟨.root .bv, 4, v⟩ : BVal).WF := ⟨h0, h1⟩
  obtain ⟨u, h, -⟩ := C134_values_unseen (parity_noTest 0) (t := [.vec ⟨.root .bv, 4, 13⟩]) (u := [.vec ⟨.root .bv, 4, v⟩])
    (by intro r hr; cases List.mem_singleton.1 hr; exact ⟨by decide, ⟨_, rfl⟩, by decide⟩)
    (by intro r hr; cases List.mem_singleton.1 hr; exact ⟨hw, ⟨_, rfl⟩, Nat.zero_lt_succ 3⟩)
    (.cons (.vec ⟨rfl, rfl⟩) .nil) ⟨5, rfl⟩
  exact ⟨u, h⟩

/-- `return len(x)` if `x[0]` is set, and otherwise 0: refused by `SMTBit`. -/
def guarded : Prog Nat := .op (.index 0 0) <| .test 1 fun b => if b then .len 0 .ret else .ret 0

theorem guarded_plain : guarded.Plain := fun b => by cases b <;> simp [Prog.Plain]
example (S : Smt.Simplifier) (e : Smt.Env) (s' : Store (smt S)) (r : PyM Nat) (h : Ends (smt S) (sTruth S) guarded _ s' r) :=
  C135_smt_bits_partial S e guarded_plain (symRel e) h
example (S : Smt.Simplifier) : Ends (smt S) (sTruth S) branch [.bit (.sym ['b'] .bool)] [.bit (.sym ['b'] .bool)]
    (.error .typeError) := ⟨0, rfl⟩
example : Ends concrete cTruth guarded [.vec ⟨.root .bv, 4, 5⟩] [.vec ⟨.root .bv, 4, 5⟩, .bit true] (.ok 4) := ⟨0, rfl⟩

end Circuit

end HW
