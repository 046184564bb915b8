import Verif.Lemmas.Records
import Verif.Lemmas.Adt.Keep
import Verif.Props.AdtHeap
import Verif.Props.Circuit

/-!
# Property C155: functions over records and unions mean the same under simulation and under both solvers
-/

namespace HW
open Spec Circuit Circuit.Records
open Adt (Ty World Store)

variable {W : World}

/-- A function over records and unions, run with `SMTBitVector`: under every assignment it has the same variables on the same
objects, of the same classes up to the family, with vectors and bits equal to those of the simulation; and it raises exactly
when the simulation does, the same exception. -/
theorem C155_smt (S : Smt.Simplifier) (e : Smt.Env) (hW : Alike W 1) {p : Prog} (hp : p.Plain)
    {s : List (Reg Smt.SBV Smt.Term)} {t : List (Reg BVal Bool)} (h : List.Forall₂ (RegRel (SVec e) (Smt.DenBit e)) s t) :
    RelP (· = ·) (fun (u : St (smtR S)) (w : St concreteR) => u.vars = w.vars ∧ u.store = w.store.map (moveObj 1) ∧
        List.Forall₂ (RegRel (SVec e) (Smt.DenBit e)) u.vals w.vals)
      (exec W (smtR S) (start (smtR S) s) p) (exec W concreteR (start concreteR t) p) :=
  ((smt_rsim e S).exec_rel hW p ((smt_rsim e S).start_rel h) hp).mono fun _ _ h => ⟨h.vars, h.store, h.vals⟩

/-- The same with `z3BitVector`; a plain `TypeError` stands for `InconsistentSizeError`. -/
theorem C155_z3 (e : Z3.Env) (hW : Alike W 2) {p : Prog} (hp : p.Plain)
    {s : List (Reg Z3.ZBV Z3.BoolE)} {t : List (Reg BVal Bool)} (h : List.Forall₂ (RegRel (Z3.Den e) (Z3.DenBit e)) s t) :
    RelP ZErr (fun (u : St z3R) (w : St concreteR) => u.vars = w.vars ∧ u.store = w.store.map (moveObj 2) ∧
        List.Forall₂ (RegRel (Z3.Den e) (Z3.DenBit e)) u.vals w.vals)
      (exec W z3R (start z3R s) p) (exec W concreteR (start concreteR t) p) :=
  ((z3_rsim e).exec_rel hW p ((z3_rsim e).start_rel h) hp).mono fun _ _ h => ⟨h.vars, h.store, h.vals⟩

/-! ### Verifying a function -/

namespace Circuit.Records

/-- In simulation, variable `x` is a true bit at the end, for all inputs. -/
def SimTrue (W : World) (ps : List (List Char × Port)) (p : Prog) (x : Nat) : Prop :=
  ∀ t, List.Forall₂ InPort ps t → ∃ u, exec W concreteR (start concreteR t) p = .ok u ∧
    u.value concreteR x = some (.bit true)

/-- The solver proves variable `x` of the function over free variables: it holds under every assignment. -/
def SmtProves (W : World) (S : Smt.Simplifier) (ps : List (List Char × Port)) (p : Prog) (x : Nat) : Prop :=
  ∃ u b, exec W (smtR S) (start (smtR S) (ps.map smtIn)) p = .ok u ∧ u.value (smtR S) x = some (.bit b) ∧
    ∀ e, Smt.Term.eval e b = some (.bool true)

def Z3Proves (W : World) (ps : List (List Char × Port)) (p : Prog) (x : Nat) : Prop :=
  ∃ (u : St z3R) (b : Z3.BoolE), exec W z3R (start z3R (ps.map z3In)) p = .ok u ∧ u.value z3R x = some (.bit b) ∧
    ∀ e, b e = true

theorem value_rel {F : RFamily} {RV : F.V → BVal → Prop} {RB : F.B → Bool → Prop} {s : St F} {t : St concreteR}
    (h : StRel (G := concreteR) RV RB s t) (x : Nat) :
    (∀ b, s.value F x = some (.bit b) → ∃ c : Bool, t.value concreteR x = some (.bit c) ∧ RB b c) ∧
    (∀ c : Bool, t.value concreteR x = some (.bit c) → ∃ b, s.value F x = some (.bit b) ∧ RB b c) := by
  simp only [St.value, RSim.payload_rel h]
  cases payload t.store t.vars x with
  | error e => simp
  | ok p => exact getElem?_rel h.vals p

end Circuit.Records

/-- A solver proves a bit the function computes, over free variables, exactly when simulation gives true for all inputs. -/
theorem C155_smt_verdict (S : Smt.Simplifier) (hW : Alike W 1) {ps : List (List Char × Port)} (hp : PortsOk ps) {p : Prog}
    (hpl : p.Plain) (x : Nat) : Records.SmtProves W S ps p x ↔ Records.SimTrue W ps p x := by
  have key : ∀ (e : Smt.Env) t, List.Forall₂ (Reads e.bool e.bv) ps t → _ := fun e t h =>
    (smt_rsim e S).exec_rel hW p ((smt_rsim e S).start_rel (reads_smt e.int h hp.2)) hpl
  constructor
  · rintro ⟨u, b, hu, hb, hv⟩ t ht
    obtain ⟨f, g, h⟩ := exists_values ht hp.1
    have hk := key ⟨f, fun _ => 0, g⟩ t h
    obtain ⟨w, hw, hk⟩ := RelP.ok_left hk hu
    obtain ⟨c, h1, h2⟩ := (value_rel hk x).1 b hb
    have h2 := (hv _).symm.trans h2
    injection h2 with h2
    injection h2 with h2
    exact ⟨w, hw, h2 ▸ h1⟩
  · intro hs
    have at_ : ∀ e : Smt.Env, ∃ u b, exec W (smtR S) (start (smtR S) (ps.map smtIn)) p = .ok u ∧
        u.value (smtR S) x = some (.bit b) ∧ Smt.Term.eval e b = some (.bool true) := by
      intro e
      have hr := readBack_reads e.bool e.bv ps
      obtain ⟨w, hw, ho⟩ := hs _ (reads_in hr)
      have hk := key e _ hr
      obtain ⟨u, hu, hk⟩ := RelP.ok_right hk hw
      obtain ⟨b, h1, h2⟩ := (value_rel hk x).2 _ ho
      exact ⟨u, b, hu, h1, h2⟩
    obtain ⟨u, b, hu, hb, -⟩ := at_ ⟨fun _ => false, fun _ => 0, fun _ _ => 0⟩
    refine ⟨u, b, hu, hb, fun e => ?_⟩
    obtain ⟨u', b', hu', hb', h⟩ := at_ e
    cases hu.symm.trans hu'
    cases hb.symm.trans hb'
    exact h

theorem C155_z3_verdict (hW : Alike W 2) {ps : List (List Char × Port)} (hp : PortsOk ps) {p : Prog}
    (hpl : p.Plain) (x : Nat) : Records.Z3Proves W ps p x ↔ Records.SimTrue W ps p x := by
  have key : ∀ (e : Z3.Env) t, List.Forall₂ (Reads e.bool e.bv) ps t → _ := fun e t h =>
    (z3_rsim e).exec_rel hW p ((z3_rsim e).start_rel (reads_z3 h hp.2)) hpl
  constructor
  · rintro ⟨u, b, hu, hb, hv⟩ t ht
    obtain ⟨f, g, h⟩ := exists_values ht hp.1
    have hk := key ⟨f, g⟩ t h
    obtain ⟨w, hw, hk⟩ := RelP.ok_left hk hu
    obtain ⟨c, h1, h2⟩ := (value_rel hk x).1 b hb
    have h2 := (hv _).symm.trans h2
    exact ⟨w, hw, h2 ▸ h1⟩
  · intro hs
    have at_ : ∀ e : Z3.Env, ∃ (u : St z3R) (b : Z3.BoolE), exec W z3R (start z3R (ps.map z3In)) p = .ok u ∧
        u.value z3R x = some (.bit b) ∧ b e = true := by
      intro e
      have hr := readBack_reads e.bool e.bv ps
      obtain ⟨w, hw, ho⟩ := hs _ (reads_in hr)
      have hk := key e _ hr
      obtain ⟨u, hu, hk⟩ := RelP.ok_right hk hw
      obtain ⟨b, h1, h2⟩ := (value_rel hk x).2 _ ho
      exact ⟨u, b, hu, h1, h2⟩
    obtain ⟨u, b, hu, hb, -⟩ := at_ ⟨fun _ => false, fun _ _ => 0⟩
    refine ⟨u, b, hu, hb, fun e => ?_⟩
    obtain ⟨u', b', hu', hb', h⟩ := at_ e
    cases hu.symm.trans hu'
    cases hb.symm.trans hb'
    exact h

/-- Whether the function returns does not depend on the inputs, nor on the family. -/
theorem C155_returns (S : Smt.Simplifier) (hW : Alike W 1) (hW' : Alike W 2) {ps : List (List Char × Port)} (hp : PortsOk ps)
    {p : Prog} (hpl : p.Plain) {t : List (Reg BVal Bool)} (ht : List.Forall₂ InPort ps t) :
    ((∃ u, exec W (smtR S) (start (smtR S) (ps.map smtIn)) p = .ok u) ↔
      ∃ w, exec W concreteR (start concreteR t) p = .ok w) ∧
    ((∃ u, exec W z3R (start z3R (ps.map z3In)) p = .ok u) ↔ ∃ w, exec W concreteR (start concreteR t) p = .ok w) := by
  obtain ⟨f, g, h⟩ := exists_values ht hp.1
  have h1 := C155_smt S ⟨f, fun _ => 0, g⟩ hW hpl (reads_smt _ h hp.2)
  have h2 := C155_z3 ⟨f, g⟩ hW' hpl (reads_z3 h hp.2)
  refine ⟨⟨?_, ?_⟩, ⟨?_, ?_⟩⟩
  · rintro ⟨u, hu⟩
    obtain ⟨w, hw, -⟩ := RelP.ok_left h1 hu
    exact ⟨w, hw⟩
  · rintro ⟨w, hw⟩
    obtain ⟨u, hu, -⟩ := RelP.ok_right h1 hw
    exact ⟨u, hu⟩
  · rintro ⟨u, hu⟩
    obtain ⟨w, hw, -⟩ := RelP.ok_left h2 hu
    exact ⟨w, hw⟩
  · rintro ⟨w, hw⟩
    obtain ⟨u, hu, -⟩ := RelP.ok_right h2 hw
    exact ⟨u, hu⟩

/-- A counterexample replays. -/
theorem C155_replay (S : Smt.Simplifier) (hW : Alike W 1) {ps : List (List Char × Port)} (hp : PortsOk ps) {p : Prog}
    (hpl : p.Plain) {x : Nat} {u : St (smtR S)} {b : Smt.Term} {v : Bool}
    (hu : exec W (smtR S) (start (smtR S) (ps.map smtIn)) p = .ok u) (hb : u.value (smtR S) x = some (.bit b)) (e : Smt.Env)
    (hv : b.eval e = some (.bool v)) :
    ∃ w, exec W concreteR (start concreteR (ps.map (readBack e.bool e.bv))) p = .ok w ∧
      w.value concreteR x = some (.bit v) := by
  have hk := (smt_rsim e S).exec_rel hW p
    ((smt_rsim e S).start_rel (reads_smt e.int (readBack_reads e.bool e.bv ps) hp.2)) hpl
  obtain ⟨w, hw, hk⟩ := RelP.ok_left hk hu
  obtain ⟨c, h1, h2⟩ := (value_rel hk x).1 b hb
  cases hv.symm.trans h2
  exact ⟨w, hw, h1⟩

/-! ### Sharing -/

/-- With every family: after `x[i] = v`, reading through any name `y` of the same tuple gives `v` at this position, and
what it gave before at the others. -/
theorem C155_assign {F : RFamily} {s s' : St F} {x y v : Nat} {r w : Adt.Ref} (hx : s.vars[x]? = some r)
    (hy : s.vars[y]? = some r) (hv : s.vars[v]? = some w) {T a vs k fs} (hr : s.store[r]? = some (.tup T a vs))
    (hT : T.view = some (k, fs)) (hl : vs.length = fs.length) {i : Int} (h : exec1 W F s (.setItem x (.int i) v) = .ok s')
    (j : Int) :
    s'.vars = s.vars ∧ s'.vals = s.vals ∧
    (exec1 W F s' (.getItem y j)).map St.vars =
      if -(fs.length : Int) ≤ j ∧ j < fs.length ∧ i % fs.length = j % fs.length then .ok (s.vars ++ [w])
      else (exec1 W F s (.getItem y j)).map St.vars := by
  simp only [exec1, var, hx, hv, bind, Except.bind] at h
  cases ho : (s.store.setItem W r (.int i) w).res with
  | error e =>
    have : done (s.store.setItem W r (.int i) w) = .error e := by
      unfold done
      split <;> simp_all
    rw [this] at h
    cases h
  | ok _ =>
    have hd : done (s.store.setItem W r (.int i) w) = .ok (s.store.setItem W r (.int i) w).st := by
      unfold done
      split <;> simp_all
    rw [hd] at h
    cases h
    refine ⟨rfl, rfl, ?_⟩
    have h1 := C51_index hr hT hl (i := i) (v := w) (by rw [ho]) j
    simp only [exec1, var, hy, bind, Except.bind, h1]
    by_cases hc : -(fs.length : Int) ≤ j ∧ j < fs.length ∧ i % fs.length = j % fs.length
    · rw [if_pos hc, if_pos hc]
      rfl
    · rw [if_neg hc, if_neg hc]
      cases s.store.getItem r j <;> rfl

/-- `x.n = v` on products and anonymous products is `x[p] = v` for the position `p` of the name, and `x.n` is `x[p]`. -/
theorem C155_attribute {F : RFamily} {s : St F} {x v : Nat} {r w : Adt.Ref} (hx : s.vars[x]? = some r)
    (hv : s.vars[v]? = some w) {T a vs k fs} (hB : Adt.Built W T) (hr : s.store[r]? = some (.tup T a vs))
    (hT : T.view = some (k, fs)) (hl : vs.length = fs.length) (hs : k.shape = .anon ∨ k.shape = .product) {n : Adt.Name}
    {p : Nat} (hn : k.names[p]? = some n) :
    exec1 W F s (.setAttr x n v) = exec1 W F s (.setItem x (.int p) v) ∧
    exec1 W F s (.getAttr x n) = exec1 W F s (.getItem x p) := by
  obtain ⟨h1, z, h2, h3⟩ := C51_name hB hr hT hl hs hn w
  simp [exec1, var, hx, hv, bind, Except.bind, h1, h2, h3]

/-- A test on a tag takes the first branch exactly if it is the active one. -/
theorem C155_tag {F : RFamily} {s : St F} {x : Nat} {r : Adt.Ref} (hx : s.vars[x]? = some r) {T i w k fs}
    (hr : s.store[r]? = some (.tag T i w)) (hT : T.view = some (k, fs)) (hn : k.names.Nodup) (hM : Adt.matchName ∉ k.names)
    {n : Adt.Name} {j : Nat} (hj : k.names[j]? = some n) (p q : Prog) :
    exec W F s (.ifTag x n p q) = if j = i then exec W F s p else exec W F s q := by
  have hi : k.names.idxOf n = j := by
    obtain ⟨hlt, rfl⟩ := List.getElem?_eq_some_iff.1 hj
    exact hn.idxOf_getElem j hlt
  have hm : n ∈ k.names := List.mem_of_getElem? hj
  simp only [exec, tagTest, var, hx, bind, Except.bind, Adt.Store.getAttr, hr, hT, hm, hM, if_true, if_false, hi, pure,
    Except.pure, decide_eq_true_eq, eq_comm (a := i)]

/-- A test on the class of a sum takes the first branch exactly if the value is an instance. -/
theorem C155_sum {F : RFamily} {s : St F} {x : Nat} {r : Adt.Ref} (hx : s.vars[x]? = some r) {T w k fs}
    (hr : s.store[r]? = some (.sum T w)) (hT : T.view = some (k, fs)) {t : Ty} (ht : move F.fam t ∈ fs) (p q : Prog) :
    (Adt.Inst W s.store w (move F.fam t) → exec W F s (.ifSum x t p q) = exec W F s p) ∧
    (¬ Adt.Inst W s.store w (move F.fam t) → exec W F s (.ifSum x t p q) = exec W F s q) := by
  obtain ⟨m, h1, h2, -⟩ := C54_read (W := W) hr hT ht
  simp only [exec, sumTest, var, hx, bind, Except.bind, h1, pure, Except.pure]
  constructor
  · intro h
    rw [if_pos (h2.2 h)]
  · intro h
    rw [if_neg fun h' => h (h2.1 h')]

namespace Circuit.Records

theorem leaves_get (F : RFamily) : ∀ (n : Nat) (vs : List (Reg F.V F.B)) (k : Nat),
    (leaves F n vs)[k]? = vs[k]?.map fun v => .leaf (cls F v) (n + k)
  | _, [], _ => rfl
  | n, v :: vs, 0 => rfl
  | n, v :: vs, k + 1 => by
    show (leaves F (n + 1) vs)[k]? = _
    rw [leaves_get F (n + 1) vs k]
    simp [Nat.add_comm, Nat.add_left_comm]

theorem leaves_length (F : RFamily) : ∀ (n : Nat) (vs : List (Reg F.V F.B)), (leaves F n vs).length = vs.length
  | _, [] => rfl
  | n, _ :: vs => by rw [leaves, List.length_cons, leaves_length F (n + 1) vs, List.length_cons]

/-- Results are in the variables that follow: the `k`-th new variable refers to a leaf with the `k`-th new value. -/
theorem grow_value {F : RFamily} (s : St F) (vals : List (Reg F.V F.B)) {k : Nat} (hk : s.vals.length + k < vals.length) :
    (s.grow F vals).value F (s.vars.length + k) = vals[s.vals.length + k]? := by
  have hv : (vals.drop s.vals.length)[k]? = some vals[s.vals.length + k] := by
    rw [List.getElem?_drop, List.getElem?_eq_getElem hk]
  have h1 : (s.grow F vals).vars[s.vars.length + k]? = some (s.store.length + k) := by
    simp only [St.grow, leaves_length, List.length_drop]
    rw [List.getElem?_append_right (by omega), Nat.add_sub_cancel_left, List.getElem?_range' (by omega)]
    simp
  have h2 : (s.grow F vals).store[s.store.length + k]? = some (.leaf (cls F vals[s.vals.length + k]) (s.vals.length + k)) := by
    simp only [St.grow]
    rw [List.getElem?_append_right (by omega), Nat.add_sub_cancel_left, leaves_get, hv]
    rfl
  simp only [St.value, payload, var, h1, h2, bind, Except.bind]
  rfl

end Circuit.Records

/-- The function's arguments are in the first variables. -/
theorem C155_inputs {F : RFamily} (ins : List (Reg F.V F.B)) {i : Nat} (hi : i < ins.length) :
    (start F ins).value F i = ins[i]? := by
  have := grow_value (⟨[], [], []⟩ : St F) ins (k := i) (by simpa using hi)
  simpa [start] using this

/-- An operation puts its results in new variables and changes no other. -/
theorem C155_instr {F : RFamily} {s s' : St F} {i : Instr} (h : exec1 W F s (.instr i) = .ok s') :
    (∀ k, s.vals.length + k < s'.vals.length → s'.value F (s.vars.length + k) = s'.vals[s.vals.length + k]?) ∧
    s.vars <+: s'.vars ∧ s.store <+: s'.store := by
  simp only [exec1, bind, Except.bind] at h
  split at h
  · cases h
  · split at h
    · cases h
    · rename_i vals _
      cases h
      exact ⟨fun k hk => grow_value s vals hk, List.prefix_append _ _, List.prefix_append _ _⟩

/-- A call of a class puts the new object in a new variable. -/
theorem C155_new {F : RFamily} {s s' : St F} {T : Adt.Ty} {pos : List Nat} {kw : List (Adt.Name × Nat)}
    (h : exec1 W F s (.new T pos kw) = .ok s') :
    ∃ rs ns o, List.Forall₂ (fun x r => s.vars[x]? = some r) pos rs ∧
      List.Forall₂ (fun x r => x.1 = r.1 ∧ s.vars[x.2]? = some r.2) kw ns ∧
      Adt.construct W s.store (move F.fam T) rs ns = .ok o ∧
      s'.store = s.store ++ [o] ∧ s.vars <+: s'.vars ∧ (s'.vars[s.vars.length]?).bind (s'.store[·]?) = some o := by
  have hm : ∀ {α β : Type} {f : α → PyM β} {R : α → β → Prop} (_ : ∀ a b, f a = .ok b → R a b) {l : List α} {m : List β},
      l.mapM f = .ok m → List.Forall₂ R l m := by
    intro α β f R hf l
    induction l with
    | nil => intro m h; cases h; exact .nil
    | cons a l ih =>
      intro m h
      simp only [List.mapM_cons, bind, Except.bind] at h
      cases ha : f a with
      | error e => rw [ha] at h; cases h
      | ok b =>
        rw [ha] at h
        dsimp only at h
        cases hl : l.mapM f with
        | error e => rw [hl] at h; cases h
        | ok bs =>
          rw [hl] at h
          cases h
          exact .cons (hf a b ha) (ih hl)
  have hv : ∀ x r, var s.vars x = .ok r → s.vars[x]? = some r := by
    intro x r h
    unfold var at h
    cases hx : s.vars[x]? with
    | none => rw [hx] at h; cases h
    | some r' => rw [hx] at h; cases h; rfl
  simp only [exec1, bind, Except.bind] at h
  split at h
  · cases h
  · rename_i rs h1
    split at h
    · cases h
    · rename_i ns h2
      split at h
      · cases h
      · rename_i o h3
        cases h
        refine ⟨rs, ns, o, hm hv h1, hm (R := fun (x : Adt.Name × Nat) (r : Adt.Name × Adt.Ref) => x.1 = r.1 ∧ s.vars[x.2]? = some r.2)
          (fun x r h => ?_) h2, h3, rfl, List.prefix_append _ _, ?_⟩
        · simp only [varKw, bind, Except.bind] at h
          split at h
          · cases h
          · rename_i w hw
            cases h
            exact ⟨rfl, hv _ _ hw⟩
        · simp [St.alloc]

/-! ### `rebind_type` -/

namespace Circuit.Records

/-- A `Tuple` or `Product` class, without further attributes, whose vectors are `BitVector`s; nested. -/
inductive Simple : Ty → Prop
  | vec (s) : Simple (.leaf (.vec 0 s))
  | bit : Simple (.leaf (.cls 0))
  | enum (e) : Simple (.enum e)
  | tuple (b fs) : (∀ t ∈ fs, Simple t) → Simple (Adt.mkTuple b fs)
  | product (b name names fs) : names.length = fs.length → names.Nodup → (∀ t ∈ fs, Simple t) →
      Simple (Adt.mkProduct b name 0 names fs)

theorem Simple.built {T : Ty} (h : Simple T) : Adt.Built W T := by
  induction h with
  | vec s => exact .leaf _
  | bit => exact .leaf _
  | enum e => exact .enum e
  | tuple b fs _ ih => exact .tuple b fs ih
  | product b name names fs h1 h2 _ ih => exact .product b name 0 names fs h1 h2 ih

theorem Simple.bare {T : Ty} (h : Simple T) : T.All Adt.Con.Bare fun _ t => t.Fieldless := by
  induction h with
  | vec s => exact .leaf _
  | bit => exact .leaf _
  | enum e => exact .enum e
  | tuple b fs _ ih => exact .node _ _ ⟨by simp, rfl⟩ ih
  | product b name names fs h1 h2 _ ih => exact .node _ _ ⟨by simp, rfl⟩ ih

theorem substL_eq (g : Ty → Option Ty) (w : Adt.ModId → Ty → Ty) : ∀ fs : List Ty,
    Adt.substL W g w fs = fs.map (Adt.substT W g w)
  | [] => rfl
  | t :: ts => by rw [Adt.substL, substL_eq g w ts, List.map_cons]

/-- What `rebind_type(·, family)` takes from the family: which vectors are bit vectors (those of the concrete family are),
and the family's `BitVector`. -/
def famSel (f : Nat) : Adt.VecSel := ⟨fun k _ => decide (k < 4), 0, none, 4 * f⟩

theorem Simple.subst {T : Ty} (h : Simple T) {f : Nat} {absBit : Ty} (hA : ∀ k fs, W.sub (.node k fs) absBit = false)
    (hE : ∀ e, W.sub (.enum e) absBit = false) (hv : ∀ k s, W.sub (.leaf (.vec k s)) absBit = false)
    (hb : W.sub (bitTy 0) absBit = true) :
    Adt.substT W (Adt.famF W (famSel f) absBit (bitTy f)) Ty.mod T = move f T := by
  induction h with
  | vec s =>
    simp [Adt.substT, Adt.famF, hv, Adt.bvF, Ty.isModified, Adt.VecSel.selects, Ty.asVec, famSel, move, moveLeaf]
  | bit =>
    have : W.sub (.leaf (.cls 0)) absBit = true := hb
    simp [Adt.substT, Adt.famF, this, move, moveLeaf, bitTy]
  | enum e =>
    simp [Adt.substT, Adt.famF, hE, Adt.bvF, Ty.isModified, Adt.VecSel.selects, Ty.asVec, move]
  | tuple b fs _ ih =>
    have hn : Adt.famF W (famSel f) absBit (bitTy f) (Adt.mkTuple b fs) = none := by
      simp [Adt.famF, Adt.mkTuple, hA, Adt.bvF_node]
    rw [Adt.mkTuple] at hn ⊢
    rw [Adt.substT, hn, substL_eq, List.map_congr_left ih, move, moves_eq]
    rfl
  | product b name names fs h1 h2 _ ih =>
    have hn : Adt.famF W (famSel f) absBit (bitTy f) (Adt.mkProduct b name 0 names fs) = none := by
      simp [Adt.famF, Adt.mkProduct, hA, Adt.bvF_node]
    rw [Adt.mkProduct] at hn ⊢
    rw [Adt.substT, hn, substL_eq, List.map_congr_left ih, move, moves_eq]
    rfl

end Circuit.Records

/-- Instead of declaring them again, classes of tuples and products whose vectors are all `BitVector`s can be moved with
`rebind_type`. -/
theorem C155_rebind_partial {T : Ty} (hT : Simple T) {k : Adt.Con} {fs : List Ty} (hk : T = .node k fs) {f : Nat} {absBit : Ty}
    (hA : ∀ k fs, W.sub (.node k fs) absBit = false) (hE : ∀ e, W.sub (.enum e) absBit = false)
    (hv : ∀ t k s, t.unwrap.1 = .leaf (.vec k s) → W.sub t absBit = false) (hb : W.sub (bitTy 0) absBit = true) :
    Adt.rebindType W (famSel f) absBit (bitTy f) T = .ok (move f T) := by
  subst hk
  rw [Adt.rebindType_eq hA hv hT.built hT.bare, hT.subst hA hE (fun k s => hv _ k s rfl) hb]

/-! ### Examples and refutation -/

namespace Circuit.Records

/-- `AbstractBit` -/
def absBit : Ty := .leaf (.cls 9)

/-- `issubclass` between the classes of vectors of one size and family: equal, or the one below the other in
`SIntVector < NumVector < BitVector`, `UIntVector < NumVector`; and the bits of each family below `AbstractBit`. -/
def vecSub : Ty → Ty → Bool
  | .leaf (.vec k s), .leaf (.vec l s') =>
      decide (s = s' ∧ k / 4 = l / 4 ∧ (k % 4 = l % 4 ∨ l % 4 = 0 ∨ (l % 4 = 1 ∧ 2 ≤ k % 4)))
  | .leaf (.cls c), .leaf (.cls d) => decide (c ≤ 2 ∧ d = 9)
  | _, _ => false

theorem vecSub_vec {k s l s'} : vecSub (.leaf (.vec k s)) (.leaf (.vec l s')) = true ↔
    s = s' ∧ k / 4 = l / 4 ∧ (k % 4 = l % 4 ∨ l % 4 = 0 ∨ (l % 4 = 1 ∧ 2 ≤ k % 4)) := by simp [vecSub]

theorem vecSub_trans {a b c : Ty} (h : vecSub a b = true) (h' : vecSub b c = true) : vecSub a c = true := by
  have hl : ∀ {a b : Ty}, vecSub a b = true → ∃ l l', a = .leaf l ∧ b = .leaf l' := by
    intro a b h
    cases a with
    | leaf l => cases b with
      | leaf l' => exact ⟨l, l', rfl, rfl⟩
      | _ => cases l <;> cases h
    | _ => cases h
  obtain ⟨l1, l2, rfl, rfl⟩ := hl h
  obtain ⟨_, l3, e, rfl⟩ := hl h'
  cases e
  cases l1 <;> cases l2 <;> cases l3 <;> first | (cases h) | (cases h') | skip
  · simp only [vecSub, decide_eq_true_eq] at h h' ⊢
    omega
  · rw [vecSub_vec] at h h' ⊢
    exact ⟨h.1.trans h'.1, by omega, by omega⟩

/-- Classes whose only subclass relations are these. -/
noncomputable def vecWorld : World := { World.std with
  sub := fun a b => decide (a = b) || vecSub a b
  sub_refl := by simp
  sub_trans := by
    intro a b c h h'
    simp only [Bool.or_eq_true, decide_eq_true_eq] at h h' ⊢
    rcases h with rfl | h
    · exact h'
    · rcases h' with rfl | h'
      · exact .inr h
      · exact .inr (vecSub_trans h h') }

theorem vecWorld_alike {f : Nat} (hf : f ≤ 2) : Alike vecWorld f := by
  intro a b ha hb
  have h1 : decide (move f a = move f b) = decide (a = b) := by
    rw [decide_eq_decide]
    exact ⟨fun h => move_inj hf ha hb h, fun h => h ▸ rfl⟩
  have h2 : vecSub (move f a) (move f b) = vecSub a b := by
    cases a with
    | leaf l => ?_
    | _ => cases b <;> rfl
    cases b with
    | leaf l' => ?_
    | _ => cases l with
      | vec => rfl
      | cls c => cases c <;> rfl
    cases l <;> cases l'
    · rename_i c d
      cases c <;> cases d <;> simp [move, vecSub, moveLeaf, hf] <;> omega
    · rename_i c _ _
      cases c <;> rfl
    · rename_i _ _ c
      cases c <;> rfl
    · rename_i k s l s'
      simp only [Plain, plainLeaf] at ha hb
      simp only [move, vecSub, moveLeaf, decide_eq_decide]
      constructor <;> rintro ⟨h, h', h''⟩ <;> refine ⟨h, ?_, ?_⟩ <;> omega
  show (decide _ || _) = (decide _ || _)
  rw [h1, h2]

theorem vecWorld_vec : ∀ (t : Ty) k s, t.unwrap.1 = .leaf (.vec k s) → vecWorld.sub t absBit = false := by
  intro t k s h
  cases t with
  | leaf l => cases l with
    | vec => rfl
    | cls => cases h
  | _ => rfl

/-- `class P(Product): a = BitVector[8]; b = Bit` -/
def prodP : Ty := Adt.mkProduct (.user 1) 10 0 [1, 2] [vecTy 0 .bv 8, bitTy 0]
/-- `Tuple[P, P]` -/
def pair : Ty := Adt.mkTuple (.user 0) [prodP, prodP]
/-- `class U(TaggedUnion): p = P; q = Bit` -/
def unionU : Ty := .node ⟨.tagged, .user 2, 11, 0, [3, 4]⟩ [prodP, bitTy 0]

/-- ```
r = P(x, c); t = Tuple[P, P](r, r)
n = ~x
t[0].a = n
b = t[1].a.bveq(n)
u = U(q=b)
if u.q.match: result = u.q.value
else: result = u.p.value.b
``` -/
def aliased : Prog :=
  .stmt (.new prodP [0, 1] []) <| .stmt (.new pair [2, 2] []) <| .stmt (.instr (.un .not 0)) <|
  .stmt (.getItem 3 0) <| .stmt (.setAttr 5 1 4) <| .stmt (.getItem 3 1) <| .stmt (.getAttr 6 1) <|
  .stmt (.instr (.cmp .eq 7 (.reg 4))) <| .stmt (.new unionU [] [(4, 8)]) <|
  .ifTag 9 4 (.stmt (.getAttr 9 4) .done) (.stmt (.getAttr 9 3) <| .stmt (.getAttr 10 2) .done)

theorem aliased_plain : aliased.Plain := by
  simp [aliased, Prog.Plain, Stmt.Plain, prodP, pair, unionU, Adt.mkProduct, Adt.mkTuple, vecTy, bitTy, rootNum,
    Records.Plain, Plains, plainLeaf]

end Circuit.Records

/-- The assignment through `t[0]` is seen through `t[1]`, for all inputs … -/
theorem aliased_sim : Records.SimTrue vecWorld [(['x'], .vec .bv 8), (['c'], .bit)] aliased 10 := by
  intro t ht
  cases ht with
  | cons hx h =>
    cases h with
    | cons hc h =>
      cases h
      cases hx with
      | @vec _ _ _ v _ _ =>
        cases hc with
        | @bit _ c =>
          refine ⟨_, rfl, ?_⟩
          show some (Reg.bit (decide _)) = _
          simp only [decide_true]
          rfl

/-- … so both solvers prove it. -/
example (S : Smt.Simplifier) : Records.SmtProves vecWorld S [(['x'], .vec .bv 8), (['c'], .bit)] aliased 10 ∧
    Records.Z3Proves vecWorld [(['x'], .vec .bv 8), (['c'], .bit)] aliased 10 := by
  have hp : PortsOk [(['x'], .vec .bv 8), (['c'], .bit)] := ⟨by decide, by
    intro q r n h
    simp at h
    omega⟩
  exact ⟨(C155_smt_verdict S (vecWorld_alike (by decide)) hp aliased_plain 10).2 aliased_sim,
    (C155_z3_verdict (vecWorld_alike (by decide)) hp aliased_plain 10).2 aliased_sim⟩

/-- Two names for a tuple. -/
example : ∃ s' : St concreteR,
    exec1 vecWorld concreteR ⟨[.leaf (vecTy 0 .bv 8) 0, .leaf (vecTy 0 .bv 8) 1,
      .tup (Adt.mkTuple (.user 0) [vecTy 0 .bv 8]) false [0]], [.vec ⟨.root .bv, 8, 3⟩, .vec ⟨.root .bv, 8, 5⟩], [0, 1, 2, 2]⟩
      (.setItem 2 (.int 0) 1) = .ok s' ∧ (exec1 vecWorld concreteR s' (.getItem 3 (-1))).map St.vars = .ok [0, 1, 2, 2, 1] :=
  ⟨_, rfl, rfl⟩

example : unionU.view = some (⟨.tagged, .user 2, 11, 0, [3, 4]⟩, [prodP, bitTy 0]) ∧ [3, 4].Nodup ∧
    Adt.matchName ∉ [3, 4] := ⟨rfl, by decide, by decide⟩

example : Adt.rebindType vecWorld (famSel 1) absBit (bitTy 1) pair = .ok (move 1 pair) :=
  C155_rebind_partial (.tuple _ _ fun t ht => by
      simp only [List.mem_cons, List.not_mem_nil, or_false, or_self] at ht
      subst ht
      refine .product _ _ _ _ rfl (by decide) fun t ht => ?_
      simp only [List.mem_cons, List.not_mem_nil, or_false] at ht
      rcases ht with rfl | rfl
      · exact .vec _
      · exact .bit) rfl
    (by intros; rfl) (by intros; rfl) vecWorld_vec (by rfl)

/-- But `rebind_type` makes every vector class the family's `BitVector`: a function whose fields are signed or unsigned
raises in simulation and not with the solver, or the other way round. -/
theorem C155_rebind_refuted :
    (∃ T', Adt.rebindType vecWorld (famSel 1) absBit (bitTy 1) (Adt.mkTuple (.user 0) [vecTy 0 .sint 8]) = .ok T' ∧
      Adt.construct vecWorld [.leaf (vecTy 0 .bv 8) 0] (Adt.mkTuple (.user 0) [vecTy 0 .sint 8]) [0] [] =
        .error .typeError ∧
      ∃ o, Adt.construct vecWorld [.leaf (vecTy 1 .bv 8) 0] T' [0] [] = .ok o) ∧
    ∃ T', Adt.rebindType vecWorld (famSel 1) absBit (bitTy 1) (Adt.mkSum vecWorld (.user 3) [vecTy 0 .sint 8]) = .ok T' ∧
      (∃ o, Adt.construct vecWorld [.leaf (vecTy 0 .sint 8) 0] (Adt.mkSum vecWorld (.user 3) [vecTy 0 .sint 8]) [0] [] =
        .ok o) ∧
      Adt.construct vecWorld [.leaf (vecTy 1 .sint 8) 0] T' [0] [] = .error .typeError := by
  have hs : ∀ t, vecWorld.canon [t] = [t] := fun t =>
    List.perm_singleton.1 ((List.perm_ext_iff_of_nodup (vecWorld.nodup_canon _) (by simp)).2 (vecWorld.mem_canon _))
  constructor
  · refine ⟨Adt.mkTuple (.user 0) [vecTy 1 .bv 8], rfl, rfl, _, rfl⟩
  · refine ⟨Adt.mkSum vecWorld (.user 3) [vecTy 1 .bv 8], ?_, ?_, ?_⟩
    all_goals simp only [Adt.mkSum, hs]
    · have hb : Adt.Built vecWorld (Adt.mkSum vecWorld (.user 3) [vecTy 0 .sint 8]) :=
        .sum _ _ fun t ht => by
          simp only [List.mem_singleton] at ht
          subst ht
          exact .leaf _
      rw [Adt.mkSum, hs] at hb
      rw [Adt.rebindType_eq (by intros; rfl) vecWorld_vec hb (.node _ _ ⟨by simp, rfl⟩ fun t ht => by
        simp only [List.mem_singleton] at ht
        subst ht
        exact .leaf _), ← hs (vecTy 1 .bv 8)]
      rfl
    · exact ⟨_, rfl⟩
    · rfl

/-- The second argument is in the second variable. -/
example : (start concreteR [.bit true, .bit false]).value concreteR 1 = some (.bit false) :=
  C155_inputs (F := concreteR) [.bit true, .bit false] (i := 1) (by decide)

/-- Values have one class exactly if they are of one family, and are both bits, or vectors of one class and one size. -/
theorem C155_classes {F G : RFamily} (x : Reg F.V F.B) (y : Reg G.V G.B) : cls F x = cls G y ↔ F.fam = G.fam ∧
    ((∃ b c, x = .bit b ∧ y = .bit c) ∨ ∃ v w, x = .vec v ∧ y = .vec w ∧ F.root v = G.root w ∧ F.size v = G.size w) := by
  cases x with
  | bit b => cases y <;> simp [cls, bitTy, vecTy]
  | vec v =>
    cases y with
    | bit c => simp [cls, bitTy, vecTy]
    | vec w =>
      have key : ∀ r r' : Root, 4 * F.fam + rootNum r = 4 * G.fam + rootNum r' ↔ F.fam = G.fam ∧ r = r' := by
        intro r r'
        constructor
        · intro h
          have h1 : ∀ r, rootNum r < 4 := by intro r; cases r <;> decide
          have := h1 r
          have := h1 r'
          have e : rootNum r = rootNum r' := by omega
          refine ⟨by omega, ?_⟩
          cases r <;> cases r' <;> first | rfl | cases e
        · rintro ⟨h, rfl⟩; rw [h]
      simp only [cls, vecTy, Ty.leaf.injEq, Adt.Leaf.vec.injEq, Option.some.injEq, key, reduceCtorEq, and_false,
        exists_false, false_or, Reg.vec.injEq]
      constructor
      · rintro ⟨⟨h1, h2⟩, h3⟩; exact ⟨h1, v, w, rfl, rfl, h2, h3⟩
      · rintro ⟨h1, v', w', rfl, rfl, h2, h3⟩; exact ⟨⟨h1, h2⟩, h3⟩

/-- `UIntVector[8]` and `SIntVector[8]` are two classes. -/
example : cls concreteR (.vec ⟨.root .uint, 8, 5⟩) ≠ cls concreteR (.vec ⟨.root .sint, 8, 5⟩) := by decide

end HW
