import Verif.Model.IfConv
import Verif.Lemmas.SeqCircuit

/-! The rewritten function run with two families, and against the function with `if`. -/

namespace HW.Circuit
open HW IfConv

inductive OptRel {α β : Type} (R : α → β → Prop) : Option α → Option β → Prop
  | none : OptRel R none none
  | some {a b} : R a b → OptRel R (some a) (some b)

namespace Sim
variable {F G : Family} {E : PyErr → PyErr → Prop} {RV : F.V → G.V → Prop} {RB : F.B → G.B → Prop} (H : Sim F G E RV RB)
include H

theorem merge_rel {c : F.B} {d : G.B} (hc : RB c d) {a a' : Reg F.V F.B} {b b' : Reg G.V G.B} (h : RegRel RV RB a b)
    (h' : RegRel RV RB a' b') : RelP E (RegRel RV RB) (merge F c a a') (merge G d b b') := by
  cases h with
  | vec h =>
    cases h' with
    | vec h' => exact H.check_rel (by rw [H.sameClass h h']) fun hs => (H.mux hc h h' hs).bind fun _ _ hz => .vec hz
    | bit => exact H.refl _
  | bit h =>
    cases h' with
    | vec => exact H.refl _
    | bit h' =>
      exact (H.bitNot hc).bind fun _ _ hn => (H.bit .and hc h).bind fun _ _ hl => (H.bit .and hn h').bind fun _ _ hr =>
        (H.bit .or hl hr).bind fun _ _ hz => .bit hz

theorem mergeAll_rel {c : F.B} {d : G.B} (hc : RB c d) {u u' : List (Reg F.V F.B)} {w w' : List (Reg G.V G.B)}
    (h : List.Forall₂ (RegRel RV RB) u w) (h' : List.Forall₂ (RegRel RV RB) u' w') :
    ∀ l, RelP E (List.Forall₂ (RegRel RV RB)) (mergeAll F c u u' l) (mergeAll G d w w' l)
  | [] => .nil
  | o :: os => (H.read_rel h o.1).bind fun _ _ ha => (H.read_rel h' o.2).bind fun _ _ hb =>
      (H.merge_rel hc ha hb).bind fun _ _ hv => (mergeAll_rel hc h h' os).bind fun _ _ hvs => .cons hv hvs

theorem path_rel {pc : Option F.B} {qc : Option G.B} (h : OptRel RB pc qc) {c : F.B} {d : G.B} (hc : RB c d) :
    RelP E RB (path F pc c) (path G qc d) := by
  cases h with
  | none => exact hc
  | some h => exact H.bit .and h hc

theorem oblige_rel {pc : Option F.B} {qc : Option G.B} (h : OptRel RB pc qc) {c : F.B} {d : G.B} (hc : RB c d) :
    RelP E RB (oblige F pc c) (oblige G qc d) := by
  cases h with
  | none => exact hc
  | some h => exact (H.bitNot h).bind fun _ _ hn => H.bit .or hn hc

theorem both_rel (p : Code) : ∀ {pc : Option F.B} {qc : Option G.B} {s : List (Reg F.V F.B)} {t : List (Reg G.V G.B)},
    OptRel RB pc qc → List.Forall₂ (RegRel RV RB) s t →
    RelP E (fun r r' => List.Forall₂ (RegRel RV RB) r.1 r'.1 ∧ List.Forall₂ RB r.2 r'.2) (both F pc s p) (both G qc t p) := by
  induction p with
  | done => intro pc qc s t _ h; exact ⟨h, .nil⟩
  | instr i p ih => intro pc qc s t hq h; exact (H.step_rel h i).bind fun _ _ hs => ih hq hs
  | check a p ih =>
    intro pc qc s t hq h
    exact (H.readB_rel h a).bind fun _ _ ha => (H.oblige_rel hq ha).bind fun _ _ hg => (ih hq h).bind fun _ _ hr =>
      ⟨hr.1, .cons hg hr.2⟩
  | cond c t f outs p iht ihf ih =>
    intro pc qc s t hq h
    refine (H.readB_rel h c).bind fun _ _ hc => (H.bitNot hc).bind fun _ _ hn => (H.path_rel hq hc).bind fun _ _ ht =>
      (H.path_rel hq hn).bind fun _ _ hf => (iht (.some ht) h).bind fun _ _ hu => (ihf (.some hf) h).bind fun _ _ hw =>
      (H.mergeAll_rel hc hu.1 hw.1 outs).bind fun _ _ hv => (ih hq (List.rel_append h hv)).bind fun _ _ hr => ?_
    exact ⟨hr.1, List.rel_append (List.rel_append hu.2 hw.2) hr.2⟩

end Sim

/-- Registers a simulation can hold: well-formed vectors of predefined classes and positive widths. -/
def InRange : Reg BVal Bool → Prop
  | .vec x => x.WF ∧ 0 < x.size ∧ ∃ r, x.kind = .root r
  | .bit _ => True

namespace IfConv

theorem ok_bind_inv {α β : Type} {m : PyM α} {f : α → PyM β} {b : β} (h : (m >>= f) = .ok b) :
    ∃ a, m = .ok a ∧ f a = .ok b := by
  cases m with
  | error e => cases h
  | ok a => exact ⟨a, rfl, h⟩

theorem cbit_and (a b : Bool) : concrete.bit .and a b = .ok (a && b) := cBitOp_eq .and a b
theorem cbit_or (a b : Bool) : concrete.bit .or a b = .ok (a || b) := cBitOp_eq .or a b
theorem cbit_not (a : Bool) : concrete.bitNot a = .ok (!a) := by cases a <;> rfl

/-- `merge` selects. -/
theorem merge_sel {c : Bool} {a b v : Reg BVal Bool} (ha : InRange a) (hb : InRange b) (h : merge concrete c a b = .ok v) :
    v = if c then a else b := by
  cases a with
  | vec x =>
    cases b with
    | vec y =>
      obtain ⟨_, h1, h⟩ := ok_bind_inv h
      obtain ⟨z, h2, h⟩ := ok_bind_inv h
      have hs : x.kind = y.kind ∧ x.size = y.size := by
        unfold Circuit.check at h1
        split at h1
        · rename_i hs; exact of_decide_eq_true hs
        · cases h1
      have h2 : (iteBV c x y 0).map Prod.fst = .ok z := h2
      rw [iteBV_eq c ha.1 hb.1 hs.1 hs.2] at h2
      cases h2; cases h
      cases c <;> rfl
    | bit => cases h
  | bit x =>
    cases b with
    | vec => cases h
    | bit y =>
      have e : merge concrete c (.bit x) (.bit y) = .ok (.bit ((c && x) || (!c && y))) := by
        cases c <;> cases x <;> cases y <;> rfl
      have h : Except.ok (Reg.bit ((c && x) || (!c && y))) = Except.ok v := e ▸ h
      cases h
      cases c <;> simp

/-! Good registers stay good: they are what constant expressions of z3 denote. -/

def lift : Reg BVal Bool → Reg Z3.ZBV Z3.BoolE
  | .vec x => .vec ⟨match x.kind with | .root r => r | _ => .bv, x.size, ⟨x.size, fun _ => BitVec.ofInt x.size x.value⟩⟩
  | .bit b => .bit fun _ => b

theorem lift_rel (e : Z3.Env) {r : Reg BVal Bool} (h : InRange r) : RegRel (Z3.Den e) (Z3.DenBit e) (lift r) r := by
  cases r with
  | bit b => exact .bit rfl
  | vec x =>
    obtain ⟨h1, h2, r, hr⟩ := h
    refine .vec ⟨?_, rfl, h2, _, rfl, ?_⟩
    · rw [hr]
    · have h0 := h1.1
      have h3 := h1.2
      rw [BitVec.toNat_ofInt]
      have : x.value % (2 ^ x.size : Nat) = x.value := Int.emod_eq_of_lt h0 (by exact_mod_cast h3)
      rw [this]; omega

theorem good_of_rel {e : Z3.Env} {z : Reg Z3.ZBV Z3.BoolE} {r : Reg BVal Bool} (h : RegRel (Z3.Den e) (Z3.DenBit e) z r) :
    InRange r := by
  cases h with
  | bit => trivial
  | vec h => exact ⟨Z3.Den.WF h, by rw [h.2.1]; exact h.2.2.1, _, h.1⟩

theorem lifts (e : Z3.Env) {s : List (Reg BVal Bool)} (h : ∀ r ∈ s, InRange r) :
    List.Forall₂ (RegRel (Z3.Den e) (Z3.DenBit e)) (s.map lift) s := by
  induction s with
  | nil => exact .nil
  | cons r s ih => exact .cons (lift_rel e (h r (by simp))) (ih fun r hr => h r (by simp [hr]))

theorem goods_of_rel {e : Z3.Env} {z : List (Reg Z3.ZBV Z3.BoolE)} {s : List (Reg BVal Bool)}
    (h : List.Forall₂ (RegRel (Z3.Den e) (Z3.DenBit e)) z s) : ∀ r ∈ s, InRange r := by
  induction h with
  | nil => simp
  | cons h _ ih =>
    intro r hr
    rcases List.mem_cons.1 hr with rfl | hr
    · exact good_of_rel h
    · exact ih r hr

def e0 : Z3.Env := ⟨fun _ => false, fun _ _ => 0⟩

theorem good_step {s t : List (Reg BVal Bool)} {i : Instr} (h : ∀ r ∈ s, InRange r) (hs : step concrete s i = .ok t) :
    ∀ r ∈ t, InRange r := by
  obtain ⟨_, _, hr⟩ := RelP.ok_right ((z3_sim e0).step_rel (lifts e0 h) i) hs
  exact goods_of_rel hr

theorem good_both {s u : List (Reg BVal Bool)} {p : Code} {pc : Option Bool} {obs : List Bool} (h : ∀ r ∈ s, InRange r)
    (hs : both concrete pc s p = .ok (u, obs)) : ∀ r ∈ u, InRange r := by
  have hp : OptRel (Z3.DenBit e0) (pc.map fun b _ => b) pc := by
    cases pc with
    | none => exact .none
    | some b => exact .some rfl
  obtain ⟨_, _, hr⟩ := RelP.ok_right ((z3_sim e0).both_rel p hp (lifts e0 h)) hs
  exact goods_of_rel hr.1

theorem read_good {u : List (Reg BVal Bool)} (h : ∀ r ∈ u, InRange r) {i : Nat} {a : Reg BVal Bool}
    (ha : Circuit.read concrete u i = .ok a) : InRange a := by
  unfold Circuit.read at ha
  split at ha
  · rename_i hi; cases ha; exact h _ (List.mem_of_getElem? hi)
  · cases ha

theorem mergeAll_sel {c : Bool} {u w vs : List (Reg BVal Bool)} (hu : ∀ r ∈ u, InRange r) (hw : ∀ r ∈ w, InRange r)
    {l : List (Nat × Nat)} (h : mergeAll concrete c u w l = .ok vs) :
    (if c then readAll concrete u (l.map (·.1)) else readAll concrete w (l.map (·.2))) = .ok vs ∧ ∀ r ∈ vs, InRange r := by
  induction l generalizing vs with
  | nil => cases h; cases c <;> exact ⟨rfl, nofun⟩
  | cons o os ih =>
    obtain ⟨a, h1, h⟩ := ok_bind_inv h
    obtain ⟨b, h2, h⟩ := ok_bind_inv h
    obtain ⟨v, h3, h⟩ := ok_bind_inv h
    obtain ⟨vs', h4, h⟩ := ok_bind_inv h
    cases h
    obtain ⟨i1, i2⟩ := ih h4
    have ga := read_good hu h1
    have gb := read_good hw h2
    have hv := merge_sel ga gb h3
    cases c with
    | true =>
      replace hv : v = a := hv
      subst hv
      replace i1 : readAll concrete u (os.map (·.1)) = .ok vs' := i1
      refine ⟨?_, fun r hr => (List.mem_cons.1 hr).elim (fun h => h ▸ ga) (i2 r)⟩
      simp only [if_true, List.map_cons, readAll, h1, i1]
      rfl
    | false =>
      replace hv : v = b := hv
      subst hv
      replace i1 : readAll concrete w (os.map (·.2)) = .ok vs' := i1
      refine ⟨?_, fun r hr => (List.mem_cons.1 hr).elim (fun h => h ▸ gb) (i2 r)⟩
      simp only [Bool.false_eq_true, if_false, List.map_cons, readAll, h2, i1]
      rfl

theorem path_val (pc : Option Bool) (c : Bool) : path concrete pc c = .ok (pc.getD true && c) := by
  cases pc with
  | none => cases c <;> rfl
  | some q => exact cbit_and q c

theorem oblige_val (pc : Option Bool) (a : Bool) : oblige concrete pc a = .ok (!pc.getD true || a) := by
  cases pc with
  | none => cases a <;> rfl
  | some q => cases q <;> cases a <;> rfl

theorem both_check_inv {a : Nat} {p : Code} {pc : Option Bool} {s u : List (Reg BVal Bool)} {obs : List Bool}
    (h : both concrete pc s (.check a p) = .ok (u, obs)) : ∃ (b : Bool) (o : List Bool), readB concrete s a = .ok b ∧
      obs = (!pc.getD true || b) :: o ∧ both concrete pc s p = .ok (u, o) := by
  obtain ⟨b, h1, h⟩ := ok_bind_inv h
  obtain ⟨g, h2, h⟩ := ok_bind_inv h
  obtain ⟨⟨r1, r2⟩, h3, h⟩ := ok_bind_inv h
  cases h
  have e := (oblige_val pc b).symm.trans h2
  cases e
  exact ⟨b, r2, h1, rfl, h3⟩

theorem both_cond_inv {c : Nat} {t f p : Code} {outs : List (Nat × Nat)} {pc : Option Bool} {s u : List (Reg BVal Bool)}
    {obs : List Bool} (h : both concrete pc s (.cond c t f outs p) = .ok (u, obs)) :
    ∃ (b : Bool) (ut uf vs : List (Reg BVal Bool)) (ot of o : List Bool), readB concrete s c = .ok b ∧
      both concrete (some (pc.getD true && b)) s t = .ok (ut, ot) ∧
      both concrete (some (pc.getD true && !b)) s f = .ok (uf, of) ∧ mergeAll concrete b ut uf outs = .ok vs ∧
      both concrete pc (s ++ vs) p = .ok (u, o) ∧ obs = ot ++ of ++ o := by
  obtain ⟨b, h1, h⟩ := ok_bind_inv h
  obtain ⟨n, h2, h⟩ := ok_bind_inv h
  obtain ⟨ct, h3, h⟩ := ok_bind_inv h
  obtain ⟨cf, h4, h⟩ := ok_bind_inv h
  obtain ⟨⟨u1, u2⟩, h5, h⟩ := ok_bind_inv h
  obtain ⟨⟨w1, w2⟩, h6, h⟩ := ok_bind_inv h
  obtain ⟨vs, h7, h⟩ := ok_bind_inv h
  obtain ⟨⟨r1, r2⟩, h8, h⟩ := ok_bind_inv h
  cases h
  have e2 := (cbit_not b).symm.trans h2
  cases e2
  have e3 := (path_val pc b).symm.trans h3
  cases e3
  have e4 := (path_val pc _).symm.trans h4
  cases e4
  exact ⟨b, u1, w1, vs, u2, w2, r2, h1, h5, h6, h7, h8, rfl⟩

theorem both_instr {i : Instr} {p : Code} {pc : Option Bool} {s t : List (Reg BVal Bool)} (h : step concrete s i = .ok t) :
    both concrete pc s (.instr i p) = both concrete pc t p := by
  show (step concrete s i >>= _) = _
  rw [h]; rfl

theorem exec_instr {i : Instr} {p : Code} {s t : List (Reg BVal Bool)} (h : step concrete s i = .ok t) :
    simulate s (.instr i p) = simulate t p := by
  show (step concrete s i >>= _) = _
  rw [h]; rfl

theorem exec_check {a : Nat} {p : Code} {s : List (Reg BVal Bool)} {b : Bool} (h : readB concrete s a = .ok b) :
    simulate s (.check a p) = if b = true then simulate s p else .error .assertionError := by
  show (readB concrete s a >>= _) = _
  rw [h]; rfl

theorem exec_true {c : Nat} {t f p : Code} {outs : List (Nat × Nat)} {s : List (Reg BVal Bool)}
    (h : readB concrete s c = .ok true) : simulate s (.cond c t f outs p) =
      (simulate s t).bind fun (u : List (Reg BVal Bool)) => (readAll concrete u (outs.map (·.1))).bind fun (vs : List (Reg BVal Bool)) => simulate (s ++ vs) p := by
  show (readB concrete s c >>= _) = _
  rw [h]; rfl

theorem exec_false {c : Nat} {t f p : Code} {outs : List (Nat × Nat)} {s : List (Reg BVal Bool)}
    (h : readB concrete s c = .ok false) : simulate s (.cond c t f outs p) =
      (simulate s f).bind fun (u : List (Reg BVal Bool)) => (readAll concrete u (outs.map (·.2))).bind fun (vs : List (Reg BVal Bool)) => simulate (s ++ vs) p := by
  show (readB concrete s c >>= _) = _
  rw [h]; rfl

/-- What the rewritten function returns, the function with `if` returns, if the obligations hold; if not it raises
AssertionError.  Off its path the rewritten function has no obligations that fail. -/
theorem exec_both (p : Code) : ∀ {pc : Option Bool} {s u : List (Reg BVal Bool)} {obs : List Bool},
    (∀ r ∈ s, InRange r) → both concrete pc s p = .ok (u, obs) →
    (pc.getD true = true → simulate s p = if obs.all id then .ok u else .error .assertionError) ∧
    (pc.getD true = false → obs.all id = true) := by
  induction p with
  | done =>
    intro pc s u obs _ h
    cases h
    exact ⟨fun _ => rfl, fun _ => rfl⟩
  | instr i p ih =>
    intro pc s u obs hg h
    obtain ⟨t, h1, h⟩ := ok_bind_inv h
    obtain ⟨i1, i2⟩ := ih (good_step hg h1) h
    exact ⟨fun hp => (exec_instr h1).trans (i1 hp), i2⟩
  | check a p ih =>
    intro pc s u obs hg h
    obtain ⟨b, o, h1, rfl, h3⟩ := both_check_inv h
    obtain ⟨i1, i2⟩ := ih hg h3
    constructor
    · intro hp
      rw [exec_check h1, i1 hp, hp]
      cases b <;> simp
    · intro hp
      simp [hp, i2 hp]
  | cond c t f outs p iht ihf ih =>
    intro pc s u obs hg h
    obtain ⟨b, ut, uf, vs, ot, of, o, h1, h5, h6, h7, h8, rfl⟩ := both_cond_inv h
    obtain ⟨m1, m2⟩ := mergeAll_sel (good_both hg h5) (good_both hg h6) h7
    have gs : ∀ r ∈ s ++ vs, InRange r := fun r hr => (List.mem_append.1 hr).elim (hg r) (m2 r)
    have t1 : (pc.getD true && b) = true → simulate s t = if ot.all id then .ok ut else .error .assertionError := (iht hg h5).1
    have t2 : (pc.getD true && b) = false → ot.all id = true := (iht hg h5).2
    have f1 : (pc.getD true && !b) = true → simulate s f = if of.all id then .ok uf else .error .assertionError := (ihf hg h6).1
    have f2 : (pc.getD true && !b) = false → of.all id = true := (ihf hg h6).2
    obtain ⟨i1, i2⟩ := ih gs h8
    constructor
    · intro hp
      rw [hp] at t1 t2 f1 f2
      cases b with
      | true =>
        have m1 : readAll concrete ut (outs.map (·.1)) = .ok vs := m1
        rw [exec_true h1, t1 rfl]
        simp only [List.all_append, f2 rfl, Bool.and_true]
        by_cases ho : ot.all id = true
        · rw [if_pos ho]
          show (readAll concrete ut (outs.map (·.1))).bind _ = _
          rw [m1]
          show simulate (s ++ vs) p = _
          rw [i1 hp, ho, Bool.true_and]
        · rw [if_neg ho, if_neg (by simp [ho])]; rfl
      | false =>
        have m1 : readAll concrete uf (outs.map (·.2)) = .ok vs := m1
        rw [exec_false h1, f1 rfl]
        simp only [List.all_append, t2 rfl, Bool.true_and]
        by_cases ho : of.all id = true
        · rw [if_pos ho]
          show (readAll concrete uf (outs.map (·.2))).bind _ = _
          rw [m1]
          show simulate (s ++ vs) p = _
          rw [i1 hp, ho, Bool.true_and]
        · rw [if_neg ho, if_neg (by simp [ho])]; rfl
    · intro hp
      rw [hp] at t2 f2
      simp only [Bool.false_and, forall_const] at t2 f2
      simp [t2, f2, i2 hp]

end IfConv
end HW.Circuit
