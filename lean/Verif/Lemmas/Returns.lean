import Verif.Model.Returns
import Verif.Lemmas.IfConv

/-! The rewritten function with several returns, with two families, and against the function with `if`. -/

namespace HW.Circuit
open HW IfConv Returns

namespace Sim
variable {F G : Family} {E : PyErr → PyErr → Prop} {RV : F.V → G.V → Prop} {RB : F.B → G.B → Prop} (H : Sim F G E RV RB)
include H

theorem mergeRets_rel {c : F.B} {d : G.B} (hc : RB c d) {u u' : List (Reg F.V F.B)} {w w' : List (Reg G.V G.B)}
    (h : List.Forall₂ (RegRel RV RB) u w) (h' : List.Forall₂ (RegRel RV RB) u' w') :
    RelP E (List.Forall₂ (RegRel RV RB)) (mergeRets F c u u') (mergeRets G d w w') := by
  induction h generalizing u' w' with
  | nil =>
    cases h' with
    | nil => exact .nil
    | cons => exact H.refl _
  | cons ha _ ih =>
    cases h' with
    | nil => exact H.refl _
    | cons hb h' => exact (H.merge_rel hc ha hb).bind fun _ _ hv => (ih h').bind fun _ _ hvs => .cons hv hvs

theorem fork_rel (p : Fn) : ∀ {pc : Option F.B} {qc : Option G.B} {s : List (Reg F.V F.B)} {t : List (Reg G.V G.B)},
    OptRel RB pc qc → List.Forall₂ (RegRel RV RB) s t →
    RelP E (fun r r' => List.Forall₂ (RegRel RV RB) r.1 r'.1 ∧ List.Forall₂ RB r.2 r'.2) (fork F pc s p) (fork G qc t p) := by
  induction p with
  | ret outs => intro pc qc s t _ h; exact (H.readAll_rel h outs).bind fun _ _ hv => ⟨hv, .nil⟩
  | instr i p ih => intro pc qc s t hq h; exact (H.step_rel h i).bind fun _ _ hs => ih hq hs
  | check a p ih =>
    intro pc qc s t hq h
    exact (H.readB_rel h a).bind fun _ _ ha => (H.oblige_rel hq ha).bind fun _ _ hg => (ih hq h).bind fun _ _ hr =>
      ⟨hr.1, .cons hg hr.2⟩
  | join c t f outs p ih =>
    intro pc qc s t' hq h
    refine (H.readB_rel h c).bind fun _ _ hc => (H.bitNot hc).bind fun _ _ hn => (H.path_rel hq hc).bind fun _ _ ht =>
      (H.path_rel hq hn).bind fun _ _ hf => (H.both_rel t (.some ht) h).bind fun _ _ hu =>
      (H.both_rel f (.some hf) h).bind fun _ _ hw =>
      (H.mergeAll_rel hc hu.1 hw.1 outs).bind fun _ _ hv => (ih hq (List.rel_append h hv)).bind fun _ _ hr => ?_
    exact ⟨hr.1, List.rel_append (List.rel_append hu.2 hw.2) hr.2⟩
  | cond c t f iht ihf =>
    intro pc qc s t' hq h
    exact (H.readB_rel h c).bind fun _ _ hc => (H.bitNot hc).bind fun _ _ hn => (H.path_rel hq hc).bind fun _ _ ht =>
      (H.path_rel hq hn).bind fun _ _ hf => (iht (.some ht) h).bind fun _ _ hu => (ihf (.some hf) h).bind fun _ _ hw =>
      (H.mergeRets_rel hc hu.1 hw.1).bind fun _ _ hv => ⟨hv, List.rel_append hu.2 hw.2⟩

end Sim

namespace Returns

theorem good_fork {s u : List (Reg BVal Bool)} {p : Fn} {pc : Option Bool} {obs : List Bool} (h : ∀ r ∈ s, InRange r)
    (hs : fork concrete pc s p = .ok (u, obs)) : ∀ r ∈ u, InRange r := by
  have hp : OptRel (Z3.DenBit e0) (pc.map fun b _ => b) pc := by
    cases pc with
    | none => exact .none
    | some b => exact .some rfl
  obtain ⟨_, _, hr⟩ := RelP.ok_right ((z3_sim e0).fork_rel p hp (lifts e0 h)) hs
  exact goods_of_rel hr.1

theorem mergeRets_sel {c : Bool} : ∀ {u w vs : List (Reg BVal Bool)}, (∀ r ∈ u, InRange r) → (∀ r ∈ w, InRange r) →
    mergeRets concrete c u w = .ok vs → vs = if c then u else w
  | [], [], _, _, _, h => by cases h; cases c <;> rfl
  | [], _ :: _, _, _, _, h => by cases h
  | _ :: _, [], _, _, _, h => by cases h
  | a :: u, b :: w, _, hu, hw, h => by
    obtain ⟨v, h1, h⟩ := ok_bind_inv h
    obtain ⟨vs, h2, h⟩ := ok_bind_inv h
    cases h
    rw [merge_sel (hu a (by simp)) (hw b (by simp)) h1,
      mergeRets_sel (fun r hr => hu r (by simp [hr])) (fun r hr => hw r (by simp [hr])) h2]
    cases c <;> rfl

theorem fork_check_inv {a : Nat} {p : Fn} {pc : Option Bool} {s u : List (Reg BVal Bool)} {obs : List Bool}
    (h : fork concrete pc s (.check a p) = .ok (u, obs)) : ∃ (b : Bool) (o : List Bool), readB concrete s a = .ok b ∧
      obs = (!pc.getD true || b) :: o ∧ fork concrete pc s p = .ok (u, o) := by
  obtain ⟨b, h1, h⟩ := ok_bind_inv h
  obtain ⟨g, h2, h⟩ := ok_bind_inv h
  obtain ⟨⟨r1, r2⟩, h3, h⟩ := ok_bind_inv h
  cases h
  have e := (oblige_val pc b).symm.trans h2
  cases e
  exact ⟨b, r2, h1, rfl, h3⟩

/-- An `if` that falls through, as in `exec_both`. -/
theorem fork_join_inv {c : Nat} {t f : Code} {p : Fn} {outs : List (Nat × Nat)} {pc : Option Bool}
    {s u : List (Reg BVal Bool)} {obs : List Bool} (h : fork concrete pc s (.join c t f outs p) = .ok (u, obs)) :
    ∃ (b : Bool) (ut uf vs : List (Reg BVal Bool)) (ot of o : List Bool), readB concrete s c = .ok b ∧
      both concrete (some (pc.getD true && b)) s t = .ok (ut, ot) ∧
      both concrete (some (pc.getD true && !b)) s f = .ok (uf, of) ∧ mergeAll concrete b ut uf outs = .ok vs ∧
      fork concrete pc (s ++ vs) p = .ok (u, o) ∧ obs = ot ++ of ++ o := by
  obtain ⟨b, h1, h⟩ := ok_bind_inv h
  obtain ⟨n, h2, h⟩ := ok_bind_inv h
  obtain ⟨ct, h3, h⟩ := ok_bind_inv h
  obtain ⟨cf, h4, h⟩ := ok_bind_inv h
  obtain ⟨⟨u1, u2⟩, h5, h⟩ := ok_bind_inv h
  obtain ⟨⟨w1, w2⟩, h6, h⟩ := ok_bind_inv h
  obtain ⟨vs, h7, h⟩ := ok_bind_inv h
  obtain ⟨⟨r1, r2⟩, h8, h⟩ := ok_bind_inv h
  cases h
  have e2 := (cbit_not b).symm.trans h2
  cases e2
  have e3 := (path_val pc b).symm.trans h3
  cases e3
  have e4 := (path_val pc _).symm.trans h4
  cases e4
  exact ⟨b, u1, w1, vs, u2, w2, r2, h1, h5, h6, h7, h8, rfl⟩

theorem fork_cond_inv {c : Nat} {t f : Fn} {pc : Option Bool} {s u : List (Reg BVal Bool)} {obs : List Bool}
    (h : fork concrete pc s (.cond c t f) = .ok (u, obs)) :
    ∃ (b : Bool) (ut uf : List (Reg BVal Bool)) (ot of : List Bool), readB concrete s c = .ok b ∧
      fork concrete (some (pc.getD true && b)) s t = .ok (ut, ot) ∧
      fork concrete (some (pc.getD true && !b)) s f = .ok (uf, of) ∧ mergeRets concrete b ut uf = .ok u ∧
      obs = ot ++ of := by
  obtain ⟨b, h1, h⟩ := ok_bind_inv h
  obtain ⟨n, h2, h⟩ := ok_bind_inv h
  obtain ⟨ct, h3, h⟩ := ok_bind_inv h
  obtain ⟨cf, h4, h⟩ := ok_bind_inv h
  obtain ⟨⟨u1, u2⟩, h5, h⟩ := ok_bind_inv h
  obtain ⟨⟨w1, w2⟩, h6, h⟩ := ok_bind_inv h
  obtain ⟨vs, h7, h⟩ := ok_bind_inv h
  cases h
  have e2 := (cbit_not b).symm.trans h2
  cases e2
  have e3 := (path_val pc b).symm.trans h3
  cases e3
  have e4 := (path_val pc _).symm.trans h4
  cases e4
  exact ⟨b, u1, w1, u2, w2, h1, h5, h6, h7, rfl⟩

theorem call_instr {i : Instr} {p : Fn} {s t : List (Reg BVal Bool)} (h : step concrete s i = .ok t) :
    simCall s (.instr i p) = simCall t p := by
  show (step concrete s i >>= _) = _
  rw [h]; rfl

theorem fork_instr {i : Instr} {p : Fn} {pc : Option Bool} {s t : List (Reg BVal Bool)} (h : step concrete s i = .ok t) :
    fork concrete pc s (.instr i p) = fork concrete pc t p := by
  show (step concrete s i >>= _) = _
  rw [h]; rfl

theorem call_check {a : Nat} {p : Fn} {s : List (Reg BVal Bool)} {b : Bool} (h : readB concrete s a = .ok b) :
    simCall s (.check a p) = if b = true then simCall s p else .error .assertionError := by
  show (readB concrete s a >>= _) = _
  rw [h]; rfl

theorem call_join {c : Nat} {t f : Code} {p : Fn} {outs : List (Nat × Nat)} {s : List (Reg BVal Bool)} {b : Bool}
    (h : readB concrete s c = .ok b) : simCall s (.join c t f outs p) =
      (simulate s (if b then t else f)).bind fun (u : List (Reg BVal Bool)) =>
        (if b then readAll concrete u (outs.map (·.1)) else readAll concrete u (outs.map (·.2))).bind
          fun (vs : List (Reg BVal Bool)) => simCall (s ++ vs) p := by
  show (readB concrete s c >>= _) = _
  rw [h]; cases b <;> rfl

theorem call_cond {c : Nat} {t f : Fn} {s : List (Reg BVal Bool)} {b : Bool}
    (h : readB concrete s c = .ok b) : simCall s (.cond c t f) = simCall s (if b then t else f) := by
  show (readB concrete s c >>= _) = _
  rw [h]; cases b <;> rfl

/-- What the rewritten function returns, the function returns, if the obligations hold; if not it raises AssertionError. -/
theorem call_fork (p : Fn) : ∀ {pc : Option Bool} {s u : List (Reg BVal Bool)} {obs : List Bool},
    (∀ r ∈ s, InRange r) → fork concrete pc s p = .ok (u, obs) →
    (pc.getD true = true → simCall s p = if obs.all id then .ok u else .error .assertionError) ∧
    (pc.getD true = false → obs.all id = true) := by
  induction p with
  | ret outs =>
    intro pc s u obs _ h
    obtain ⟨vs, h1, h⟩ := ok_bind_inv h
    cases h
    exact ⟨fun _ => h1, fun _ => rfl⟩
  | instr i p ih =>
    intro pc s u obs hg h
    obtain ⟨t, h1, h⟩ := ok_bind_inv h
    obtain ⟨i1, i2⟩ := ih (good_step hg h1) h
    exact ⟨fun hp => (call_instr h1).trans (i1 hp), i2⟩
  | check a p ih =>
    intro pc s u obs hg h
    obtain ⟨b, o, h1, rfl, h3⟩ := fork_check_inv h
    obtain ⟨i1, i2⟩ := ih hg h3
    constructor
    · intro hp
      rw [call_check h1, i1 hp, hp]
      cases b <;> simp
    · intro hp
      simp [hp, i2 hp]
  | join c t f outs p ih =>
    intro pc s u obs hg h
    obtain ⟨b, ut, uf, vs, ot, of, o, h1, h5, h6, h7, h8, rfl⟩ := fork_join_inv h
    obtain ⟨m1, m2⟩ := mergeAll_sel (good_both hg h5) (good_both hg h6) h7
    have gs : ∀ r ∈ s ++ vs, InRange r := fun r hr => (List.mem_append.1 hr).elim (hg r) (m2 r)
    have t1 : (pc.getD true && b) = true → simulate s t = if ot.all id then .ok ut else .error .assertionError := (exec_both t hg h5).1
    have t2 : (pc.getD true && b) = false → ot.all id = true := (exec_both t hg h5).2
    have f1 : (pc.getD true && !b) = true → simulate s f = if of.all id then .ok uf else .error .assertionError := (exec_both f hg h6).1
    have f2 : (pc.getD true && !b) = false → of.all id = true := (exec_both f hg h6).2
    obtain ⟨i1, i2⟩ := ih gs h8
    constructor
    · intro hp
      rw [hp] at t1 t2 f1 f2
      rw [call_join h1]
      cases b with
      | true =>
        have m1 : readAll concrete ut (outs.map (·.1)) = .ok vs := m1
        simp only [if_true]
        rw [t1 rfl]
        simp only [List.all_append, f2 rfl, Bool.and_true]
        by_cases ho : ot.all id = true
        · rw [if_pos ho]
          show (readAll concrete ut (outs.map (·.1))).bind _ = _
          rw [m1]
          show simCall (s ++ vs) p = _
          rw [i1 hp, ho, Bool.true_and]
        · rw [if_neg ho, if_neg (by simp [ho])]; rfl
      | false =>
        have m1 : readAll concrete uf (outs.map (·.2)) = .ok vs := m1
        simp only [Bool.false_eq_true, if_false]
        rw [f1 rfl]
        simp only [List.all_append, t2 rfl, Bool.true_and]
        by_cases ho : of.all id = true
        · rw [if_pos ho]
          show (readAll concrete uf (outs.map (·.2))).bind _ = _
          rw [m1]
          show simCall (s ++ vs) p = _
          rw [i1 hp, ho, Bool.true_and]
        · rw [if_neg ho, if_neg (by simp [ho])]; rfl
    · intro hp
      rw [hp] at t2 f2
      simp only [Bool.false_and, forall_const] at t2 f2
      simp [t2, f2, i2 hp]
  | cond c t f iht ihf =>
    intro pc s u obs hg h
    obtain ⟨b, ut, uf, ot, of, h1, h5, h6, h7, rfl⟩ := fork_cond_inv h
    have hm := mergeRets_sel (good_fork hg h5) (good_fork hg h6) h7
    have t1 : (pc.getD true && b) = true → simCall s t = if ot.all id then .ok ut else .error .assertionError := (iht hg h5).1
    have t2 : (pc.getD true && b) = false → ot.all id = true := (iht hg h5).2
    have f1 : (pc.getD true && !b) = true → simCall s f = if of.all id then .ok uf else .error .assertionError := (ihf hg h6).1
    have f2 : (pc.getD true && !b) = false → of.all id = true := (ihf hg h6).2
    constructor
    · intro hp
      rw [hp] at t1 t2 f1 f2
      rw [call_cond h1]
      cases b with
      | true =>
        replace hm : u = ut := hm
        subst hm
        simp only [List.all_append, f2 rfl, Bool.and_true]
        exact t1 rfl
      | false =>
        replace hm : u = uf := hm
        subst hm
        simp only [List.all_append, t2 rfl, Bool.true_and]
        exact f1 rfl
    · intro hp
      rw [hp] at t2 f2
      simp only [Bool.false_and, forall_const] at t2 f2
      simp [t2, f2]

end Returns
end HW.Circuit
