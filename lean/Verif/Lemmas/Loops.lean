import Verif.Model.Loops
import Verif.Lemmas.Returns

/-! The unrolled function with two families, and against the function with `while`. -/

namespace HW.Circuit
open HW IfConv Returns Loops

namespace Sim
variable {F G : Family} {E : PyErr → PyErr → Prop} {RV : F.V → G.V → Prop} {RB : F.B → G.B → Prop} (H : Sim F G E RV RB)
include H

theorem unrolled_rel {T : Option F.B → List (Reg F.V F.B) → PyM (F.B × List F.B)}
    {B : Option F.B → List (Reg F.V F.B) → PyM (List (Reg F.V F.B) × List F.B)}
    {T' : Option G.B → List (Reg G.V G.B) → PyM (G.B × List G.B)}
    {B' : Option G.B → List (Reg G.V G.B) → PyM (List (Reg G.V G.B) × List G.B)}
    (hT : ∀ {pc qc s t}, OptRel RB pc qc → List.Forall₂ (RegRel RV RB) s t →
      RelP E (fun r r' => RB r.1 r'.1 ∧ List.Forall₂ RB r.2 r'.2) (T pc s) (T' qc t))
    (hB : ∀ {pc qc s t}, OptRel RB pc qc → List.Forall₂ (RegRel RV RB) s t →
      RelP E (fun r r' => List.Forall₂ (RegRel RV RB) r.1 r'.1 ∧ List.Forall₂ RB r.2 r'.2) (B pc s) (B' qc t)) (k : Nat) :
    ∀ {pc qc s t}, OptRel RB pc qc → List.Forall₂ (RegRel RV RB) s t →
      RelP E (fun r r' => List.Forall₂ (RegRel RV RB) r.1 r'.1 ∧ List.Forall₂ RB r.2 r'.2)
        (turns F T B k pc s) (turns G T' B' k qc t) := by
  induction k with
  | zero =>
    intro pc qc s t hq h
    exact (hT hq h).bind fun _ _ hc => (H.bitNot hc.1).bind fun _ _ hn => (H.oblige_rel hq hn).bind fun _ _ hg =>
      ⟨h, List.rel_append hc.2 (.cons hg .nil)⟩
  | succ k ih =>
    intro pc qc s t hq h
    exact (hT hq h).bind fun _ _ hc => (H.path_rel hq hc.1).bind fun _ _ hp => (hB (.some hp) h).bind fun _ _ hb =>
      (ih (.some hp) hb.1).bind fun _ _ hr => (H.mergeRets_rel hc.1 hr.1 h).bind fun _ _ hw =>
      ⟨hw, List.rel_append hc.2 (List.rel_append hb.2 hr.2)⟩

theorem unwind_rel (k : Nat) (p : Prog) : ∀ {pc : Option F.B} {qc : Option G.B} {s : List (Reg F.V F.B)} {t : List (Reg G.V G.B)},
    OptRel RB pc qc → List.Forall₂ (RegRel RV RB) s t →
    RelP E (fun r r' => List.Forall₂ (RegRel RV RB) r.1 r'.1 ∧ List.Forall₂ RB r.2 r'.2) (unwind F k pc s p) (unwind G k qc t p) := by
  induction p with
  | done => intro pc qc s t _ h; exact ⟨h, .nil⟩
  | instr i p ih => intro pc qc s t hq h; exact (H.step_rel h i).bind fun _ _ hs => ih hq hs
  | check a p ih =>
    intro pc qc s t hq h
    exact (H.readB_rel h a).bind fun _ _ ha => (H.oblige_rel hq ha).bind fun _ _ hg => (ih hq h).bind fun _ _ hr =>
      ⟨hr.1, .cons hg hr.2⟩
  | cond c t f outs p iht ihf ih =>
    intro pc qc s t hq h
    refine (H.readB_rel h c).bind fun _ _ hc => (H.bitNot hc).bind fun _ _ hn => (H.path_rel hq hc).bind fun _ _ ht =>
      (H.path_rel hq hn).bind fun _ _ hf => (iht (.some ht) h).bind fun _ _ hu => (ihf (.some hf) h).bind fun _ _ hw =>
      (H.mergeAll_rel hc hu.1 hw.1 outs).bind fun _ _ hv => (ih hq (List.rel_append h hv)).bind fun _ _ hr => ?_
    exact ⟨hr.1, List.rel_append (List.rel_append hu.2 hw.2) hr.2⟩
  | loop init head c body next p ihh ihb ih =>
    intro pc qc s t hq h
    refine (H.readAll_rel h init).bind fun _ _ hv => RelP.bind (H.unrolled_rel ?_ ?_ k hq hv) fun _ _ hl =>
      (ih hq (List.rel_append h hl.1)).bind fun _ _ hr => ⟨hr.1, List.rel_append hl.2 hr.2⟩
    · intro pc qc vs ws hq hv
      exact (ihh hq (List.rel_append h hv)).bind fun _ _ hu => (H.readB_rel hu.1 c).bind fun _ _ hb => ⟨hb, hu.2⟩
    · intro pc qc vs ws hq hv
      exact (ihb hq (List.rel_append h hv)).bind fun _ _ hu => (H.readAll_rel hu.1 next).bind fun _ _ hb => ⟨hb, hu.2⟩

end Sim

namespace Loops

/-! ### The function with `while` -/

/-- At most one outcome. -/
def Det {α : Type} (R R' : PyM α → Prop) : Prop := ∀ r r', R r → R' r' → r = r'

theorem det_eq {α : Type} (m : PyM α) : Det (· = m) (· = m) := fun _ _ h h' => h.trans h'.symm

theorem det_then {α β : Type} {R R' : PyM α → Prop} {f f' : α → PyM β → Prop} (h : Det R R') (hf : ∀ a, Det (f a) (f' a)) :
    Det (Then R f) (Then R' f') := by
  rintro r r' (⟨a, h1, h2⟩ | ⟨e, h1, rfl⟩) (⟨a', h3, h4⟩ | ⟨e', h3, rfl⟩)
  · cases h _ _ h1 h3; exact hf _ _ _ h2 h4
  · cases h _ _ h1 h3
  · cases h _ _ h1 h3
  · cases h _ _ h1 h3; rfl

theorem det_turns {α : Type} {T T' : α → PyM Bool → Prop} {B B' : α → PyM α → Prop} (hT : ∀ a, Det (T a) (T' a))
    (hB : ∀ a, Det (B a) (B' a)) {a : α} {n n' : Nat} {r r' : PyM α} (h : Turns T B a n r) (h' : Turns T' B' a n' r') :
    r = r' := by
  induction h generalizing n' with
  | stop h1 =>
    cases h' with
    | stop h2 => rfl
    | test h2 => cases hT _ _ _ h1 h2
    | body h2 => cases hT _ _ _ h1 h2
    | turn h2 => cases hT _ _ _ h1 h2
  | test h1 =>
    cases h' with
    | stop h2 => cases hT _ _ _ h1 h2
    | test h2 => cases hT _ _ _ h1 h2; rfl
    | body h2 => cases hT _ _ _ h1 h2
    | turn h2 => cases hT _ _ _ h1 h2
  | body h1 hb =>
    cases h' with
    | stop h2 => cases hT _ _ _ h1 h2
    | test h2 => cases hT _ _ _ h1 h2
    | body h2 hb' => cases hB _ _ _ hb hb'; rfl
    | turn h2 hb' => cases hB _ _ _ hb hb'
  | turn h1 hb _ ih =>
    cases h' with
    | stop h2 => cases hT _ _ _ h1 h2
    | test h2 => cases hT _ _ _ h1 h2
    | body h2 hb' => cases hB _ _ _ hb hb'
    | turn h2 hb' h3 => cases hB _ _ _ hb hb'; exact ih h3

theorem det_exec {ok ok' : Nat → Prop} (p : Prog) : ∀ s, Det (Exec ok s p) (Exec ok' s p) := by
  induction p with
  | done => intro s; exact det_eq _
  | instr i p ih => intro s; exact det_then (det_eq _) ih
  | check a p ih =>
    intro s
    refine det_then (det_eq _) fun b => ?_
    cases b
    · exact det_eq _
    · exact ih s
  | cond c t f outs p iht ihf ih =>
    intro s
    refine det_then (det_eq _) fun b => det_then ?_ fun vs => ih _
    cases b
    · exact det_then (ihf s) fun _ => det_eq _
    · exact det_then (iht s) fun _ => det_eq _
  | loop init head c body next p ihh ihb ih =>
    intro s
    refine det_then (det_eq _) fun vs => det_then ?_ fun vs => ih _
    rintro r r' ⟨n, -, h⟩ ⟨n', -, h'⟩
    exact det_turns (fun vs => det_then (ihh _) fun _ => det_eq _) (fun vs => det_then (ihb _) fun _ => det_eq _) h h'

theorem then_mono {α β : Type} {R R' : PyM α → Prop} {f f' : α → PyM β → Prop} (h : ∀ r, R r → R' r)
    (hf : ∀ a r, f a r → f' a r) {r : PyM β} : Then R f r → Then R' f' r := by
  rintro (⟨a, h1, h2⟩ | ⟨e, h1, rfl⟩)
  · exact .inl ⟨a, h _ h1, hf _ _ h2⟩
  · exact .inr ⟨e, h _ h1, rfl⟩

theorem turns_mono {α : Type} {T T' : α → PyM Bool → Prop} {B B' : α → PyM α → Prop} (hT : ∀ a r, T a r → T' a r)
    (hB : ∀ a r, B a r → B' a r) {a : α} {n : Nat} {r : PyM α} (h : Turns T B a n r) : Turns T' B' a n r := by
  induction h with
  | stop h1 => exact .stop (hT _ _ h1)
  | test h1 => exact .test (hT _ _ h1)
  | body h1 h2 => exact .body (hT _ _ h1) (hB _ _ h2)
  | turn h1 h2 _ ih => exact .turn (hT _ _ h1) (hB _ _ h2) ih

/-- A larger bound. -/
theorem exec_mono {ok ok' : Nat → Prop} (hk : ∀ n, ok n → ok' n) (p : Prog) : ∀ {s r}, Exec ok s p r → Exec ok' s p r := by
  induction p with
  | done => exact id
  | instr i p ih => intro s r h; exact then_mono (fun _ => id) (fun _ _ => ih) h
  | check a p ih =>
    intro s r h
    refine then_mono (fun _ => id) (fun b r => ?_) h
    cases b
    · exact id
    · exact ih
  | cond c t f outs p iht ihf ih =>
    intro s r h
    refine then_mono (fun _ => id) (fun b r => then_mono (fun r => ?_) fun _ _ => ih) h
    cases b
    · simp only [Bool.false_eq_true, if_false]
      exact then_mono (fun _ => ihf) fun _ _ => id
    · simp only [if_true]
      exact then_mono (fun _ => iht) fun _ _ => id
  | loop init head c body next p ihh ihb ih =>
    intro s r h
    refine then_mono (fun _ => id) (fun vs r => then_mono (fun r => ?_) fun _ _ => ih) h
    rintro ⟨n, hn, h⟩
    exact ⟨n, hk n hn, turns_mono (fun _ _ => then_mono (fun _ => ihh) fun _ _ => id)
      (fun _ _ => then_mono (fun _ => ihb) fun _ _ => id) h⟩

theorem turns_zero {α : Type} {T : α → PyM Bool → Prop} {B : α → PyM α → Prop} {a : α} {r : PyM α} :
    (∃ n, n ≤ 0 ∧ Turns T B a n r) ↔ Then (T a) (fun c r => c = false ∧ r = .ok a) r := by
  constructor
  · rintro ⟨n, hn, h⟩
    cases h with
    | stop h => exact .inl ⟨false, h, rfl, rfl⟩
    | test h => exact .inr ⟨_, h, rfl⟩
    | body => omega
    | turn => omega
  · rintro (⟨c, h, rfl, rfl⟩ | ⟨e, h, rfl⟩)
    · exact ⟨0, le_rfl, .stop h⟩
    · exact ⟨0, le_rfl, .test h⟩

theorem turns_succ {α : Type} {T : α → PyM Bool → Prop} {B : α → PyM α → Prop} {a : α} {r : PyM α} {k : Nat} :
    (∃ n, n ≤ k + 1 ∧ Turns T B a n r) ↔ Then (T a) (fun c => if c then Then (B a) fun a' r => ∃ n, n ≤ k ∧ Turns T B a' n r
      else fun r => r = .ok a) r := by
  constructor
  · rintro ⟨n, hn, h⟩
    cases h with
    | stop h => exact .inl ⟨false, h, rfl⟩
    | test h => exact .inr ⟨_, h, rfl⟩
    | body h hb => exact .inl ⟨true, h, .inr ⟨_, hb, rfl⟩⟩
    | turn h hb ht => exact .inl ⟨true, h, .inl ⟨_, hb, _, Nat.le_of_succ_le_succ hn, ht⟩⟩
  · rintro (⟨c, h, h'⟩ | ⟨e, h, rfl⟩)
    · cases c with
      | false =>
        replace h' : r = .ok a := h'
        subst h'
        exact ⟨0, Nat.zero_le _, .stop h⟩
      | true =>
        rw [if_pos rfl] at h'
        rcases h' with ⟨a', hb, n, hn, ht⟩ | ⟨e, hb, rfl⟩
        · exact ⟨n + 1, Nat.succ_le_succ hn, .turn h hb ht⟩
        · exact ⟨1, by omega, .body h hb⟩
    · exact ⟨0, Nat.zero_le _, .test h⟩

/-! ### A run of the rewritten part against the part itself

On the path the original can only do what values and obligations say, and it does if they hold; off the path all
obligations hold. -/

def Describes {α : Type} (b : Bool) (R : PyM α → Prop) (a : α) (obs : List Bool) : Prop :=
  (b = true → (∀ r, R r → r = if obs.all id then .ok a else .error .assertionError) ∧ (obs.all id = true → R (.ok a))) ∧
  (b = false → obs.all id = true)

theorem describes_eq {α : Type} (b : Bool) {m : PyM α} {a : α} (h : m = .ok a) : Describes b (· = m) a [] :=
  ⟨fun _ => ⟨fun _ hr => hr.trans h, fun _ => h.symm⟩, fun _ => rfl⟩

theorem Describes.congr {α : Type} {b : Bool} {R R' : PyM α → Prop} {a : α} {obs : List Bool} (h : Describes b R a obs)
    (hr : ∀ r, R r ↔ R' r) : Describes b R' a obs := by
  have e : R = R' := funext fun r => propext (hr r)
  exact e ▸ h

theorem Describes.seq {α β : Type} {b : Bool} {R : PyM α → Prop} {f : α → PyM β → Prop} {a : α} {c : β} {o o' : List Bool}
    (h : Describes b R a o) (h' : Describes b (f a) c o') : Describes b (Then R f) c (o ++ o') := by
  refine ⟨fun hb => ?_, fun hb => by rw [List.all_append, h.2 hb, h'.2 hb]; rfl⟩
  obtain ⟨h1, h2⟩ := h.1 hb
  obtain ⟨h3, h4⟩ := h'.1 hb
  rw [List.all_append]
  by_cases ho : o.all id = true
  · rw [ho] at h1 h2 ⊢
    rw [Bool.true_and]
    refine ⟨?_, fun hc => .inl ⟨a, h2 rfl, h4 hc⟩⟩
    rintro r (⟨a', ha, hr⟩ | ⟨e, he, rfl⟩)
    · cases h1 _ ha; exact h3 _ hr
    · cases h1 _ he
  · rw [Bool.not_eq_true] at ho
    rw [ho] at h1 ⊢
    rw [Bool.false_and]
    refine ⟨?_, nofun⟩
    rintro r (⟨a', ha, hr⟩ | ⟨e, he, rfl⟩)
    · cases h1 _ ha
    · cases h1 _ he; rfl

theorem Describes.pure_seq {α β : Type} {b : Bool} {m : PyM α} {f : α → PyM β → Prop} {a : α} {c : β} {o : List Bool}
    (h : m = .ok a) (h' : Describes b (f a) c o) : Describes b (Then (· = m) f) c o :=
  (describes_eq b h).seq h'

theorem Describes.seq_pure {α β : Type} {b : Bool} {R : PyM α → Prop} {g : α → PyM β} {a : α} {c : β} {o : List Bool}
    (h : Describes b R a o) (h' : g a = .ok c) : Describes b (Then R fun a r => r = g a) c o := by
  have h := h.seq (f := fun a r => r = g a) (describes_eq b h')
  rwa [List.append_nil] at h

/-- `if c: R else: R'` -/
theorem Describes.branch {α : Type} {b c : Bool} {R R' : PyM α → Prop} {a a' : α} {o o' : List Bool}
    (h : Describes (b && c) R a o) (h' : Describes (b && !c) R' a' o') :
    Describes b (if c then R else R') (if c then a else a') (o ++ o') := by
  cases b with
  | false => exact ⟨nofun, fun _ => by rw [List.all_append, h.2 rfl, h'.2 rfl]; rfl⟩
  | true =>
    cases c with
    | true => exact ⟨fun _ => by rw [List.all_append, h'.2 rfl, Bool.and_true]; exact h.1 rfl, nofun⟩
    | false => exact ⟨fun _ => by rw [List.all_append, h.2 rfl, Bool.true_and]; exact h'.1 rfl, nofun⟩

theorem Describes.check {α : Type} {b c : Bool} {R : PyM α → Prop} {a : α} {o : List Bool} (h : Describes b R a o) :
    Describes b (if c then R else fun r => r = .error .assertionError) a ((!b || c) :: o) := by
  cases b with
  | false => exact ⟨nofun, fun _ => by simp only [List.all_cons, h.2 rfl]; rfl⟩
  | true =>
    cases c with
    | true => exact ⟨fun _ => h.1 rfl, nofun⟩
    | false => exact ⟨fun _ => ⟨fun r hr => hr, nofun⟩, nofun⟩

/-- After the last turn. -/
theorem Describes.last {α : Type} {b c : Bool} (a : α) : Describes b (fun r => c = false ∧ r = .ok a) a [!b || !c] := by
  cases b with
  | false => exact ⟨nofun, fun _ => rfl⟩
  | true =>
    cases c with
    | true => exact ⟨fun _ => ⟨fun r h => Bool.noConfusion h.1, nofun⟩, nofun⟩
    | false => exact ⟨fun _ => ⟨fun r h => h.2, fun _ => ⟨rfl, rfl⟩⟩, nofun⟩

theorem Describes.turn {α : Type} {b c : Bool} {T : α → PyM Bool → Prop} {B : α → PyM α → Prop} {k : Nat} {a a' r : α}
    {o o' o'' : List Bool} (hT : Describes b (T a) c o) (hB : Describes (b && c) (B a) a' o')
    (hr : Describes (b && c) (fun r => ∃ n, n ≤ k ∧ Turns T B a' n r) r o'') :
    Describes b (fun r => ∃ n, n ≤ k + 1 ∧ Turns T B a n r) (if c then r else a) (o ++ (o' ++ o'')) := by
  have h := (hB.seq (f := fun a r => ∃ n, n ≤ k ∧ Turns T B a n r) hr).branch (b := b) (c := c)
    (describes_eq (m := .ok a) _ rfl)
  rw [List.append_nil] at h
  exact (hT.seq (f := fun c => if c then Then (B a) fun a' r => ∃ n, n ≤ k ∧ Turns T B a' n r
      else fun r => r = .ok a) h).congr fun r => turns_succ.symm

theorem turns_describes {T : Regs → PyM Bool → Prop} {B : Regs → PyM Regs → Prop}
    {tf : Option Bool → Regs → PyM (Bool × List Bool)} {bf : Option Bool → Regs → PyM (Regs × List Bool)}
    (hT : ∀ {pc vs c o}, (∀ r ∈ vs, InRange r) → tf pc vs = .ok (c, o) → Describes (pc.getD true) (T vs) c o)
    (hB : ∀ {pc vs ws o}, (∀ r ∈ vs, InRange r) → bf pc vs = .ok (ws, o) →
      Describes (pc.getD true) (B vs) ws o ∧ ∀ r ∈ ws, InRange r) (k : Nat) :
    ∀ {pc vs ws obs}, (∀ r ∈ vs, InRange r) → turns concrete tf bf k pc vs = .ok (ws, obs) →
      Describes (pc.getD true) (fun r => ∃ n, n ≤ k ∧ Turns T B vs n r) ws obs ∧ ∀ r ∈ ws, InRange r := by
  induction k with
  | zero =>
    intro pc vs ws obs hv h
    obtain ⟨⟨c, o⟩, h1, h⟩ := ok_bind_inv h
    obtain ⟨n, h2, h⟩ := ok_bind_inv h
    obtain ⟨g, h3, h⟩ := ok_bind_inv h
    cases h
    have e2 := (cbit_not c).symm.trans h2
    cases e2
    have e3 := (oblige_val pc (!c)).symm.trans h3
    cases e3
    exact ⟨((hT hv h1).seq (f := fun c r => c = false ∧ r = .ok vs) (.last vs)).congr fun r => turns_zero.symm, hv⟩
  | succ k ih =>
    intro pc vs ws obs hv h
    obtain ⟨⟨c, o⟩, h1, h⟩ := ok_bind_inv h
    obtain ⟨ct, h2, h⟩ := ok_bind_inv h
    obtain ⟨⟨bs, bo⟩, h3, h⟩ := ok_bind_inv h
    obtain ⟨⟨rs, ro⟩, h4, h⟩ := ok_bind_inv h
    obtain ⟨ms, h5, h⟩ := ok_bind_inv h
    cases h
    have e2 := (path_val pc c).symm.trans h2
    cases e2
    obtain ⟨b1, b2⟩ := hB hv h3
    obtain ⟨r1, r2⟩ := ih b2 h4
    have hm := mergeRets_sel r2 hv h5
    have hw : ∀ r ∈ ws, InRange r := by
      subst hm
      cases c
      · exact hv
      · exact r2
    refine ⟨?_, hw⟩
    subst hm
    exact .turn (hT hv h1) b1 r1

theorem good_unwind {k : Nat} {s u : Regs} {p : Prog} {pc : Option Bool} {obs : List Bool} (h : ∀ r ∈ s, InRange r)
    (hs : unwind concrete k pc s p = .ok (u, obs)) : ∀ r ∈ u, InRange r := by
  have hp : OptRel (Z3.DenBit e0) (pc.map fun b _ => b) pc := by
    cases pc with
    | none => exact .none
    | some b => exact .some rfl
  obtain ⟨_, _, hr⟩ := RelP.ok_right ((z3_sim e0).unwind_rel k p hp (lifts e0 h)) hs
  exact goods_of_rel hr.1

theorem readAll_good {u vs : Regs} (h : ∀ r ∈ u, InRange r) {l : List Nat} (hv : readAll concrete u l = .ok vs) :
    ∀ r ∈ vs, InRange r := by
  induction l generalizing vs with
  | nil => cases hv; nofun
  | cons i l ih =>
    obtain ⟨a, h1, hv⟩ := ok_bind_inv hv
    obtain ⟨as, h2, hv⟩ := ok_bind_inv hv
    cases hv
    exact fun r hr => (List.mem_cons.1 hr).elim (fun e => e ▸ read_good h h1) (ih h2 r)

theorem good_append {s vs : Regs} (h : ∀ r ∈ s, InRange r) (h' : ∀ r ∈ vs, InRange r) : ∀ r ∈ s ++ vs, InRange r :=
  fun r hr => (List.mem_append.1 hr).elim (h r) (h' r)

theorem unwind_check_inv {k : Nat} {a : Nat} {p : Prog} {pc : Option Bool} {s u : Regs} {obs : List Bool}
    (h : unwind concrete k pc s (.check a p) = .ok (u, obs)) : ∃ (b : Bool) (o : List Bool), readB concrete s a = .ok b ∧
      obs = (!pc.getD true || b) :: o ∧ unwind concrete k pc s p = .ok (u, o) := by
  obtain ⟨b, h1, h⟩ := ok_bind_inv h
  obtain ⟨g, h2, h⟩ := ok_bind_inv h
  obtain ⟨⟨r1, r2⟩, h3, h⟩ := ok_bind_inv h
  cases h
  have e := (oblige_val pc b).symm.trans h2
  cases e
  exact ⟨b, r2, h1, rfl, h3⟩

theorem unwind_cond_inv {k : Nat} {c : Nat} {t f p : Prog} {outs : List (Nat × Nat)} {pc : Option Bool} {s u : Regs}
    {obs : List Bool} (h : unwind concrete k pc s (.cond c t f outs p) = .ok (u, obs)) :
    ∃ (b : Bool) (ut uf vs : Regs) (ot of o : List Bool), readB concrete s c = .ok b ∧
      unwind concrete k (some (pc.getD true && b)) s t = .ok (ut, ot) ∧
      unwind concrete k (some (pc.getD true && !b)) s f = .ok (uf, of) ∧ mergeAll concrete b ut uf outs = .ok vs ∧
      unwind concrete k pc (s ++ vs) p = .ok (u, o) ∧ obs = ot ++ of ++ o := by
  obtain ⟨b, h1, h⟩ := ok_bind_inv h
  obtain ⟨n, h2, h⟩ := ok_bind_inv h
  obtain ⟨ct, h3, h⟩ := ok_bind_inv h
  obtain ⟨cf, h4, h⟩ := ok_bind_inv h
  obtain ⟨⟨u1, u2⟩, h5, h⟩ := ok_bind_inv h
  obtain ⟨⟨w1, w2⟩, h6, h⟩ := ok_bind_inv h
  obtain ⟨vs, h7, h⟩ := ok_bind_inv h
  obtain ⟨⟨r1, r2⟩, h8, h⟩ := ok_bind_inv h
  cases h
  have e2 := (cbit_not b).symm.trans h2
  cases e2
  have e3 := (path_val pc b).symm.trans h3
  cases e3
  have e4 := (path_val pc _).symm.trans h4
  cases e4
  exact ⟨b, u1, w1, vs, u2, w2, r2, h1, h5, h6, h7, h8, rfl⟩

/-- The rewritten function describes the function with `while`, as far as every loop takes at most `k` turns. -/
theorem unwind_describes (k : Nat) (p : Prog) : ∀ {pc : Option Bool} {s u : Regs} {obs : List Bool},
    (∀ r ∈ s, InRange r) → unwind concrete k pc s p = .ok (u, obs) →
    Describes (pc.getD true) (Exec (· ≤ k) s p) u obs := by
  induction p with
  | done => intro pc s u obs _ h; cases h; exact describes_eq _ rfl
  | instr i p ih =>
    intro pc s u obs hg h
    obtain ⟨t, h1, h⟩ := ok_bind_inv h
    exact .pure_seq h1 (ih (good_step hg h1) h)
  | check a p ih =>
    intro pc s u obs hg h
    obtain ⟨b, o, h1, rfl, h3⟩ := unwind_check_inv h
    exact .pure_seq h1 (.check (ih hg h3))
  | cond c t f outs p iht ihf ih =>
    intro pc s u obs hg h
    obtain ⟨b, ut, uf, vs, ot, of, o, h1, h5, h6, h7, h8, rfl⟩ := unwind_cond_inv h
    obtain ⟨m1, m2⟩ := mergeAll_sel (good_unwind hg h5) (good_unwind hg h6) h7
    refine .pure_seq h1 (.seq (a := vs) ?_ (ih (good_append hg m2) h8))
    have ht := iht hg h5
    have hf := ihf hg h6
    have hd := ht.branch (b := pc.getD true) (c := b) hf
    cases b with
    | true =>
      have m1 : readAll concrete ut (outs.map (·.1)) = .ok vs := m1
      have hd : Describes (pc.getD true) (Exec (· ≤ k) s t) ut (ot ++ of) := hd
      exact hd.seq_pure (g := fun u : Regs => readAll concrete u (outs.map Prod.fst)) m1
    | false =>
      have m1 : readAll concrete uf (outs.map (·.2)) = .ok vs := m1
      have hd : Describes (pc.getD true) (Exec (· ≤ k) s f) uf (ot ++ of) := hd
      exact hd.seq_pure (g := fun u : Regs => readAll concrete u (outs.map Prod.snd)) m1
  | loop init head c body next p ihh ihb ih =>
    intro pc s u obs hg h
    obtain ⟨vs, h1, h⟩ := ok_bind_inv h
    obtain ⟨⟨ws, lo⟩, h2, h⟩ := ok_bind_inv h
    obtain ⟨⟨r1, r2⟩, h3, h⟩ := ok_bind_inv h
    cases h
    have hv := readAll_good hg h1
    obtain ⟨d1, d2⟩ := turns_describes (T := fun vs : Regs => Then (Exec (· ≤ k) (s ++ vs) head) fun u : Regs => fun b => b = readB concrete u c)
      (B := fun vs : Regs => Then (Exec (· ≤ k) (s ++ vs) body) fun u : Regs => fun r => r = readAll concrete u next)
      (by
        intro pc vs c o hv h
        obtain ⟨⟨u, uo⟩, h1, h⟩ := ok_bind_inv h
        obtain ⟨b, h2, h⟩ := ok_bind_inv h
        cases h
        exact (ihh (good_append hg hv) h1).seq_pure (g := fun u => readB concrete u _) h2)
      (by
        intro pc vs c o hv h
        obtain ⟨⟨u, uo⟩, h1, h⟩ := ok_bind_inv h
        obtain ⟨b, h2, h⟩ := ok_bind_inv h
        cases h
        exact ⟨(ihb (good_append hg hv) h1).seq_pure (g := fun u => readAll concrete u _) h2,
          readAll_good (good_unwind (good_append hg hv) h1) h2⟩) k hv h2
    exact .pure_seq h1 (.seq d1 (ih (good_append hg d2) h3))

end Loops
end HW.Circuit
