import Verif.Lemmas.Loops
import Verif.Props.Circuit

/-! How many turns suffice, and that returning does not depend on the number of turns. -/

namespace HW.Circuit.Loops
open HW IfConv Returns

/-! ### A bound exists -/

theorem then_bound {α β : Type} {R : PyM α → Prop} {f : α → PyM β → Prop} {R' : Nat → PyM α → Prop} {f' : Nat → α → PyM β → Prop}
    (hR : ∀ r, R r → ∃ k, R' k r) (hf : ∀ a r, f a r → ∃ k, f' k a r)
    (mR : ∀ {k m r}, k ≤ m → R' k r → R' m r) (mf : ∀ {k m a r}, k ≤ m → f' k a r → f' m a r) {r : PyM β}
    (h : Then R f r) : ∃ k, Then (R' k) (f' k) r := by
  rcases h with ⟨a, h1, h2⟩ | ⟨e, h1, rfl⟩
  · obtain ⟨k, hk⟩ := hR _ h1
    obtain ⟨m, hm⟩ := hf _ _ h2
    exact ⟨max k m, .inl ⟨a, mR (le_max_left _ _) hk, mf (le_max_right _ _) hm⟩⟩
  · obtain ⟨k, hk⟩ := hR _ h1
    exact ⟨k, .inr ⟨e, hk, rfl⟩⟩

theorem turns_bound {α : Type} {T : α → PyM Bool → Prop} {B : α → PyM α → Prop} {T' : Nat → α → PyM Bool → Prop}
    {B' : Nat → α → PyM α → Prop} (hT : ∀ a r, T a r → ∃ k, T' k a r) (hB : ∀ a r, B a r → ∃ k, B' k a r)
    (mT : ∀ {k m a r}, k ≤ m → T' k a r → T' m a r) (mB : ∀ {k m a r}, k ≤ m → B' k a r → B' m a r) {a : α} {n : Nat}
    {r : PyM α} (h : Turns T B a n r) : ∃ k, Turns (T' k) (B' k) a n r := by
  induction h with
  | stop h => obtain ⟨k, hk⟩ := hT _ _ h; exact ⟨k, .stop hk⟩
  | test h => obtain ⟨k, hk⟩ := hT _ _ h; exact ⟨k, .test hk⟩
  | body h h' =>
    obtain ⟨k, hk⟩ := hT _ _ h
    obtain ⟨m, hm⟩ := hB _ _ h'
    exact ⟨max k m, .body (mT (le_max_left _ _) hk) (mB (le_max_right _ _) hm)⟩
  | turn h h' _ ih =>
    obtain ⟨k, hk⟩ := hT _ _ h
    obtain ⟨m, hm⟩ := hB _ _ h'
    obtain ⟨l, hl⟩ := ih
    have h1 : k ≤ max (max k m) l := le_trans (le_max_left _ _) (le_max_left _ _)
    have h2 : m ≤ max (max k m) l := le_trans (le_max_right _ _) (le_max_left _ _)
    exact ⟨max (max k m) l, .turn (mT h1 hk) (mB h2 hm)
      (turns_mono (fun _ _ => mT (le_max_right _ _)) (fun _ _ => mB (le_max_right _ _)) hl)⟩

theorem exec_le {k m : Nat} (h : k ≤ m) {p : Prog} {s : Regs} {r : PyM Regs} : Exec (· ≤ k) s p r → Exec (· ≤ m) s p r :=
  exec_mono (fun _ hn => le_trans hn h) p

/-- A run that ends has a bound on the turns of its loops. -/
theorem exec_bound (p : Prog) : ∀ {s : Regs} {r : PyM Regs}, Exec (fun _ => True) s p r → ∃ k, Exec (· ≤ k) s p r := by
  induction p with
  | done => intro s r h; exact ⟨0, h⟩
  | instr i p ih =>
    intro s r h
    exact then_bound (R' := fun _ r => r = step concrete s i) (f' := fun k t => Exec (· ≤ k) t p) (fun _ h => ⟨0, h⟩)
      (fun _ _ => ih) (fun _ => id) (fun hk h => exec_le hk h) h
  | check a p ih =>
    intro s r h
    refine then_bound (R' := fun _ r => r = readB concrete s a)
      (f' := fun k (b : Bool) => if b then Exec (· ≤ k) s p else fun r => r = .error .assertionError)
      (fun _ h => ⟨0, h⟩) (fun b r h => ?_) (fun _ => id) (fun {k m b r} hk h => ?_) h
    · cases b
      · exact ⟨0, h⟩
      · exact ih h
    · cases b
      · exact h
      · exact exec_le hk h
  | cond c t f outs p iht ihf ih =>
    intro s r h
    refine then_bound (R' := fun _ r => r = readB concrete s c)
      (f' := fun k (b : Bool) => Then
        (if (b : Bool) then Then (Exec (· ≤ k) s t) fun u : Regs => (· = readAll concrete u (outs.map (·.1)))
        else Then (Exec (· ≤ k) s f) fun u : Regs => (· = readAll concrete u (outs.map (·.2))))
        fun vs : Regs => Exec (· ≤ k) (s ++ vs) p)
      (fun _ h => ⟨0, h⟩) (fun (b : Bool) r h => ?_) (fun _ => id) (fun {k m b r} hk h => ?_) h
    · refine then_bound (R' := fun k => if b then Then (Exec (· ≤ k) s t) fun u : Regs => (· = readAll concrete u (outs.map (·.1)))
        else Then (Exec (· ≤ k) s f) fun u : Regs => (· = readAll concrete u (outs.map (·.2))))
        (f' := fun k (vs : Regs) => Exec (· ≤ k) (s ++ vs) p) (fun r h => ?_) (fun _ _ => ih) (fun {k m r} hk h => ?_) (fun hk h => exec_le hk h) h
      · cases b
        · rw [if_neg (by simp)] at h
          exact then_bound (R' := fun k => Exec (· ≤ k) s f) (f' := fun _ (u : Regs) => (· = readAll concrete u (outs.map (·.2))))
            (fun _ => ihf) (fun _ _ h => ⟨0, h⟩) (fun hk h => exec_le hk h) (fun _ => id) h
        · rw [if_pos rfl] at h
          exact then_bound (R' := fun k => Exec (· ≤ k) s t) (f' := fun _ (u : Regs) => (· = readAll concrete u (outs.map (·.1))))
            (fun _ => iht) (fun _ _ h => ⟨0, h⟩) (fun hk h => exec_le hk h) (fun _ => id) h
      · cases b
        · rw [if_neg (by simp)] at h ⊢
          exact then_mono (fun _ => exec_le hk) (fun _ _ => id) h
        · rw [if_pos rfl] at h ⊢
          exact then_mono (fun _ => exec_le hk) (fun _ _ => id) h
    · refine then_mono (fun r h => ?_) (fun _ _ => exec_le hk) h
      cases b
      · rw [if_neg (by simp)] at h ⊢
        exact then_mono (fun _ => exec_le hk) (fun _ _ => id) h
      · rw [if_pos rfl] at h ⊢
        exact then_mono (fun _ => exec_le hk) (fun _ _ => id) h
  | loop init head c body next p ihh ihb ih =>
    intro s r h
    let T' : Nat → Regs → PyM Bool → Prop := fun k vs => Then (Exec (· ≤ k) (s ++ vs) head) fun u : Regs => fun b => b = readB concrete u c
    let B' : Nat → Regs → PyM Regs → Prop := fun k vs => Then (Exec (· ≤ k) (s ++ vs) body) fun u : Regs => fun r => r = readAll concrete u next
    have mT : ∀ {k m a r}, k ≤ m → T' k a r → T' m a r := fun hk h => then_mono (fun _ => exec_le hk) (fun _ _ => id) h
    have mB : ∀ {k m a r}, k ≤ m → B' k a r → B' m a r := fun hk h => then_mono (fun _ => exec_le hk) (fun _ _ => id) h
    let L : Nat → Regs → PyM Regs → Prop := fun k vs r => ∃ n, n ≤ k ∧ Turns (T' k) (B' k) vs n r
    have mL : ∀ {k m a r}, k ≤ m → L k a r → L m a r := by
      rintro k m a r hk ⟨n, hn, h⟩
      exact ⟨n, le_trans hn hk, turns_mono (fun _ _ => mT hk) (fun _ _ => mB hk) h⟩
    refine then_bound (R' := fun _ r => r = readAll concrete s init)
      (f' := fun k vs => Then (L k vs) fun vs : Regs => Exec (· ≤ k) (s ++ vs) p)
      (fun _ h => ⟨0, h⟩) (fun vs r h => ?_) (fun _ => id) (fun {k m b r} hk h => then_mono (fun _ => mL hk) (fun _ _ => exec_le hk) h) h
    refine then_bound (R' := fun k => L k vs) (f' := fun k (vs : Regs) => Exec (· ≤ k) (s ++ vs) p) ?_ (fun _ _ => ih) mL (fun hk h => exec_le hk h) h
    rintro r ⟨n, -, h⟩
    obtain ⟨k, hk⟩ := turns_bound (T' := T') (B' := B')
      (fun vs r h => then_bound (R' := fun k => Exec (· ≤ k) (s ++ vs) head) (f' := fun _ (u : Regs) => fun b => b = readB concrete u c)
        (fun _ => ihh) (fun _ _ h => ⟨0, h⟩) (fun hk h => exec_le hk h) (fun _ => id) h)
      (fun vs r h => then_bound (R' := fun k => Exec (· ≤ k) (s ++ vs) body) (f' := fun _ (u : Regs) => fun b => b = readAll concrete u next)
        (fun _ => ihb) (fun _ _ h => ⟨0, h⟩) (fun hk h => exec_le hk h) (fun _ => id) h) mT mB h
    exact ⟨max k n, n, le_max_right _ _, turns_mono (fun _ _ => mT (le_max_left _ _)) (fun _ _ => mB (le_max_left _ _)) hk⟩

/-! ### One bound for all inputs -/

theorem uniform_lt {Q : Nat → Int → Prop} (mono : ∀ {k m v}, k ≤ m → Q k v → Q m v) (N : Nat)
    (h : ∀ v : Int, 0 ≤ v → v < N → ∃ k, Q k v) : ∃ k, ∀ v : Int, 0 ≤ v → v < N → Q k v := by
  induction N with
  | zero => exact ⟨0, fun v h1 h2 => by omega⟩
  | succ N ih =>
    obtain ⟨k, hk⟩ := ih fun v h1 h2 => h v h1 (by omega)
    obtain ⟨m, hm⟩ := h N (by omega) (by omega)
    refine ⟨max k m, fun v h1 h2 => ?_⟩
    by_cases hv : v < N
    · exact mono (le_max_left _ _) (hk v h1 hv)
    · have e : v = N := by omega
      exact e ▸ mono (le_max_right _ _) hm

theorem uniform_port {Q : Nat → Reg BVal Bool → Prop} (mono : ∀ {k m x}, k ≤ m → Q k x → Q m x) (q : List Char × Port)
    (h : ∀ x, InPort q x → ∃ k, Q k x) : ∃ k, ∀ x, InPort q x → Q k x := by
  obtain ⟨q, ty⟩ := q
  cases ty with
  | bit =>
    obtain ⟨k, hk⟩ := h _ (.bit (b := true))
    obtain ⟨m, hm⟩ := h _ (.bit (b := false))
    refine ⟨max k m, fun x hx => ?_⟩
    cases hx with
    | @bit _ b =>
      cases b
      · exact mono (le_max_right _ _) hm
      · exact mono (le_max_left _ _) hk
  | vec r n =>
    obtain ⟨k, hk⟩ := uniform_lt (Q := fun k v => Q k (.vec ⟨.root r, n, v⟩)) mono (2 ^ n)
      fun v h1 h2 => h _ (.vec h1 (by exact_mod_cast h2))
    refine ⟨k, fun x hx => ?_⟩
    cases hx with
    | vec h1 h2 => exact hk _ h1 (by exact_mod_cast h2)

/-- There are finitely many inputs. -/
theorem uniform {Q : Nat → Regs → Prop} (ps : List (List Char × Port)) (mono : ∀ {k m : Nat} {t}, k ≤ m → Q k t → Q m t)
    (h : ∀ t, List.Forall₂ InPort ps t → ∃ k, Q k t) : ∃ k, ∀ t, List.Forall₂ InPort ps t → Q k t := by
  induction ps generalizing Q with
  | nil =>
    obtain ⟨k, hk⟩ := h [] .nil
    refine ⟨k, fun t ht => ?_⟩
    cases ht
    exact hk
  | cons q ps ih =>
    obtain ⟨k, hk⟩ := ih (Q := fun k t => ∀ x, InPort q x → Q k (x :: t)) (fun hkm h x hx => mono hkm (h x hx))
      fun t ht => uniform_port (Q := fun k x => Q k (x :: t)) mono q fun x hx => h _ (.cons hx ht)
    refine ⟨k, fun t ht => ?_⟩
    cases ht with
    | cons hx ht => exact hk _ ht _ hx

theorem exists_inputs (ps : List (List Char × Port)) : ∃ t, List.Forall₂ InPort ps t := by
  induction ps with
  | nil => exact ⟨[], .nil⟩
  | cons q ps ih =>
    obtain ⟨t, ht⟩ := ih
    obtain ⟨q, ty⟩ := q
    cases ty with
    | bit => exact ⟨.bit true :: t, .cons .bit ht⟩
    | vec r n => exact ⟨.vec ⟨.root r, n, 0⟩ :: t, .cons (.vec le_rfl (by positivity)) ht⟩

/-! ### Returning depends on classes and widths only -/

inductive SameShape : Reg BVal Bool → Reg BVal Bool → Prop
  | vec {x y : BVal} : InRange (.vec x) → InRange (.vec y) → x.kind = y.kind → x.size = y.size → SameShape (.vec x) (.vec y)
  | bit {a b : Bool} : SameShape (.bit a) (.bit b)

theorem SameShape.symm {a b : Reg BVal Bool} (h : SameShape a b) : SameShape b a := by
  cases h with
  | vec h1 h2 h3 h4 => exact .vec h2 h1 h3.symm h4.symm
  | bit => exact .bit

theorem SameShape.trans {a b c : Reg BVal Bool} (h : SameShape a b) (h' : SameShape b c) : SameShape a c := by
  cases h with
  | vec h1 h2 h3 h4 =>
    cases h' with
    | vec h5 h6 h7 h8 => exact .vec h1 h6 (h3.trans h7) (h4.trans h8)
  | bit => cases h'; exact .bit

abbrev SameShapes := List.Forall₂ SameShape

theorem sameShape_refl {s : Regs} (h : ∀ r ∈ s, InRange r) : SameShapes s s := by
  induction s with
  | nil => exact .nil
  | cons a s ih =>
    refine .cons ?_ (ih fun r hr => h r (by simp [hr]))
    have ha := h a (by simp)
    cases a with
    | vec x => exact .vec ha ha rfl rfl
    | bit => exact .bit

theorem shapes_symm {s t : Regs} (h : SameShapes s t) : SameShapes t s := by
  induction h with
  | nil => exact .nil
  | cons h _ ih => exact .cons h.symm ih

theorem shapes_trans {s t u : Regs} (h : SameShapes s t) (h' : SameShapes t u) : SameShapes s u := by
  induction h generalizing u with
  | nil => cases h'; exact .nil
  | cons h _ ih =>
    cases h' with
    | cons h1 h2 => exact .cons (h.trans h1) (ih h2)

theorem shapes_range {s t : Regs} (h : SameShapes s t) : ∀ r ∈ s, InRange r := by
  induction h with
  | nil => nofun
  | cons h _ ih =>
    refine fun r hr => (List.mem_cons.1 hr).elim (fun e => ?_) (ih r)
    subst e
    cases h with
    | vec h1 => exact h1
    | bit => trivial

/-! Two values of one shape are one expression under two assignments. -/

def e1 : Z3.Env := ⟨fun _ => true, fun _ _ => 0⟩

def pair : Reg BVal Bool → Reg BVal Bool → Reg Z3.ZBV Z3.BoolE
  | .vec x, .vec y => .vec ⟨match x.kind with | .root r => r | _ => .bv, x.size,
      ⟨x.size, fun e => if e.bool [] then BitVec.ofInt x.size y.value else BitVec.ofInt x.size x.value⟩⟩
  | .bit a, .bit b => .bit fun e => if e.bool [] then b else a
  | .vec _, .bit b => .bit fun _ => b
  | .bit a, .vec _ => .bit fun _ => a

theorem toNat_ofInt_of {x : BVal} (h : x.WF) : ((BitVec.ofInt x.size x.value).toNat : Int) = x.value := by
  have h0 := h.1
  have h3 := h.2
  rw [BitVec.toNat_ofInt]
  have : x.value % (2 ^ x.size : Nat) = x.value := Int.emod_eq_of_lt h0 (by exact_mod_cast h3)
  rw [this]; omega

theorem pair_left {a b : Reg BVal Bool} (h : SameShape a b) : RegRel (Z3.Den e0) (Z3.DenBit e0) (pair a b) a := by
  cases h with
  | bit => exact .bit rfl
  | @vec x y h1 h2 h3 h4 =>
    obtain ⟨w, hp, r, hr⟩ := h1
    refine .vec ⟨?_, rfl, hp, _, rfl, (toNat_ofInt_of w).symm⟩
    rw [hr]

theorem pair_right {a b : Reg BVal Bool} (h : SameShape a b) : RegRel (Z3.Den e1) (Z3.DenBit e1) (pair a b) b := by
  cases h with
  | bit => exact .bit rfl
  | @vec x y h1 h2 h3 h4 =>
    obtain ⟨w, hp, r, hr⟩ := h1
    refine .vec ⟨?_, h4.symm, hp, _, rfl, ?_⟩
    · rw [← h3, hr]
    · have := toNat_ofInt_of h2.1
      rw [← h4] at this
      exact this.symm

theorem shape_of_pair {z : Reg Z3.ZBV Z3.BoolE} {a b : Reg BVal Bool} (h : RegRel (Z3.Den e0) (Z3.DenBit e0) z a)
    (h' : RegRel (Z3.Den e1) (Z3.DenBit e1) z b) : SameShape a b := by
  cases h with
  | bit h => cases h'; exact .bit
  | vec h =>
    cases h' with
    | vec h' => exact .vec (good_of_rel (.vec h)) (good_of_rel (.vec h')) (h.1.trans h'.1.symm) (h.2.1.trans h'.2.1.symm)

theorem shapes_of_pairs {z : List (Reg Z3.ZBV Z3.BoolE)} {s t : Regs} (h : List.Forall₂ (RegRel (Z3.Den e0) (Z3.DenBit e0)) z s)
    (h' : List.Forall₂ (RegRel (Z3.Den e1) (Z3.DenBit e1)) z t) : SameShapes s t := by
  induction h generalizing t with
  | nil => cases h'; exact .nil
  | cons h _ ih =>
    cases h' with
    | cons h1 h2 => exact .cons (shape_of_pair h h1) (ih h2)

theorem pairs {s t : Regs} (h : SameShapes s t) : ∃ z, List.Forall₂ (RegRel (Z3.Den e0) (Z3.DenBit e0)) z s ∧
    List.Forall₂ (RegRel (Z3.Den e1) (Z3.DenBit e1)) z t := by
  induction h with
  | nil => exact ⟨[], .nil, .nil⟩
  | cons h _ ih =>
    obtain ⟨z, h1, h2⟩ := ih
    exact ⟨_, .cons (pair_left h) h1, .cons (pair_right h) h2⟩

theorem shape_step {s t u : Regs} (h : SameShapes s t) {i : Instr} (hs : step concrete s i = .ok u) :
    ∃ w, step concrete t i = .ok w ∧ SameShapes u w := by
  obtain ⟨z, h1, h2⟩ := pairs h
  obtain ⟨x, hx, r1⟩ := RelP.ok_right ((z3_sim e0).step_rel h1 i) hs
  obtain ⟨w, hw, r2⟩ := RelP.ok_left ((z3_sim e1).step_rel h2 i) hx
  exact ⟨w, hw, shapes_of_pairs r1 r2⟩

theorem shape_readB {s t : Regs} (h : SameShapes s t) {i : Nat} {b : Bool} (hs : readB concrete s i = .ok b) :
    ∃ c : Bool, readB concrete t i = .ok c := by
  obtain ⟨z, h1, h2⟩ := pairs h
  obtain ⟨x, hx, -⟩ := RelP.ok_right ((z3_sim e0).readB_rel h1 i) hs
  obtain ⟨w, hw, -⟩ := RelP.ok_left ((z3_sim e1).readB_rel h2 i) hx
  exact ⟨w, hw⟩

theorem shape_readAll {s t u : Regs} (h : SameShapes s t) {l : List Nat} (hs : readAll concrete s l = .ok u) :
    ∃ w, readAll concrete t l = .ok w ∧ SameShapes u w := by
  obtain ⟨z, h1, h2⟩ := pairs h
  obtain ⟨x, hx, r1⟩ := RelP.ok_right ((z3_sim e0).readAll_rel h1 l) hs
  obtain ⟨w, hw, r2⟩ := RelP.ok_left ((z3_sim e1).readAll_rel h2 l) hx
  exact ⟨w, hw, shapes_of_pairs r1 r2⟩

theorem shape_mergeAll {b c : Bool} {s t u v m : Regs} (h : SameShapes s t) (h' : SameShapes u v) {l : List (Nat × Nat)}
    (hs : mergeAll concrete b s u l = .ok m) : ∃ w, mergeAll concrete c t v l = .ok w ∧ SameShapes m w := by
  obtain ⟨z, h1, h2⟩ := pairs h
  obtain ⟨y, h3, h4⟩ := pairs h'
  have hb : Z3.DenBit e0 (fun e => if e.bool [] then c else b) b := rfl
  have hc : Z3.DenBit e1 (fun e => if e.bool [] then c else b) c := rfl
  obtain ⟨x, hx, r1⟩ := RelP.ok_right ((z3_sim e0).mergeAll_rel hb h1 h3 l) hs
  obtain ⟨w, hw, r2⟩ := RelP.ok_left ((z3_sim e1).mergeAll_rel hc h2 h4 l) hx
  exact ⟨w, hw, shapes_of_pairs r1 r2⟩

theorem shape_mergeRets {b c : Bool} {s t u v m : Regs} (h : SameShapes s t) (h' : SameShapes u v)
    (hs : mergeRets concrete b s u = .ok m) : ∃ w, mergeRets concrete c t v = .ok w ∧ SameShapes m w := by
  obtain ⟨z, h1, h2⟩ := pairs h
  obtain ⟨y, h3, h4⟩ := pairs h'
  have hb : Z3.DenBit e0 (fun e => if e.bool [] then c else b) b := rfl
  have hc : Z3.DenBit e1 (fun e => if e.bool [] then c else b) c := rfl
  obtain ⟨x, hx, r1⟩ := RelP.ok_right ((z3_sim e0).mergeRets_rel hb h1 h3) hs
  obtain ⟨w, hw, r2⟩ := RelP.ok_left ((z3_sim e1).mergeRets_rel hc h2 h4) hx
  exact ⟨w, hw, shapes_of_pairs r1 r2⟩

/-- What can be merged has one shape. -/
theorem merge_shape {c : Bool} {a b v : Reg BVal Bool} (ha : InRange a) (hb : InRange b) (h : merge concrete c a b = .ok v) :
    SameShape a b := by
  cases a with
  | vec x =>
    cases b with
    | vec y =>
      obtain ⟨_, h1, h⟩ := ok_bind_inv h
      have hs : x.kind = y.kind ∧ x.size = y.size := by
        unfold Circuit.check at h1
        split at h1
        · rename_i hs; exact of_decide_eq_true hs
        · cases h1
      exact .vec ha hb hs.1 hs.2
    | bit => cases h
  | bit x =>
    cases b with
    | vec => cases h
    | bit y => exact .bit

theorem mergeRets_shape {c : Bool} : ∀ {u w vs : Regs}, (∀ r ∈ u, InRange r) → (∀ r ∈ w, InRange r) →
    mergeRets concrete c u w = .ok vs → SameShapes u w
  | [], [], _, _, _, _ => .nil
  | [], _ :: _, _, _, _, h => by cases h
  | _ :: _, [], _, _, _, h => by cases h
  | a :: u, b :: w, _, hu, hw, h => by
    obtain ⟨v, h1, h⟩ := ok_bind_inv h
    obtain ⟨vs, h2, h⟩ := ok_bind_inv h
    exact .cons (merge_shape (hu a (by simp)) (hw b (by simp)) h1)
      (mergeRets_shape (fun r hr => hu r (by simp [hr])) (fun r hr => hw r (by simp [hr])) h2)

theorem bind_of_ok {α β : Type} {m : PyM α} {a : α} (h : m = .ok a) (f : α → PyM β) : (m >>= f) = f a := by
  subst h; rfl

/-- Both at top level or both on a path. -/
inductive SamePath : Option Bool → Option Bool → Prop
  | none : SamePath none none
  | some {a b} : SamePath (some a) (some b)

theorem turns_any {tf tf' : Option Bool → Regs → PyM (Bool × List Bool)} {bf bf' : Option Bool → Regs → PyM (Regs × List Bool)}
    (hT : ∀ {pc pc' vs vs' r}, SameShapes vs vs' → SamePath pc pc' → tf pc vs = .ok r → ∃ r', tf' pc' vs' = .ok r')
    (hB : ∀ {pc pc' vs vs' r}, SameShapes vs vs' → SamePath pc pc' → bf pc vs = .ok r →
      ∃ r', bf' pc' vs' = .ok r' ∧ SameShapes r.1 r'.1) {pc pc' : Option Bool} {vs vs' : Regs} {r : Regs × List Bool}
    (hv : SameShapes vs vs') (hp : SamePath pc pc') (h : turns concrete tf bf 1 pc vs = .ok r) (k : Nat) :
    ∃ r', turns concrete tf' bf' k pc' vs' = .ok r' ∧ SameShapes r.1 r'.1 := by
  obtain ⟨⟨c, o⟩, h1, h⟩ := ok_bind_inv h
  obtain ⟨ct, h2, h⟩ := ok_bind_inv h
  obtain ⟨⟨bs, bo⟩, h3, h⟩ := ok_bind_inv h
  obtain ⟨⟨rs, ro⟩, h4, h⟩ := ok_bind_inv h
  obtain ⟨ws, h5, h⟩ := ok_bind_inv h
  cases h
  obtain ⟨c0, g1, h4⟩ := ok_bind_inv h4
  obtain ⟨n0, g2, h4⟩ := ok_bind_inv h4
  obtain ⟨o0, g3, h4⟩ := ok_bind_inv h4
  cases h4
  have hvr := shapes_range hv
  obtain ⟨b0, hb0, hbs⟩ := hB hv (.some (a := ct) (b := ct)) h3
  have hsb : SameShapes bs vs := mergeRets_shape (shapes_range hbs) hvr h5
  have hws : SameShapes ws vs := by
    rw [mergeRets_sel (shapes_range hbs) hvr h5]
    cases c
    · exact sameShape_refl hvr
    · exact hsb
  suffices key : ∀ k {pc' vs'}, SameShapes vs vs' → (∃ r, tf' pc' vs' = .ok r) →
      ∃ r', turns concrete tf' bf' k pc' vs' = .ok r' ∧ SameShapes vs r'.1 by
    obtain ⟨r', e1, e2⟩ := key k hv (hT hv hp h1)
    exact ⟨r', e1, shapes_trans hws e2⟩
  intro k
  induction k with
  | zero =>
    rintro pc' vs' hv ⟨⟨c', o'⟩, ht⟩
    refine ⟨(vs', o' ++ [!pc'.getD true || !c']), ?_, hv⟩
    exact (bind_of_ok ht _).trans ((bind_of_ok (cbit_not c') _).trans ((bind_of_ok (oblige_val pc' (!c')) _).trans rfl))
  | succ k ih =>
    rintro pc' vs' hv ⟨⟨c', o'⟩, ht⟩
    obtain ⟨⟨bs', bo'⟩, hb', hbs'⟩ := hB (pc' := some (pc'.getD true && c')) hv (.some (a := ct)) h3
    obtain ⟨⟨rs', ro'⟩, hr', hrs'⟩ := ih (shapes_trans (shapes_symm hsb) hbs') (hT hbs' .some g1)
    obtain ⟨ws', hw', hs'⟩ := shape_mergeRets (c := c') (shapes_trans hsb hrs') hv h5
    refine ⟨(ws', (o' : List Bool) ++ ((bo' : List Bool) ++ (show List Bool from ro'))), ?_, shapes_trans (shapes_symm hws) hs'⟩
    exact (bind_of_ok ht _).trans ((bind_of_ok (path_val pc' c') _).trans ((bind_of_ok hb' _).trans ((bind_of_ok hr' _).trans
      ((bind_of_ok hw' _).trans rfl))))

/-- The variables of an unrolled loop keep their classes and widths. -/
theorem turns_shape {tf : Option Bool → Regs → PyM (Bool × List Bool)} {bf : Option Bool → Regs → PyM (Regs × List Bool)}
    (hB : ∀ {pc vs r}, (∀ x ∈ vs, InRange x) → bf pc vs = .ok r → ∀ x ∈ r.1, InRange x) (k : Nat) :
    ∀ {pc : Option Bool} {vs : Regs} {r : Regs × List Bool}, (∀ x ∈ vs, InRange x) → turns concrete tf bf k pc vs = .ok r →
      SameShapes r.1 vs := by
  induction k with
  | zero =>
    intro pc vs r hv h
    obtain ⟨c, h1, h⟩ := ok_bind_inv h
    obtain ⟨n, h2, h⟩ := ok_bind_inv h
    obtain ⟨g, h3, h⟩ := ok_bind_inv h
    cases h
    exact sameShape_refl hv
  | succ k ih =>
    intro pc vs r hv h
    obtain ⟨⟨c, o⟩, h1, h⟩ := ok_bind_inv h
    obtain ⟨ct, h2, h⟩ := ok_bind_inv h
    obtain ⟨bs, h3, h⟩ := ok_bind_inv h
    obtain ⟨rs, h4, h⟩ := ok_bind_inv h
    obtain ⟨ws, h5, h⟩ := ok_bind_inv h
    cases h
    have hr := shapes_range (ih (hB hv h3) h4)
    have hs := mergeRets_shape hr hv h5
    show SameShapes ws vs
    rw [mergeRets_sel hr hv h5]
    cases c
    · exact sameShape_refl hv
    · exact hs

/-- The body of a loop that is unrolled at least once keeps the classes and widths of the variables. -/
theorem turns_body {tf : Option Bool → Regs → PyM (Bool × List Bool)} {bf : Option Bool → Regs → PyM (Regs × List Bool)}
    (hB : ∀ {pc vs r}, (∀ x ∈ vs, InRange x) → bf pc vs = .ok r → ∀ x ∈ r.1, InRange x) {k : Nat}
    {pc : Option Bool} {vs : Regs} {r : Regs × List Bool} (hv : ∀ x ∈ vs, InRange x)
    (h : turns concrete tf bf (k + 1) pc vs = .ok r) : ∃ pc' bs, bf pc' vs = .ok bs ∧ SameShapes bs.1 vs := by
  obtain ⟨⟨c, o⟩, h1, h⟩ := ok_bind_inv h
  obtain ⟨ct, h2, h⟩ := ok_bind_inv h
  obtain ⟨bs, h3, h⟩ := ok_bind_inv h
  obtain ⟨rs, h4, h⟩ := ok_bind_inv h
  obtain ⟨ws, h5, h⟩ := ok_bind_inv h
  have hr := turns_shape hB k (hB hv h3) h4
  exact ⟨_, bs, h3, shapes_trans (shapes_symm hr) (mergeRets_shape (shapes_range hr) hv h5)⟩

/-- A function that returns when unrolled once returns when unrolled any number of times, on all values of the same
classes and widths. -/
theorem unwind_any (k : Nat) (p : Prog) : ∀ {pc pc' : Option Bool} {s s' : Regs} {r : Regs × List Bool}, SameShapes s s' →
    SamePath pc pc' → unwind concrete 1 pc s p = .ok r → ∃ r', unwind concrete k pc' s' p = .ok r' ∧ SameShapes r.1 r'.1 := by
  induction p with
  | done => intro pc pc' s s' r hs _ h; cases h; exact ⟨_, rfl, hs⟩
  | instr i p ih =>
    intro pc pc' s s' r hs hp h
    obtain ⟨t, h1, h⟩ := ok_bind_inv h
    obtain ⟨t', h1', ht⟩ := shape_step hs h1
    obtain ⟨r', hr, hs⟩ := ih ht hp h
    exact ⟨r', (bind_of_ok h1' _).trans hr, hs⟩
  | check a p ih =>
    intro pc pc' s s' r hs hp h
    obtain ⟨b, h1, h⟩ := ok_bind_inv h
    obtain ⟨g, h2, h⟩ := ok_bind_inv h
    obtain ⟨q, h3, h⟩ := ok_bind_inv h
    cases h
    obtain ⟨b', h1'⟩ := shape_readB hs h1
    obtain ⟨r', hr, hs⟩ := ih hs hp h3
    exact ⟨_, (bind_of_ok h1' _).trans ((bind_of_ok (oblige_val pc' b') _).trans ((bind_of_ok hr _).trans rfl)), hs⟩
  | cond c t f outs p iht ihf ih =>
    intro pc pc' s s' r hs hp h
    obtain ⟨b, h1, h⟩ := ok_bind_inv h
    obtain ⟨n, h2, h⟩ := ok_bind_inv h
    obtain ⟨ct, h3, h⟩ := ok_bind_inv h
    obtain ⟨cf, h4, h⟩ := ok_bind_inv h
    obtain ⟨u, h5, h⟩ := ok_bind_inv h
    obtain ⟨w, h6, h⟩ := ok_bind_inv h
    obtain ⟨vs, h7, h⟩ := ok_bind_inv h
    obtain ⟨q, h8, h⟩ := ok_bind_inv h
    cases h
    obtain ⟨b', h1'⟩ := shape_readB hs h1
    obtain ⟨u', h5', hu⟩ := iht (pc' := some (pc'.getD true && b')) hs .some h5
    obtain ⟨w', h6', hw⟩ := ihf (pc' := some (pc'.getD true && !b')) hs .some h6
    obtain ⟨vs', h7', hv⟩ := shape_mergeAll (c := b') hu hw h7
    obtain ⟨q', h8', hq⟩ := ih (List.rel_append hs hv) hp h8
    exact ⟨_, (bind_of_ok h1' _).trans ((bind_of_ok (cbit_not b') _).trans ((bind_of_ok (path_val pc' b') _).trans
      ((bind_of_ok (path_val pc' (!b')) _).trans ((bind_of_ok h5' _).trans ((bind_of_ok h6' _).trans ((bind_of_ok h7' _).trans
      ((bind_of_ok h8' _).trans rfl))))))), hq⟩
  | loop init head c body next p ihh ihb ih =>
    intro pc pc' s s' r hs hp h
    obtain ⟨vs, h1, h⟩ := ok_bind_inv h
    obtain ⟨l, h2, h⟩ := ok_bind_inv h
    obtain ⟨q, h3, h⟩ := ok_bind_inv h
    cases h
    obtain ⟨vs', h1', hv⟩ := shape_readAll hs h1
    obtain ⟨l', h2', hl⟩ := turns_any
      (tf' := fun pc vs => do
          let u ← unwind concrete k pc (s' ++ vs) head
          let b ← readB concrete u.1 c
          return (b, u.2))
      (bf' := fun pc vs => do
          let u ← unwind concrete k pc (s' ++ vs) body
          let ws ← readAll concrete u.1 next
          return (ws, u.2))
      (by
        intro pc pc' vs vs' r hv hp h
        obtain ⟨u, h1, h⟩ := ok_bind_inv h
        obtain ⟨b, h2, h⟩ := ok_bind_inv h
        obtain ⟨u', h1', hu⟩ := ihh (List.rel_append hs hv) hp h1
        obtain ⟨b', h2'⟩ := shape_readB hu h2
        exact ⟨_, (bind_of_ok h1' _).trans ((bind_of_ok h2' _).trans rfl)⟩)
      (by
        intro pc pc' vs vs' r hv hp h
        obtain ⟨u, h1, h⟩ := ok_bind_inv h
        obtain ⟨b, h2, h⟩ := ok_bind_inv h
        cases h
        obtain ⟨u', h1', hu⟩ := ihb (List.rel_append hs hv) hp h1
        obtain ⟨b', h2', hb⟩ := shape_readAll hu h2
        exact ⟨_, (bind_of_ok h1' _).trans ((bind_of_ok h2' _).trans rfl), hb⟩) hv hp h2 k
    obtain ⟨q', h3', hq⟩ := ih (List.rel_append hs hl) hp h3
    exact ⟨_, (bind_of_ok h1' _).trans ((bind_of_ok h2' _).trans ((bind_of_ok h3' _).trans rfl)), hq⟩

end HW.Circuit.Loops
