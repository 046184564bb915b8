import Verif.Props.Lanes

/-!
# C168: equivalence checking

Two circuits (C123) over the same inputs are run one after the other, and their outputs are compared. A solver proves
the comparison over free variables exactly if the two give equal outputs in every simulation.
-/

namespace HW
open Circuit Spec Gates

namespace Miter

/-! ### The claims -/

/-- The number of values an instruction adds. -/
def adds : Instr → Nat
  | .adc .. => 2
  | _ => 1

def size (p : List Instr) : Nat := (p.map adds).sum

/-- Values from number `m` on are `k` places further. -/
def at' (m k j : Nat) : Nat := if j < m then j else j + k

def moveArg (m k : Nat) : Arg → Arg
  | .reg i => .reg (at' m k i)
  | .int v => .int v

/-- The same instruction, behind `k` further values after the `m` inputs. -/
def move (m k : Nat) : Instr → Instr
  | .const r n v => .const r n v
  | .un op x => .un op (at' m k x)
  | .bin op x y => .bin op (at' m k x) (moveArg m k y)
  | .cmp op x y => .cmp op (at' m k x) (moveArg m k y)
  | .rol x c => .rol (at' m k x) c
  | .ror x c => .ror (at' m k x) c
  | .zext x c => .zext (at' m k x) c
  | .sext x c => .sext (at' m k x) c
  | .slice x lo hi => .slice (at' m k x) lo hi
  | .index x i => .index (at' m k x) i
  | .concat x y => .concat (at' m k x) (at' m k y)
  | .adc x y c => .adc (at' m k x) (moveArg m k y) (moveArg m k c)
  | .opA op x y => .opA op (at' m k x) (moveArg m k y)
  | .opC op x y => .opC op (at' m k x) (moveArg m k y)
  | .bit op a b => .bit op (at' m k a) (at' m k b)
  | .bitNot a => .bitNot (at' m k a)
  | .mux c t f => .mux (at' m k c) (at' m k t) (at' m k f)

/-- Both circuits on the same `m` inputs. -/
def both (m : Nat) (p q : List Instr) : List Instr := p ++ q.map (move m (size p))

/-- `p`'s value `a` and `q`'s value `b` compared with `bveq`; the answer is value number `answer m p q`. -/
def miterV (m : Nat) (p q : List Instr) (a b : Nat) : List Instr := both m p q ++ [.cmp .eq a (.reg (at' m (size p) b))]

/-- The same for bits, with `==`. -/
def miterB (m : Nat) (p q : List Instr) (a b : Nat) : List Instr := both m p q ++ [.bit .eq a (at' m (size p) b)]

def answer (m : Nat) (p q : List Instr) : Nat := m + size p + size q

/-- In simulation the circuits return on all inputs, and these outputs are vectors of one width and equal. -/
def EqualV (ps : List (List Char × Port)) (p q : List Instr) (a b : Nat) : Prop :=
  ∀ t, List.Forall₂ InPort ps t → ∃ u w X Y, run concrete t p = .ok u ∧ run concrete t q = .ok w ∧
    u[a]? = some (.vec X) ∧ w[b]? = some (.vec Y) ∧ X.size = Y.size ∧ X.value = Y.value

def EqualB (ps : List (List Char × Port)) (p q : List Instr) (a b : Nat) : Prop :=
  ∀ t, List.Forall₂ InPort ps t → ∃ u w c, run concrete t p = .ok u ∧ run concrete t q = .ok w ∧
    u[a]? = some (.bit c) ∧ w[b]? = some (.bit c)

/-! ### One circuit behind another -/

section
variable {F : Family} {m k : Nat} {s s' : List (Reg F.V F.B)}

/-- The values of `s` are in `s'`, moved. -/
def Holds (m k : Nat) (s s' : List (Reg F.V F.B)) : Prop := m ≤ s.length ∧ s'.length = s.length + k ∧ ∀ j, s'[at' m k j]? = s[j]?

theorem Holds.app (h : Holds (F := F) m k s s') (o : List (Reg F.V F.B)) : Holds (F := F) m k (s ++ o) (s' ++ o) := by
  obtain ⟨h1, h2, h3⟩ := h
  refine ⟨by simp; omega, by simp; omega, fun j => ?_⟩
  by_cases hj : j < s.length
  · have := h3 j
    rw [List.getElem?_append_left hj, List.getElem?_append_left]
    · exact this
    · unfold at'; split <;> omega
  · have e : at' m k j = j + k := by unfold at'; rw [if_neg (by omega)]
    rw [e, List.getElem?_append_right (by omega), List.getElem?_append_right (by omega)]
    congr 1
    omega

variable (h : Holds (F := F) m k s s')
include h

theorem read_moved (j : Nat) : Circuit.read F s' (at' m k j) = Circuit.read F s j := by
  unfold Circuit.read
  rw [h.2.2 j]

theorem readV_moved (j : Nat) : readV F s' (at' m k j) = readV F s j := by
  unfold readV
  rw [read_moved h]

theorem readB_moved (j : Nat) : readB F s' (at' m k j) = readB F s j := by
  unfold readB
  rw [read_moved h]

theorem readArg_moved (a : Arg) : readArg F s' (moveArg m k a) = readArg F s a := by
  cases a with
  | int v => rfl
  | reg i =>
    show (Circuit.read F s' (at' m k i) >>= _) = _
    rw [read_moved h]
    rfl

/-- The moved instruction adds the same values. -/
theorem step_moved (i : Instr) :
    (∃ e, step F s i = .error e ∧ step F s' (move m k i) = .error e) ∨
      ∃ o, o.length = adds i ∧ step F s i = .ok (s ++ o) ∧ step F s' (move m k i) = .ok (s' ++ o) := by
  have same : ∀ {α : Type} (x : PyM α) (f g : α → PyM (List (Reg F.V F.B))),
      (∀ a, (∃ e, f a = .error e ∧ g a = .error e) ∨ ∃ o, o.length = adds i ∧ f a = .ok (s ++ o) ∧ g a = .ok (s' ++ o)) →
      (∃ e, (x >>= f) = .error e ∧ (x >>= g) = .error e) ∨
        ∃ o, o.length = adds i ∧ (x >>= f) = .ok (s ++ o) ∧ (x >>= g) = .ok (s' ++ o) := by
    intro α x f g hfg
    cases x with
    | error e => exact .inl ⟨e, rfl, rfl⟩
    | ok a => exact hfg a
  cases i with
  | adc x y c =>
    simp only [step, move, readV_moved h, readArg_moved h]
    refine same _ _ _ fun _ => same _ _ _ fun _ => same _ _ _ fun _ => same _ _ _ fun r => .inr ⟨[.vec r.1, .bit r.2], rfl, ?_, ?_⟩ <;>
      simp [putV, putB, pure, Except.pure]
  | _ =>
    simp only [step, move, readV_moved h, readArg_moved h, readB_moved h]
    repeat' (first | exact .inr ⟨[_], rfl, rfl, rfl⟩ | refine same _ _ _ fun _ => ?_)

end

section
variable {F : Family}

theorem run_moved {m k : Nat} (p : List Instr) : ∀ {s s' : List (Reg F.V F.B)}, Holds (F := F) m k s s' →
    (∃ e, run F s p = .error e ∧ run F s' (p.map (move m k)) = .error e) ∨
      ∃ o, o.length = size p ∧ run F s p = .ok (s ++ o) ∧ run F s' (p.map (move m k)) = .ok (s' ++ o) := by
  induction p with
  | nil => intro s s' _; exact .inr ⟨[], rfl, by simp [run], by simp [run]⟩
  | cons i p ih =>
    intro s s' h
    rcases step_moved h i with ⟨e, h1, h2⟩ | ⟨o, ho, h1, h2⟩
    · refine .inl ⟨e, ?_, ?_⟩
      · show (step F s i >>= _) = _
        rw [h1]; rfl
      · show (step F s' (move m k i) >>= _) = _
        rw [h2]; rfl
    · have e1 : run F s (i :: p) = run F (s ++ o) p := by
        show (step F s i >>= _) = _
        rw [h1]; rfl
      have e2 : run F s' ((i :: p).map (move m k)) = run F (s' ++ o) (p.map (move m k)) := by
        show (step F s' (move m k i) >>= _) = _
        rw [h2]; rfl
      rw [e1, e2]
      rcases ih (h.app o) with ⟨e, h3, h4⟩ | ⟨o', ho', h3, h4⟩
      · exact .inl ⟨e, h3, h4⟩
      · refine .inr ⟨o ++ o', by simp [size, ho, ho'] , ?_, ?_⟩
        · rw [h3, List.append_assoc]
        · rw [h4, List.append_assoc]

theorem run_append (p q : List Instr) : ∀ s : List (Reg F.V F.B), run F s (p ++ q) = run F s p >>= fun s => run F s q := by
  induction p with
  | nil => intro s; rfl
  | cons i p ih =>
    intro s
    show (step F s i >>= fun s => run F s (p ++ q)) = (step F s i >>= fun s => run F s p) >>= _
    cases step F s i with
    | error e => rfl
    | ok w => exact ih w

theorem holds_refl (s : List (Reg F.V F.B)) : Holds (F := F) s.length 0 s s :=
  ⟨Nat.le_refl _, rfl, fun j => by unfold at'; split <;> rfl⟩

/-- What a circuit adds. -/
theorem run_adds (p : List Instr) (s : List (Reg F.V F.B)) :
    (∃ e, run F s p = .error e) ∨ ∃ o, o.length = size p ∧ run F s p = .ok (s ++ o) := by
  rcases run_moved p (holds_refl s) with ⟨e, h, -⟩ | ⟨o, h1, h2, -⟩
  · exact .inl ⟨e, h⟩
  · exact .inr ⟨o, h1, h2⟩

/-- Both circuits on the same inputs, one after the other. -/
theorem run_both (p q : List Instr) (s : List (Reg F.V F.B)) :
    (∃ e, run F s (both s.length p q) = .error e ∧ ((∃ e, run F s p = .error e) ∨ ∃ e, run F s q = .error e)) ∨
      ∃ o o', o.length = size p ∧ o'.length = size q ∧ run F s p = .ok (s ++ o) ∧ run F s q = .ok (s ++ o') ∧
        run F s (both s.length p q) = .ok (s ++ o ++ o') := by
  unfold both
  rw [run_append]
  rcases run_adds p s with ⟨e, h⟩ | ⟨o, ho, h⟩
  · exact .inl ⟨e, by rw [h]; rfl, .inl ⟨e, h⟩⟩
  · have hh : Holds (F := F) s.length (size p) s (s ++ o) := by
      refine ⟨Nat.le_refl _, by simp [ho], fun j => ?_⟩
      unfold at'
      split
      · next hj => rw [List.getElem?_append_left hj]
      · next hj =>
        rw [List.getElem?_eq_none (l := s) (by omega), List.getElem?_eq_none (by simp; omega)]
    rw [h]
    rcases run_moved q hh with ⟨e, h1, h2⟩ | ⟨o', ho', h1, h2⟩
    · exact .inl ⟨e, h2, .inr ⟨e, h1⟩⟩
    · exact .inr ⟨o, o', ho, ho', rfl, h1, h2⟩

end

section
variable {F : Family} {s : List (Reg F.V F.B)} {x y : Nat}

theorem step_cmp {X Y : F.V} (h1 : s[x]? = some (.vec X)) (h2 : s[y]? = some (.vec Y)) :
    run F s [.cmp .eq x (.reg y)] = F.cmp .eq X (.vec Y) >>= fun c => .ok (s ++ [.bit c]) := by
  show (step F s (.cmp .eq x (.reg y)) >>= fun s => .ok s) = _
  simp only [step, readV, readArg, Circuit.read, h1, h2, Bind.bind, Except.bind, pure, Except.pure, putB]
  cases F.cmp .eq X (.vec Y) <;> rfl

theorem step_cmp_fails (h : ∀ X Y, s[x]? = some (.vec X) → s[y]? = some (.vec Y) → False) (hy : ∀ c, s[y]? ≠ some (.bit c)) :
    ∃ e, run F s [.cmp .eq x (.reg y)] = .error e := by
  show ∃ e, (step F s (.cmp .eq x (.reg y)) >>= fun s => .ok s) = _
  rcases hx : s[x]? with _ | (X | b)
  · exact ⟨.nameError, by simp [step, readV, Circuit.read, hx, Bind.bind, Except.bind]⟩
  · rcases hy' : s[y]? with _ | (Y | c)
    · exact ⟨.nameError, by simp [step, readV, readArg, Circuit.read, hx, hy', Bind.bind, Except.bind, pure, Except.pure]⟩
    · exact (h X Y hx hy').elim
    · exact (hy c hy').elim
  · exact ⟨.attributeError, by simp [step, readV, Circuit.read, hx, Bind.bind, Except.bind]⟩

theorem step_beq {X Y : F.B} (h1 : s[x]? = some (.bit X)) (h2 : s[y]? = some (.bit Y)) :
    run F s [.bit .eq x y] = F.bit .eq X Y >>= fun c => .ok (s ++ [.bit c]) := by
  show (step F s (.bit .eq x y) >>= fun s => .ok s) = _
  simp only [step, readB, Circuit.read, h1, h2, Bind.bind, Except.bind, pure, Except.pure, putB]
  cases F.bit .eq X Y <;> rfl

theorem step_beq_fails (h : ∀ X Y, s[x]? = some (.bit X) → s[y]? = some (.bit Y) → False) :
    ∃ e, run F s [.bit .eq x y] = .error e := by
  show ∃ e, (step F s (.bit .eq x y) >>= fun s => .ok s) = _
  rcases hx : s[x]? with _ | (X | b)
  · exact ⟨.nameError, by simp [step, readB, Circuit.read, hx, Bind.bind, Except.bind]⟩
  · exact ⟨.attributeError, by simp [step, readB, Circuit.read, hx, Bind.bind, Except.bind]⟩
  · rcases hy' : s[y]? with _ | (Y | c)
    · exact ⟨.nameError, by simp [step, readB, Circuit.read, hx, hy', Bind.bind, Except.bind, pure, Except.pure]⟩
    · exact ⟨.attributeError, by simp [step, readB, Circuit.read, hx, hy', Bind.bind, Except.bind, pure, Except.pure]⟩
    · exact (h b c hx hy').elim

end

/-- Where the outputs of the two circuits are in the run of both. -/
theorem get_both {α : Type} {t o o' : List α} {a b k : Nat} (ho : o.length = k) (ha : a < t.length + k) :
    (t ++ o ++ o')[a]? = (t ++ o)[a]? ∧ (t ++ o ++ o')[at' t.length k b]? = (t ++ o')[b]? := by
  subst ho
  refine ⟨List.getElem?_append_left (by simp; omega), ?_⟩
  unfold at'
  split
  · next h => rw [List.getElem?_append_left (by simp; omega), List.getElem?_append_left h, List.getElem?_append_left h]
  · next h =>
    rw [List.getElem?_append_right (by simp; omega), List.getElem?_append_right (by omega)]
    congr 1
    simp
    omega

theorem get_answer {α : Type} {t o o' : List α} {p q : List Instr} (ho : o.length = size p) (ho' : o'.length = size q) (c : α) :
    (t ++ o ++ o' ++ [c])[answer t.length p q]? = some c := by
  have h : (t ++ o ++ o').length = answer t.length p q := by simp [answer, ho, ho', Nat.add_assoc]
  rw [← h, List.getElem?_append_right (Nat.le_refl _)]
  simp

theorem cmp_same {s : List (Reg BVal Bool)} {x y : Nat} {X Y : BVal} (h1 : s[x]? = some (.vec X))
    (h2 : s[y]? = some (.vec Y)) (hs : X.size = Y.size) :
    run concrete s [.cmp .eq x (.reg y)] = .ok (s ++ [.bit (decide (X.value = Y.value))]) := by
  have h : BVal.bveq X (.bv Y) = .ok (decide (X.value = Y.value)) := by rw [C09_bveq, operand_bv hs.symm]; rfl
  refine (step_cmp (F := concrete) h1 h2).trans ?_
  show (BVal.bveq X (.bv Y)).bind _ = _
  erw [h]
  rfl

theorem cmp_other {s : List (Reg BVal Bool)} {x y : Nat} {X Y : BVal} (h1 : s[x]? = some (.vec X))
    (h2 : s[y]? = some (.vec Y)) (hs : X.size ≠ Y.size) : ∃ e, run concrete s [.cmp .eq x (.reg y)] = .error e := by
  have h : ∃ e, BVal.bveq X (.bv Y) = .error e := by
    rw [C09_bveq]
    simp [operand, Ne.symm hs, Except.map]
  obtain ⟨e, h⟩ := h
  refine ⟨e, (step_cmp (F := concrete) h1 h2).trans ?_⟩
  show (BVal.bveq X (.bv Y)).bind _ = _
  erw [h]
  rfl

theorem run_both' (p q : List Instr) (t : List (Reg BVal Bool)) :
    (∃ e, run concrete t (both t.length p q) = .error e ∧
        ((∃ e, run concrete t p = .error e) ∨ ∃ e, run concrete t q = .error e)) ∨
      ∃ o o' : List (Reg BVal Bool), o.length = size p ∧ o'.length = size q ∧ run concrete t p = .ok (t ++ o) ∧
        run concrete t q = .ok (t ++ o') ∧ run concrete t (both t.length p q) = .ok (t ++ o ++ o') :=
  run_both (F := concrete) p q t

/-- The comparison in one simulation. -/
theorem simV {t : List (Reg BVal Bool)} {p q : List Instr} {a b : Nat} (ha : a < t.length + size p)
    (hb : ∀ w c, run concrete t q = .ok w → w[b]? ≠ some (.bit c)) (v : Bool) :
    (∃ u, run concrete t (miterV t.length p q a b) = .ok u ∧ u[answer t.length p q]? = some (.bit v)) ↔
      ∃ u w X Y, run concrete t p = .ok u ∧ run concrete t q = .ok w ∧ u[a]? = some (.vec X) ∧ w[b]? = some (.vec Y) ∧
        X.size = Y.size ∧ decide (X.value = Y.value) = v := by
  unfold miterV
  erw [run_append (F := concrete)]
  rcases run_both' p q t with ⟨e, h, hf⟩ | ⟨o, o', ho, ho', h1, h2, h3⟩
  · erw [h]
    constructor
    · rintro ⟨u, hu, -⟩; cases hu
    · rintro ⟨u, w, X, Y, e1, e2, -⟩
      rcases hf with ⟨e, hf⟩ | ⟨e, hf⟩
      · erw [e1] at hf; cases hf
      · erw [e2] at hf; cases hf
  · obtain ⟨g1, g2⟩ := get_both (α := Reg BVal Bool) (t := t) (o := o) (o' := o') (a := a) (b := b) ho ha
    have hans : ∀ c : Reg BVal Bool, (t ++ o ++ o' ++ [c])[answer t.length p q]? = some c :=
      get_answer ho ho'
    erw [h3]
    show (∃ u, run concrete (t ++ o ++ o') _ = .ok u ∧ _) ↔ _
    constructor
    · rintro ⟨u, hu, hv⟩
      have hex : ∃ X Y, (t ++ o)[a]? = some (.vec X) ∧ (t ++ o')[b]? = some (.vec Y) := by
        by_contra hno
        obtain ⟨e, he⟩ := step_cmp_fails (F := concrete) (s := t ++ o ++ o') (x := a) (y := at' t.length (size p) b)
          (fun X Y e1 e2 => hno ⟨X, Y, g1.symm.trans e1, g2.symm.trans e2⟩)
          (fun c e2 => hb _ c h2 (g2.symm.trans e2))
        erw [he] at hu; cases hu
      obtain ⟨X, Y, e1, e2⟩ := hex
      by_cases hs : X.size = Y.size
      · cases (cmp_same (g1.trans e1) (g2.trans e2) hs).symm.trans hu
        cases (hans _).symm.trans hv
        exact ⟨_, _, X, Y, h1, h2, e1, e2, hs, rfl⟩
      · obtain ⟨e, he⟩ := cmp_other (g1.trans e1) (g2.trans e2) hs
        erw [he] at hu; cases hu
    · rintro ⟨u, w, X, Y, r1, r2, e1, e2, hs, hv⟩
      cases r1.symm.trans h1
      cases r2.symm.trans h2
      subst hv
      exact ⟨_, cmp_same (g1.trans e1) (g2.trans e2) hs, hans _⟩

theorem simB {t : List (Reg BVal Bool)} {p q : List Instr} {a b : Nat} (ha : a < t.length + size p) (v : Bool) :
    (∃ u, run concrete t (miterB t.length p q a b) = .ok u ∧ u[answer t.length p q]? = some (.bit v)) ↔
      ∃ u w, ∃ c d : Bool, run concrete t p = .ok u ∧ run concrete t q = .ok w ∧ u[a]? = some (.bit c) ∧ w[b]? = some (.bit d) ∧
        (c == d) = v := by
  unfold miterB
  erw [run_append (F := concrete)]
  rcases run_both' p q t with ⟨e, h, hf⟩ | ⟨o, o', ho, ho', h1, h2, h3⟩
  · erw [h]
    constructor
    · rintro ⟨u, hu, -⟩; cases hu
    · rintro ⟨u, w, X, Y, e1, e2, -⟩
      rcases hf with ⟨e, hf⟩ | ⟨e, hf⟩
      · erw [e1] at hf; cases hf
      · erw [e2] at hf; cases hf
  · obtain ⟨g1, g2⟩ := get_both (α := Reg BVal Bool) (t := t) (o := o) (o' := o') (a := a) (b := b) ho ha
    have hans : ∀ c : Reg BVal Bool, (t ++ o ++ o' ++ [c])[answer t.length p q]? = some c :=
      get_answer ho ho'
    erw [h3]
    show (∃ u, run concrete (t ++ o ++ o') _ = .ok u ∧ _) ↔ _
    have hrun : ∀ {c d}, (t ++ o)[a]? = some (.bit c) → (t ++ o')[b]? = some (.bit d) →
        run concrete (t ++ o ++ o') [.bit .eq a (at' t.length (size p) b)] = .ok (t ++ o ++ o' ++ [.bit (c == d)]) := by
      intro c d e1 e2
      refine (step_beq (F := concrete) (s := t ++ o ++ o') (g1.trans e1) (g2.trans e2)).trans ?_
      show (cBitOp .eq c d >>= fun c => .ok (t ++ o ++ o' ++ [.bit c])) = _
      rw [cBitOp_eq]
      cases c <;> cases d <;> rfl
    constructor
    · rintro ⟨u, hu, hv⟩
      have hex : ∃ X Y, (t ++ o)[a]? = some (.bit X) ∧ (t ++ o')[b]? = some (.bit Y) := by
        by_contra hno
        obtain ⟨e, he⟩ := step_beq_fails (F := concrete) (s := t ++ o ++ o') (x := a) (y := at' t.length (size p) b)
          (fun X Y e1 e2 => hno ⟨X, Y, g1.symm.trans e1, g2.symm.trans e2⟩)
        erw [he] at hu; cases hu
      obtain ⟨c, d, e1, e2⟩ := hex
      cases (hrun e1 e2).symm.trans hu
      have hv := (hans _).symm.trans hv
      injection hv with hv
      injection hv with hv
      exact ⟨_, _, c, d, h1, h2, e1, e2, hv⟩
    · rintro ⟨u, w, c, d, r1, r2, e1, e2, hv⟩
      cases r1.symm.trans h1
      cases r2.symm.trans h2
      subst hv
      exact ⟨_, hrun e1 e2, hans _⟩

end Miter

open Miter

/-- A solver proves that the outputs of two circuits are equal exactly if they are equal vectors of one width in every
simulation; pysmt and z3 alike. -/
theorem C168_vectors (S : Smt.Simplifier) {ps : List (List Char × Port)} (hp : PortsOk ps) (p q : List Instr) {a b : Nat}
    (ha : a < ps.length + size p)
    (hb : ∀ t, List.Forall₂ InPort ps t → ∀ w c, run concrete t q = .ok w → w[b]? ≠ some (.bit c)) :
    (SmtProves S ps (miterV ps.length p q a b) (answer ps.length p q) ↔ EqualV ps p q a b) ∧
      (Z3Proves ps (miterV ps.length p q a b) (answer ps.length p q) ↔ EqualV ps p q a b) := by
  have key : SimTrue ps (miterV ps.length p q a b) (answer ps.length p q) ↔ EqualV ps p q a b := by
    refine forall₂_congr fun t ht => ?_
    have hl := ht.length_eq
    rw [hl]
    refine (simV (by rw [← hl]; exact ha) (fun w c hw => hb t ht w c hw) true).trans ?_
    simp only [decide_eq_true_eq]
  exact ⟨(C123_smt_verdict S hp _ _).trans key, (C123_z3_verdict hp _ _).trans key⟩

/-- The same for outputs that are bits. -/
theorem C168_bits (S : Smt.Simplifier) {ps : List (List Char × Port)} (hp : PortsOk ps) (p q : List Instr) {a b : Nat}
    (ha : a < ps.length + size p) :
    (SmtProves S ps (miterB ps.length p q a b) (answer ps.length p q) ↔ EqualB ps p q a b) ∧
      (Z3Proves ps (miterB ps.length p q a b) (answer ps.length p q) ↔ EqualB ps p q a b) := by
  have key : SimTrue ps (miterB ps.length p q a b) (answer ps.length p q) ↔ EqualB ps p q a b := by
    refine forall₂_congr fun t ht => ?_
    have hl := ht.length_eq
    rw [hl]
    refine (simB (by rw [← hl]; exact ha) true).trans ?_
    constructor
    · rintro ⟨u, w, c, d, h1, h2, h3, h4, h5⟩
      have : c = d := by simpa using h5
      subst this
      exact ⟨u, w, c, h1, h2, h3, h4⟩
    · rintro ⟨u, w, c, h1, h2, h3, h4⟩
      exact ⟨u, w, c, c, h1, h2, h3, h4, beq_self_eq_true (α := Bool) c⟩
  exact ⟨(C123_smt_verdict S hp _ _).trans key, (C123_z3_verdict hp _ _).trans key⟩

/-- An assignment under which the comparison is false, read back, is an input on which the simulations return and their
outputs differ. -/
theorem C168_counterexample (S : Smt.Simplifier) {ps : List (List Char × Port)} (hp : PortsOk ps) {p q : List Instr}
    {a b : Nat} (ha : a < ps.length + size p)
    (hb : ∀ t, List.Forall₂ InPort ps t → ∀ w c, run concrete t q = .ok w → w[b]? ≠ some (.bit c))
    {u : List (Reg Smt.SBV Smt.Term)} {z : Smt.Term} (hu : run (smt S) (ps.map smtIn) (miterV ps.length p q a b) = .ok u)
    (hz : u[answer ps.length p q]? = some (.bit z)) (e : Smt.Env) (hv : z.eval e = some (.bool false)) :
    ∃ u w X Y, run concrete (ps.map (readBack e.bool e.bv)) p = .ok u ∧ run concrete (ps.map (readBack e.bool e.bv)) q = .ok w ∧
      u[a]? = some (.vec X) ∧ w[b]? = some (.vec Y) ∧ X.size = Y.size ∧ X.value ≠ Y.value := by
  have h := C123_replay S hp hu hz e hv
  have hl : (ps.map (readBack e.bool e.bv)).length = ps.length := by simp
  rw [← hl] at h
  have hin : List.Forall₂ InPort ps (ps.map (readBack e.bool e.bv)) := reads_in (readBack_reads _ _ _)
  obtain ⟨u, w, X, Y, h1, h2, h3, h4, h5, h6⟩ := (simV (by rw [hl]; exact ha) (fun w c hw => hb _ hin w c hw) false).1 h
  exact ⟨u, w, X, Y, h1, h2, h3, h4, h5, by simpa using h6⟩

theorem C168_counterexample_z3 {ps : List (List Char × Port)} (hp : PortsOk ps) {p q : List Instr}
    {a b : Nat} (ha : a < ps.length + size p)
    (hb : ∀ t, List.Forall₂ InPort ps t → ∀ w c, run concrete t q = .ok w → w[b]? ≠ some (.bit c))
    {u : List (Reg z3.V z3.B)} {z : z3.B} (hu : run z3 (ps.map z3In) (miterV ps.length p q a b) = .ok u)
    (hz : u[answer ps.length p q]? = some (.bit z)) (e : Z3.Env) (hv : z e = false) :
    ∃ u w X Y, run concrete (ps.map (readBack e.bool e.bv)) p = .ok u ∧ run concrete (ps.map (readBack e.bool e.bv)) q = .ok w ∧
      u[a]? = some (.vec X) ∧ w[b]? = some (.vec Y) ∧ X.size = Y.size ∧ X.value ≠ Y.value := by
  have h := C123_replay_z3 hp hu hz e
  rw [hv] at h
  have hl : (ps.map (readBack e.bool e.bv)).length = ps.length := by simp
  rw [← hl] at h
  have hin : List.Forall₂ InPort ps (ps.map (readBack e.bool e.bv)) := reads_in (readBack_reads _ _ _)
  obtain ⟨u, w, X, Y, h1, h2, h3, h4, h5, h6⟩ := (simV (by rw [hl]; exact ha) (fun w c hw => hb _ hin w c hw) false).1 h
  exact ⟨u, w, X, Y, h1, h2, h3, h4, h5, by simpa using h6⟩

/-- Bits: the two outputs differ. -/
theorem C168_counterexample_bits (S : Smt.Simplifier) {ps : List (List Char × Port)} (hp : PortsOk ps) {p q : List Instr}
    {a b : Nat} (ha : a < ps.length + size p) {u : List (Reg Smt.SBV Smt.Term)} {z : Smt.Term}
    (hu : run (smt S) (ps.map smtIn) (miterB ps.length p q a b) = .ok u)
    (hz : u[answer ps.length p q]? = some (.bit z)) (e : Smt.Env) (hv : z.eval e = some (.bool false)) :
    ∃ u w, ∃ c d : Bool, run concrete (ps.map (readBack e.bool e.bv)) p = .ok u ∧
      run concrete (ps.map (readBack e.bool e.bv)) q = .ok w ∧ u[a]? = some (.bit c) ∧ w[b]? = some (.bit d) ∧ c ≠ d := by
  have h := C123_replay S hp hu hz e hv
  have hl : (ps.map (readBack e.bool e.bv)).length = ps.length := by simp
  rw [← hl] at h
  obtain ⟨u, w, c, d, h1, h2, h3, h4, h5⟩ := (simB (t := ps.map (readBack e.bool e.bv)) (hl ▸ ha) false).1 h
  exact ⟨u, w, c, d, h1, h2, h3, h4, by simpa using h5⟩

theorem C168_counterexample_bits_z3 {ps : List (List Char × Port)} (hp : PortsOk ps) {p q : List Instr}
    {a b : Nat} (ha : a < ps.length + size p) {u : List (Reg z3.V z3.B)} {z : z3.B}
    (hu : run z3 (ps.map z3In) (miterB ps.length p q a b) = .ok u)
    (hz : u[answer ps.length p q]? = some (.bit z)) (e : Z3.Env) (hv : z e = false) :
    ∃ u w, ∃ c d : Bool, run concrete (ps.map (readBack e.bool e.bv)) p = .ok u ∧
      run concrete (ps.map (readBack e.bool e.bv)) q = .ok w ∧ u[a]? = some (.bit c) ∧ w[b]? = some (.bit d) ∧ c ≠ d := by
  have h := C123_replay_z3 hp hu hz e
  rw [hv] at h
  have hl : (ps.map (readBack e.bool e.bv)).length = ps.length := by simp
  rw [← hl] at h
  obtain ⟨u, w, c, d, h1, h2, h3, h4, h5⟩ := (simB (t := ps.map (readBack e.bool e.bv)) (hl ▸ ha) false).1 h
  exact ⟨u, w, c, d, h1, h2, h3, h4, by simpa using h5⟩

/-! ### Cases -/

namespace Miter

def samplePorts : List (List Char × Port) := [(['x'], .vec .uint 8), (['y'], .vec .uint 8)]

theorem samplePorts_ok : PortsOk samplePorts := ⟨by decide, by
  intro q r n h
  simp [samplePorts] at h
  omega⟩

/-- `x + y` and `y + x`. -/
def xy : List Instr := [.bin .add 0 (.reg 1)]
def yx : List Instr := [.bin .add 1 (.reg 0)]
/-- `(x | y) + (x ^ y)`, which is not `x + y`. -/
def wrong : List Instr := [.bin .or 0 (.reg 1), .bin .xor 0 (.reg 1), .bin .add 2 (.reg 3)]

end Miter

example : miterV 2 xy wrong 2 4 = [.bin .add 0 (.reg 1), .bin .or 0 (.reg 1), .bin .xor 0 (.reg 1), .bin .add 3 (.reg 4),
    .cmp .eq 2 (.reg 5)] := rfl

example : ∃ u, run concrete [.vec ⟨.root .uint, 8, 5⟩, .vec ⟨.root .uint, 8, 3⟩] (miterV 2 xy wrong 2 4) = .ok u ∧
    u[answer 2 xy wrong]? = some (.bit false) := ⟨_, rfl, rfl⟩

theorem Miter.xy_yx : EqualV samplePorts xy yx 2 2 := by
  intro t ht
  cases ht with
  | cons hx h =>
    cases h with
    | cons hy h =>
      cases h
      cases hx with
      | @vec _ _ _ v _ _ =>
        cases hy with
        | @vec _ _ _ w _ _ =>
          refine ⟨_, _, ⟨.root .uint, 8, pyAnd (v + w) (2 ^ 8 - 1)⟩, ⟨.root .uint, 8, pyAnd (w + v) (2 ^ 8 - 1)⟩, rfl, rfl, rfl, rfl, rfl, ?_⟩
          show pyAnd _ _ = pyAnd _ _
          rw [Int.add_comm]

theorem Miter.yx_vec : ∀ t, List.Forall₂ InPort samplePorts t → ∀ w c, run concrete t yx = .ok w → w[2]? ≠ some (.bit c) := by
  intro t ht w c hw hc
  obtain ⟨u, w', X, Y, -, h2, -, h4, -⟩ := Miter.xy_yx t ht
  cases h2.symm.trans hw
  cases h4.symm.trans hc

/-- Both solvers prove `x + y == y + x`. -/
example (S : Smt.Simplifier) : SmtProves S samplePorts (miterV 2 xy yx 2 2) 4 ∧ Z3Proves samplePorts (miterV 2 xy yx 2 2) 4 :=
  have h := C168_vectors S samplePorts_ok xy yx (a := 2) (b := 2) (by decide) Miter.yx_vec
  ⟨h.1.2 Miter.xy_yx, h.2.2 Miter.xy_yx⟩

/-- Neither proves `x < y` to be `y < x`. -/
example (S : Smt.Simplifier) : ¬ SmtProves S samplePorts (miterB 2 [.cmp .ult 0 (.reg 1)] [.cmp .ult 1 (.reg 0)] 2 2) 4 := by
  intro h
  obtain ⟨u, w, c, h1, h2, h3, h4⟩ := (C168_bits S samplePorts_ok _ _ (by decide)).1.1 h
    [.vec ⟨.root .uint, 8, 5⟩, .vec ⟨.root .uint, 8, 3⟩] (.cons (.vec (by decide) (by decide)) (.cons (.vec (by decide) (by decide)) .nil))
  have e1 : run concrete [.vec ⟨.root .uint, 8, 5⟩, .vec ⟨.root .uint, 8, 3⟩] [.cmp .ult 0 (.reg 1)] =
      .ok [.vec ⟨.root .uint, 8, 5⟩, .vec ⟨.root .uint, 8, 3⟩, .bit false] := rfl
  have e2 : run concrete [.vec ⟨.root .uint, 8, 5⟩, .vec ⟨.root .uint, 8, 3⟩] [.cmp .ult 1 (.reg 0)] =
      .ok [.vec ⟨.root .uint, 8, 5⟩, .vec ⟨.root .uint, 8, 3⟩, .bit true] := rfl
  cases e1.symm.trans h1
  cases e2.symm.trans h2
  cases h3
  cases h4

end HW
