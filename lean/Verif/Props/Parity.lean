import Verif.Props.Wiring

/-!
# C166: code made of moves and exclusive ors is a net of parities

Circuits of C164 that may also combine two values with `bvxor`, `bvxnor`, or `^`, `==`, `!=` on bits: every digit of
every result is the parity of a fixed set of input digits, inverted or not. Checksums, Gray codes and scramblers are of
this form.
-/

namespace HW
open Circuit Spec Gates Wiring

namespace Parity

/-! ### The claims -/

/-- The exclusive or of the digits at some addresses. -/
def parity {α : Type} (g : α → Bool) : List α → Bool
  | [] => false
  | a :: l => g a ^^ parity g l

/-- A fixed bit and the addresses of digits. -/
abbrev Sum (α : Type) := Bool × List α

def val {α : Type} (g : α → Bool) (s : Sum α) : Bool := s.1 ^^ parity g s.2

/-- `r` has the declared class and width, and its digits are the parities that `q` says. -/
def Summed (q : Port × (Nat → Sum (Nat × Nat))) (t : List (Reg BVal Bool)) (r : Reg BVal Bool) : Prop :=
  Fits q.1 r ∧ ∀ j < width q.1, rdigit r j = val (digit t) (q.2 j)

/-- The instructions that move, invert and add digits modulo 2. -/
def Linear : Instr → Prop
  | .bin op _ (.reg _) => op = .xor ∨ op = .xnor
  | .bit op _ _ => op = .xor ∨ op = .eq ∨ op = .ne
  | i => Moves i

/-! ### Parities -/

section
variable {α β : Type}

theorem parity_append (g : α → Bool) (l m : List α) : parity g (l ++ m) = (parity g l ^^ parity g m) := by
  induction l with
  | nil => simp [parity]
  | cons a l ih => simp [parity, ih]

def ofSrc : Src α → Sum α
  | .const b => (b, [])
  | .wire a => (false, [a])
  | .inv a => (true, [a])

theorem val_ofSrc (g : α → Bool) (s : Src α) : val g (ofSrc s) = s.val g := by
  cases s <;> simp [val, ofSrc, Src.val, parity]

def bind (s : Sum α) (f : α → Sum β) : Sum β := (s.1 ^^ parity (fun a => (f a).1) s.2, s.2.flatMap fun a => (f a).2)

theorem val_bind (s : Sum α) (f : α → Sum β) (g : β → Bool) : val g (bind s f) = val (fun a => val g (f a)) s := by
  obtain ⟨c, l⟩ := s
  unfold val bind
  dsimp only
  rw [Bool.xor_assoc]
  congr 1
  induction l with
  | nil => simp [parity]
  | cons a l ih =>
    simp only [parity, List.flatMap_cons, parity_append]
    rw [← ih]
    cases (f a).1 <;> cases parity g (f a).2 <;> simp

theorem parity_xor3 {g g1 g2 g3 : α → Bool} (h : ∀ a, g a = (g1 a ^^ g2 a ^^ g3 a)) (l : List α) :
    parity g l = (parity g1 l ^^ parity g2 l ^^ parity g3 l) := by
  induction l with
  | nil => rfl
  | cons a l ih =>
    simp only [parity, ih, h]
    cases g1 a <;> cases g2 a <;> cases g3 a <;> simp

theorem val_xor3 {g g1 g2 g3 : α → Bool} (h : ∀ a, g a = (g1 a ^^ g2 a ^^ g3 a)) (s : Sum α) :
    val g s = (val g1 s ^^ val g2 s ^^ val g3 s) := by
  unfold val
  rw [parity_xor3 h]
  cases s.1 <;> simp

end

/-! ### One instruction -/

def StepSum (ps : List Port) (i : Instr) : Prop :=
  (∃ e, ∀ t, List.Forall₂ Fits ps t → cstep t i = .error e) ∨
    ∃ q : Port × (Nat → Sum (Nat × Nat)), ∀ t, List.Forall₂ Fits ps t → ∃ r, cstep t i = .ok (t ++ [r]) ∧ Summed q t r

theorem of_moves {ps : List Port} {i : Instr} (h : Moves i) : StepSum ps i := by
  rcases moves_route ps h with h | ⟨q, -, h⟩
  · exact .inl h
  · refine .inr ⟨(q.1, fun j => ofSrc (q.2 j)), fun t ht => ?_⟩
    obtain ⟨r, h1, h2, h3⟩ := h t ht
    exact ⟨r, h1, h2, fun j hj => by rw [val_ofSrc]; exact h3 j hj⟩

/-- The object in a register, as the argument of a method. -/
def argObj : Reg BVal Bool → Obj
  | .vec x => .bv x
  | .bit b => .bit b

/-- What a register contributes to an operation of width `n`. -/
theorem operand_reg {n : Nat} {p : Port} :
    (∃ e, ∀ v, Fits p v → operand n (argObj v) = .error e) ∨
      ∀ v, Fits p v → ∃ b, operand n (argObj v) = .ok b ∧ ∀ j < n, ibit b j = rdigit v j := by
  cases p with
  | vec r m =>
    by_cases h : m = n
    · refine .inr fun v hv => ?_
      cases v with
      | bit b => exact hv.elim
      | vec x => exact ⟨x.value, operand_bv (hv.2.2.1.trans h), fun j _ => rfl⟩
    · refine .inl ⟨.inconsistentSize, fun v hv => ?_⟩
      cases v with
      | bit b => exact hv.elim
      | vec x =>
        have : x.size ≠ n := by rw [hv.2.2.1]; exact h
        simp [argObj, operand, this]
  | bit =>
    refine .inr fun v hv => ?_
    cases v with
    | vec x => exact hv.elim
    | bit b =>
      refine ⟨wrap n (if b then 1 else 0), by cases b <;> rfl, fun j hj => ?_⟩
      rw [wrap, ibit_emod, decide_eq_true hj, Bool.true_and]
      cases b
      · simp [rdigit, ibit_zero]
      · cases j with
        | zero => simp [rdigit, ibit]
        | succ j =>
          have := ibit_lt (v := 1) (n := 1) (i := j + 1) (by decide) (by decide) (by omega)
          simpa [rdigit] using this

section
variable {F : Family} {t : List (Reg F.V F.B)} {x y : Nat} {op : Bin}

theorem step_bin_none {X : F.V} (h1 : readV F t x = .ok X) (h2 : t[y]? = none) :
    step F t (.bin op x (.reg y)) = .error .nameError := by
  simp [step, h1, readArg, Circuit.read, h2, Bind.bind, Except.bind]

theorem step_bin_vec {X Y : F.V} (h1 : readV F t x = .ok X) (h2 : t[y]? = some (.vec Y)) :
    step F t (.bin op x (.reg y)) = F.bin op X (.vec Y) >>= fun z => .ok (t ++ [.vec z]) := by
  simp [step, h1, readArg, Circuit.read, h2, Bind.bind, Except.bind, pure, Except.pure, putV]

theorem step_bin_bit {X : F.V} {Y : F.B} (h1 : readV F t x = .ok X) (h2 : t[y]? = some (.bit Y)) :
    step F t (.bin op x (.reg y)) = F.bin op X (.bit Y) >>= fun z => .ok (t ++ [.vec z]) := by
  simp [step, h1, readArg, Circuit.read, h2, Bind.bind, Except.bind, pure, Except.pure, putV]

end

theorem cstep_bin {t : List (Reg BVal Bool)} {x y : Nat} {op : Bin} {X : BVal} {v : Reg BVal Bool}
    (h1 : creadV t x = .ok X) (h2 : t[y]? = some v) :
    cstep t (.bin op x (.reg y)) = cBin op X (argObj v) >>= fun z => .ok (t ++ [.vec z]) := by
  cases v with
  | vec Y => exact step_bin_vec (F := concrete) h1 h2
  | bit Y => exact step_bin_bit (F := concrete) h1 h2

theorem of_bin {ps : List Port} {op : Bin} {x y : Nat} {c : Bool} (h : Pointwise2 (cBin op) fun a b => c ^^ a ^^ b) :
    StepSum ps (.bin op x (.reg y)) := by
  rcases read_vec ps x with ⟨e, hx⟩ | ⟨r, n, hx⟩
  · refine .inl ⟨e, fun t ht => ?_⟩
    show (creadV t x >>= fun _ => _) = _
    rw [hx t ht]; rfl
  rcases hy : ps[y]? with _ | p
  · refine .inl ⟨.nameError, fun t ht => ?_⟩
    obtain ⟨X, h1, -⟩ := hx t ht
    rcases fits_get ht y with ⟨-, h⟩ | ⟨_, _, h, -⟩
    · exact step_bin_none (F := concrete) h1 h
    · rw [hy] at h; cases h
  have hget : ∀ t, List.Forall₂ Fits ps t → ∃ v, t[y]? = some v ∧ Fits p v := by
    intro t ht
    rcases fits_get ht y with ⟨h, -⟩ | ⟨_, v, h, h', hf⟩
    · rw [hy] at h; cases h
    · rw [hy] at h; cases h; exact ⟨v, h', hf⟩
  by_cases hn : 0 < n
  · rcases operand_reg (n := n) (p := p) with ⟨e, ho⟩ | ho
    · refine .inl ⟨e, fun t ht => ?_⟩
      obtain ⟨X, h1, o1, -⟩ := hx t ht
      obtain ⟨v, h2, hv⟩ := hget t ht
      rw [cstep_bin h1 h2]
      have := h X (argObj v)
      rw [o1.2.2.1, ho v hv] at this
      rw [this]; rfl
    · refine .inr ⟨(.vec r n, fun j => (c, [(x, j), (y, j)])), fun t ht => ?_⟩
      obtain ⟨X, h1, o1, d1⟩ := hx t ht
      obtain ⟨v, h2, hv⟩ := hget t ht
      obtain ⟨b, hb, db⟩ := ho v hv
      have := h X (argObj v)
      rw [o1.2.2.1, hb] at this
      obtain ⟨z, z1, z2, z3, z4, z5⟩ := this
      refine ⟨.vec z, by rw [cstep_bin h1 h2, z1]; rfl, ⟨z4, z2.trans o1.2.1, z3, hn⟩, fun j hj => ?_⟩
      have e : digit t (y, j) = ibit b j := by rw [db j hj]; simp [digit, h2]
      show ibit z.value j = _
      rw [z5 j hj]
      simp [val, parity, d1, e]
  · refine .inr ⟨(.bit, fun _ => (false, [])), fun t ht => ?_⟩
    obtain ⟨X, -, o1, -⟩ := hx t ht
    exact absurd o1.2.2.2 hn

theorem of_bit {ps : List Port} {op : Smt.BitOp} {x y : Nat} {c : Bool} (h : ∀ a b, op.meaning a b = (c ^^ a ^^ b)) :
    StepSum ps (.bit op x y) := by
  have hs : ∀ t, cstep t (.bit op x y) = creadB t x >>= fun a => creadB t y >>= fun b => cBitOp op a b >>= fun z =>
      .ok (t ++ [.bit z]) := fun t => rfl
  rcases read_bit ps x with ⟨e, hx⟩ | hx
  · exact .inl ⟨e, fun t ht => by rw [hs, hx t ht]; rfl⟩
  rcases read_bit ps y with ⟨e, hy⟩ | hy
  · refine .inl ⟨e, fun t ht => ?_⟩
    obtain ⟨a, h1, -⟩ := hx t ht
    rw [hs, h1]
    show (creadB t y >>= _) = _
    rw [hy t ht]; rfl
  · refine .inr ⟨(.bit, fun _ => (c, [(x, 0), (y, 0)])), fun t ht => ?_⟩
    obtain ⟨a, h1, d1⟩ := hx t ht
    obtain ⟨b, h2, d2⟩ := hy t ht
    refine ⟨.bit (c ^^ a ^^ b), ?_, trivial, fun j hj => ?_⟩
    · rw [hs, h1]
      show (creadB t y >>= _) = _
      rw [h2]
      show (cBitOp op a b >>= _) = _
      rw [cBitOp_eq, h]; rfl
    · have : j = 0 := by simp only [width] at hj; omega
      subst this
      simp [rdigit, val, parity, d1, d2]

theorem pointwise_congr {m : BVal → Obj → PyM BVal} {f g : Bool → Bool → Bool} (h : Pointwise2 m f)
    (e : ∀ a b, f a b = g a b) : Pointwise2 m g := (funext₂ e : f = g) ▸ h

theorem linear_sum (ps : List Port) {i : Instr} (h : Linear i) : StepSum ps i := by
  have hxor : Pointwise2 (cBin .xor) fun a b => false ^^ a ^^ b := pointwise_congr C06_bvxor (by decide)
  have hxnor : Pointwise2 (cBin .xnor) fun a b => true ^^ a ^^ b := pointwise_congr C06_bvxnor (by decide)
  cases i with
  | bin op x y =>
    cases y with
    | int c => exact of_moves h
    | reg y =>
      rcases h with rfl | rfl
      · exact of_bin hxor
      · exact of_bin hxnor
  | bit op a b =>
    rcases h with rfl | rfl | rfl
    · exact of_bit (c := false) (by decide)
    · exact of_bit (c := true) (by decide)
    · exact of_bit (c := false) (by decide)
  | _ => exact of_moves h

/-! ### Whole circuits -/

/-- Digits of the values after one instruction, as parities of the digits before it. -/
def back (n : Nat) (q : Port × (Nat → Sum (Nat × Nat))) (a : Nat × Nat) : Sum (Nat × Nat) :=
  if a.1 < n then (false, [a])
  else if a.1 = n ∧ a.2 < width q.1 then q.2 a.2
  else (false, [])

theorem back_val {ps : List Port} {q : Port × (Nat → Sum (Nat × Nat))} {t : List (Reg BVal Bool)} {r : Reg BVal Bool}
    (ht : List.Forall₂ Fits ps t) (hr : Summed q t r) (a : Nat × Nat) :
    val (digit t) (back ps.length q a) = digit (t ++ [r]) a := by
  have hl := ht.length_eq
  unfold back
  by_cases h1 : a.1 < ps.length
  · rw [if_pos h1]
    have : digit (t ++ [r]) a = digit t a := by
      unfold digit
      rw [List.getElem?_append_left (by omega)]
    simp [val, parity, this]
  · rw [if_neg h1]
    by_cases h2 : a.1 = ps.length
    · have e : (t ++ [r])[a.1]? = some r := by rw [h2, hl]; simp
      by_cases h3 : a.2 < width q.1
      · rw [if_pos ⟨h2, h3⟩, ← hr.2 _ h3]
        unfold digit
        rw [e]
        rfl
      · rw [if_neg fun h => h3 h.2]
        unfold digit
        rw [e]
        exact (rdigit_out hr.1 (by omega)).symm
    · rw [if_neg fun h => h2 h.1]
      unfold digit
      rw [List.getElem?_eq_none (by simp; omega)]
      rfl

theorem run_sums (p : List Instr) (hp : ∀ i ∈ p, Linear i) (ps : List Port) :
    (∃ e, ∀ t, List.Forall₂ Fits ps t → simulate t p = .error e) ∨
      ∃ qs : List (Port × (Nat → Sum (Nat × Nat))), ∀ t, List.Forall₂ Fits ps t →
        ∃ w, simulate t p = .ok w ∧ List.Forall₂ (fun q r => Summed q t r) qs w := by
  induction p generalizing ps with
  | nil =>
    refine .inr ⟨ps.mapIdx fun i p => (p, fun j => (false, [(i, j)])), fun t ht => ⟨t, rfl, ?_⟩⟩
    rw [List.forall₂_iff_get]
    refine ⟨by simpa using ht.length_eq, fun i h1 h2 => ?_⟩
    simp only [List.length_mapIdx] at h1
    have hg := (List.forall₂_iff_get.1 ht).2 i h1 h2
    simp only [List.get_eq_getElem, List.getElem_mapIdx] at hg ⊢
    refine ⟨hg, fun j hj => ?_⟩
    simp [val, parity, digit, List.getElem?_eq_getElem h2]
  | cons i p ih =>
    have hr : ∀ t, simulate t (i :: p) = cstep t i >>= fun t => simulate t p := fun t => rfl
    rcases linear_sum ps (hp i (by simp)) with ⟨e, h⟩ | ⟨q, h⟩
    · exact .inl ⟨e, fun t ht => by rw [hr, h t ht]; rfl⟩
    · have hnext : ∀ t, List.Forall₂ Fits ps t → ∃ r, cstep t i = .ok (t ++ [r]) ∧ Summed q t r ∧
          List.Forall₂ Fits (ps ++ [q.1]) (t ++ [r]) := by
        intro t ht
        obtain ⟨r, h1, h2⟩ := h t ht
        exact ⟨r, h1, h2, List.rel_append ht (.cons h2.1 .nil)⟩
      rcases ih (fun i hi => hp i (by simp [hi])) (ps ++ [q.1]) with ⟨e, hi⟩ | ⟨qs, hi⟩
      · refine .inl ⟨e, fun t ht => ?_⟩
        obtain ⟨r, h1, -, h3⟩ := hnext t ht
        rw [hr, h1]
        exact hi _ h3
      · refine .inr ⟨qs.map fun q' => (q'.1, fun j => bind (q'.2 j) (back ps.length q)), fun t ht => ?_⟩
        obtain ⟨r, h1, h2, h3⟩ := hnext t ht
        obtain ⟨w, w1, w2⟩ := hi _ h3
        refine ⟨w, by rw [hr, h1]; exact w1, ?_⟩
        rw [List.forall₂_map_left_iff]
        refine w2.imp fun q' v hv => ⟨hv.1, fun j hj => ?_⟩
        rw [val_bind]
        refine (hv.2 j hj).trans ?_
        congr 1
        funext a
        exact (back_val ht h2 a).symm

theorem digit_out {qs : List (Port × (Nat → Sum (Nat × Nat)))} {t w : List (Reg BVal Bool)}
    (h : List.Forall₂ (fun q r => Summed q t r) qs w) (a : Nat × Nat) :
    digit w a = match qs[a.1]? with
      | some q => if a.2 < width q.1 then val (digit t) (q.2 a.2) else false
      | none => false := by
  obtain ⟨hl, hg⟩ := List.forall₂_iff_get.1 h
  by_cases h1 : a.1 < w.length
  · have hs := hg a.1 (by omega) h1
    simp only [List.get_eq_getElem] at hs
    rw [List.getElem?_eq_getElem (by omega : a.1 < qs.length)]
    unfold digit
    rw [List.getElem?_eq_getElem h1]
    show rdigit _ _ = if _ then _ else _
    split
    · next h3 => exact hs.2 _ h3
    · next h3 => exact rdigit_out hs.1 (by omega)
  · unfold digit
    rw [List.getElem?_eq_none (by omega), List.getElem?_eq_none (by omega)]
    rfl

end Parity

open Parity

/-- A circuit of moves and exclusive ors fails on all inputs of the declared classes and widths, in every family, or it
succeeds on all of them, and then every digit of every value is the parity of a set of input digits, inverted or not,
that is the same for all inputs, families and assignments. -/
theorem C166_parity (p : List Instr) (hp : ∀ i ∈ p, Linear i) (ps : List Port) :
    (∃ e, (∀ t, List.Forall₂ Fits ps t → simulate t p = .error e) ∧
      InAll fun F RV RB => ∀ s t, List.Forall₂ (RegRel RV RB) s t → List.Forall₂ Fits ps t → ∃ e', run F s p = .error e') ∨
    ∃ qs : List (Port × (Nat → Sum (Nat × Nat))),
      InAll fun F RV RB => ∀ s t, List.Forall₂ (RegRel RV RB) s t → List.Forall₂ Fits ps t →
        ∃ u w, run F s p = .ok u ∧ List.Forall₂ (RegRel RV RB) u w ∧ List.Forall₂ (fun q r => Summed q t r) qs w := by
  rcases run_sums p hp ps with ⟨e, h⟩ | ⟨qs, h⟩
  · refine .inl ⟨e, h, .of fun F E RV RB H s t hst ht => ?_⟩
    have hr : RelP E (List.Forall₂ (RegRel RV RB)) (run F s p) (simulate t p) := H.run_rel p hst
    rw [h t ht] at hr
    cases hu : run F s p with
    | error e' => exact ⟨e', rfl⟩
    | ok u => rw [hu] at hr; exact hr.elim
  · refine .inr ⟨qs, .of fun F E RV RB H s t hst ht => ?_⟩
    obtain ⟨w, w1, w2⟩ := h t ht
    obtain ⟨u, u1, u2⟩ := RelP.ok_right (H.run_rel p hst) w1
    exact ⟨u, w, u1, u2, w2⟩

/-- So which digits of the results change depends on which digits of the inputs change, and not on the inputs: if `t`
and `t'` differ in the digits in which `s` and `s'` differ, so do the results. -/
theorem C166_changes (p : List Instr) (hp : ∀ i ∈ p, Linear i) (ps : List Port) {s s' t t' : List (Reg BVal Bool)}
    (hs : List.Forall₂ Fits ps s) (hs' : List.Forall₂ Fits ps s') (ht : List.Forall₂ Fits ps t)
    (ht' : List.Forall₂ Fits ps t') (h : ∀ a, (digit t a ^^ digit t' a) = (digit s a ^^ digit s' a)) :
    (∃ e, ∀ v ∈ [s, s', t, t'], simulate v p = .error e) ∨
      ∃ u u' w w', simulate s p = .ok u ∧ simulate s' p = .ok u' ∧ simulate t p = .ok w ∧ simulate t' p = .ok w' ∧
        ∀ a, (digit w a ^^ digit w' a) = (digit u a ^^ digit u' a) := by
  rcases run_sums p hp ps with ⟨e, H⟩ | ⟨qs, H⟩
  · refine .inl ⟨e, fun v hv => H v ?_⟩
    simp only [List.mem_cons, List.not_mem_nil, or_false] at hv
    rcases hv with rfl | rfl | rfl | rfl <;> assumption
  · obtain ⟨u, u1, u2⟩ := H s hs
    obtain ⟨u', v1, v2⟩ := H s' hs'
    obtain ⟨w, w1, w2⟩ := H t ht
    obtain ⟨w', x1, x2⟩ := H t' ht'
    refine .inr ⟨u, u', w, w', u1, v1, w1, x1, fun a => ?_⟩
    have h3 : ∀ a, digit t a = (digit s a ^^ digit s' a ^^ digit t' a) := fun a => by
      rw [← h a]; cases digit t a <;> cases digit t' a <;> rfl
    rw [digit_out u2, digit_out v2, digit_out w2, digit_out x2]
    cases qs[a.1]? with
    | none => rfl
    | some q =>
      dsimp only
      split
      · rw [val_xor3 h3]
        cases val (digit s) (q.2 a.2) <;> cases val (digit s') (q.2 a.2) <;> cases val (digit t') (q.2 a.2) <;> rfl
      · rfl

/-- `&` of two values is not of this form. -/
theorem C166_and_excluded : ¬ ∃ q : Port × (Nat → Sum (Nat × Nat)), ∀ t, List.Forall₂ Fits [.bit, .bit] t →
    ∃ r, simulate t [.bit .and 0 1] = .ok (t ++ [r]) ∧ Summed q t r := by
  rintro ⟨q, h⟩
  have run : ∀ a b : Bool, simulate [.bit a, .bit b] [.bit .and 0 1] = .ok [.bit a, .bit b, .bit (a && b)] := by
    intro a b
    show (cBitOp .and a b >>= fun z => _) = _
    rw [cBitOp_eq]; rfl
  have key : ∀ a b : Bool, Summed q [.bit a, .bit b] (.bit (a && b)) := by
    intro a b
    obtain ⟨r, h1, h2⟩ := h [.bit a, .bit b] (.cons trivial (.cons trivial .nil))
    rw [run] at h1
    simp at h1
    rw [h1]; exact h2
  have hw : width q.1 = 1 := by
    have := (key true true).1
    cases hq : q.1 with
    | bit => rfl
    | vec r n => rw [hq] at this; exact this.elim
  have hd : ∀ a b : Bool, (a && b) = val (digit [.bit a, .bit b]) (q.2 0) := fun a b => by
    have := (key a b).2 0 (by omega)
    simpa [rdigit] using this
  have hx := val_xor3 (g := digit [.bit true, .bit true]) (g1 := digit [.bit true, .bit false])
    (g2 := digit [.bit false, .bit true]) (g3 := digit [.bit false, .bit false]) (fun a => by
      obtain ⟨i, j⟩ := a
      rcases i with _ | _ | i <;> simp [digit, rdigit]) (q.2 0)
  rw [← hd, ← hd, ← hd, ← hd] at hx
  simp at hx

/-- A byte and its Gray code `x ^ (x >> 1)`, then the parity of the low two digits. -/
def Parity.demo : List Instr := [.bin .lshr 0 (.int 1), .bin .xor 0 (.reg 1), .index 2 0, .index 2 1, .bit .xor 3 4]

example : ∀ i ∈ Parity.demo, Linear i := by simp [Parity.demo, Linear, Moves]

example : List.Forall₂ Fits [.vec .uint 8] [.vec ⟨.root .uint, 8, 0x5A⟩] :=
  .cons ⟨⟨by decide, by decide⟩, rfl, rfl, by decide⟩ .nil

example : (Except.toOption (simulate [.vec (⟨.root .uint, 8, 0x5A⟩ : BVal)] Parity.demo)).bind (fun w => w[2]?.map fun r =>
    (List.range 8).map (rdigit r)) = some [true, true, true, false, true, true, true, false] := by decide +kernel

example : ∀ a, (digit [.bit true, .bit true] a ^^ digit [.bit false, .bit true] a) =
    (digit [.bit true, .bit false] a ^^ digit [.bit false, .bit false] a) := by
  rintro ⟨i, j⟩
  rcases i with _ | _ | i <;> simp [digit, rdigit]

end HW
