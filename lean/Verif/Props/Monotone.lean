import Verif.Props.Parity

/-!
# C169: code of moves, ands and ors is monotone

Circuits of C164 without inversions that may also combine two values with `bvand`, `bvor`, or `&`, `|` on bits: setting
more digits of the inputs clears no digit of any result. Priority masks, permission checks and request merging are of
this form.
-/

namespace HW
open Circuit Spec Gates Wiring Parity

namespace Rising

/-! ### The claims -/

/-- The instructions that move digits without inverting them, and ands and ors of two values. -/
def Raises : Instr → Prop
  | .bin op _ (.reg _) => op = .and ∨ op = .or
  | .bit op _ _ => op = .and ∨ op = .or
  | i => Positive i

/-- Every digit set in `t` is set in `t'`. -/
def Below (t t' : List (Reg BVal Bool)) : Prop := ∀ a, digit t a = true → digit t' a = true

/-! ### Monotone functions of digits -/

abbrev Fn := (Nat × Nat → Bool) → Bool

def Mono (φ : Fn) : Prop := ∀ g g' : Nat × Nat → Bool, (∀ a, g a = true → g' a = true) → φ g = true → φ g' = true

/-- `r` has the declared class and width, and its digits are the functions that `q` says. -/
def Given (q : Port × (Nat → Fn)) (t : List (Reg BVal Bool)) (r : Reg BVal Bool) : Prop :=
  Fits q.1 r ∧ ∀ j < width q.1, rdigit r j = q.2 j (digit t)

def StepMono (ps : List Port) (i : Instr) : Prop :=
  (∃ e, ∀ t, List.Forall₂ Fits ps t → cstep t i = .error e) ∨
    ∃ q : Port × (Nat → Fn), (∀ j, Mono (q.2 j)) ∧
      ∀ t, List.Forall₂ Fits ps t → ∃ r, cstep t i = .ok (t ++ [r]) ∧ Given q t r

/-! ### One instruction -/

theorem positive_moves {i : Instr} (h : Positive i) : Moves i := by
  cases i with
  | bin op x y =>
    cases y with
    | reg y => exact h.elim
    | int c =>
      have h : op ∈ [Bin.and, .or, .shl, .lshr, .ashr] := h
      show op ∈ [Bin.and, .or, .xor, .nand, .nor, .xnor, .shl, .lshr, .ashr]
      simp only [List.mem_cons, List.not_mem_nil, or_false] at h ⊢
      tauto
  | un op x => exact h.elim
  | cmp op x y => exact h.elim
  | adc x y c => exact h.elim
  | opA op x y => exact h.elim
  | opC op x y => exact h.elim
  | bit op a b => exact h.elim
  | bitNot a => exact h.elim
  | mux c t f => exact h.elim
  | _ => trivial

theorem of_positive {ps : List Port} {i : Instr} (h : Positive i) : StepMono ps i := by
  rcases moves_route ps (positive_moves h) with h' | ⟨q, hq, h'⟩
  · exact .inl h'
  · refine .inr ⟨(q.1, fun j g => (q.2 j).val g), fun j g g' hg hv => ?_, fun t ht => ?_⟩
    · have := hq h j
      dsimp only at hv ⊢
      cases hs : q.2 j with
      | inv a => exact absurd hs (this a)
      | const b => rw [hs] at hv; exact hv
      | wire a => rw [hs] at hv; exact hg a hv
    · obtain ⟨r, h1, h2, h3⟩ := h' t ht
      exact ⟨r, h1, h2, h3⟩

theorem of_bin {ps : List Port} {op : Bin} {x y : Nat} {f : Bool → Bool → Bool} (h : Pointwise2 (cBin op) f)
    (hf : ∀ a b a' b', (a = true → a' = true) → (b = true → b' = true) → f a b = true → f a' b' = true) :
    StepMono ps (.bin op x (.reg y)) := by
  rcases read_vec ps x with ⟨e, hx⟩ | ⟨r, n, hx⟩
  · refine .inl ⟨e, fun t ht => ?_⟩
    show (creadV t x >>= fun _ => _) = _
    rw [hx t ht]; rfl
  rcases hy : ps[y]? with _ | p
  · refine .inl ⟨.nameError, fun t ht => ?_⟩
    obtain ⟨X, h1, -⟩ := hx t ht
    rcases fits_get ht y with ⟨-, h⟩ | ⟨_, _, h, -⟩
    · exact step_bin_none (F := concrete) h1 h
    · rw [hy] at h; cases h
  have hget : ∀ t, List.Forall₂ Fits ps t → ∃ v, t[y]? = some v ∧ Fits p v := by
    intro t ht
    rcases fits_get ht y with ⟨h, -⟩ | ⟨_, v, h, h', hf⟩
    · rw [hy] at h; cases h
    · rw [hy] at h; cases h; exact ⟨v, h', hf⟩
  rcases operand_reg (n := n) (p := p) with ⟨e, ho⟩ | ho
  · refine .inl ⟨e, fun t ht => ?_⟩
    obtain ⟨X, h1, o1, -⟩ := hx t ht
    obtain ⟨v, h2, hv⟩ := hget t ht
    rw [cstep_bin h1 h2]
    have := h X (argObj v)
    rw [o1.2.2.1, ho v hv] at this
    rw [this]; rfl
  · refine .inr ⟨(.vec r n, fun j g => f (g (x, j)) (g (y, j))), fun j g g' hg => hf _ _ _ _ (hg _) (hg _), fun t ht => ?_⟩
    obtain ⟨X, h1, o1, d1⟩ := hx t ht
    obtain ⟨v, h2, hv⟩ := hget t ht
    obtain ⟨b, hb, db⟩ := ho v hv
    have := h X (argObj v)
    rw [o1.2.2.1, hb] at this
    obtain ⟨z, z1, z2, z3, z4, z5⟩ := this
    refine ⟨.vec z, by rw [cstep_bin h1 h2, z1]; rfl, ⟨z4, z2.trans o1.2.1, z3, o1.2.2.2⟩, fun j hj => ?_⟩
    have e : digit t (y, j) = ibit b j := by rw [db j hj]; simp [digit, h2]
    show ibit z.value j = _
    rw [z5 j hj]
    simp [d1, e]

theorem of_bit {ps : List Port} {op : Smt.BitOp} {x y : Nat}
    (hf : ∀ a b a' b', (a = true → a' = true) → (b = true → b' = true) → op.meaning a b = true → op.meaning a' b' = true) :
    StepMono ps (.bit op x y) := by
  have hs : ∀ t, cstep t (.bit op x y) = creadB t x >>= fun a => creadB t y >>= fun b => cBitOp op a b >>= fun z =>
      .ok (t ++ [.bit z]) := fun t => rfl
  rcases read_bit ps x with ⟨e, hx⟩ | hx
  · exact .inl ⟨e, fun t ht => by rw [hs, hx t ht]; rfl⟩
  rcases read_bit ps y with ⟨e, hy⟩ | hy
  · refine .inl ⟨e, fun t ht => ?_⟩
    obtain ⟨a, h1, -⟩ := hx t ht
    rw [hs, h1]
    show (creadB t y >>= _) = _
    rw [hy t ht]; rfl
  · refine .inr ⟨(.bit, fun _ g => op.meaning (g (x, 0)) (g (y, 0))), fun j g g' hg => hf _ _ _ _ (hg _) (hg _), fun t ht => ?_⟩
    obtain ⟨a, h1, d1⟩ := hx t ht
    obtain ⟨b, h2, d2⟩ := hy t ht
    refine ⟨.bit (op.meaning a b), ?_, trivial, fun j hj => ?_⟩
    · rw [hs, h1]
      show (creadB t y >>= _) = _
      rw [h2]
      show (cBitOp op a b >>= _) = _
      rw [cBitOp_eq]; rfl
    · have : j = 0 := by simp only [width] at hj; omega
      subst this
      simp [rdigit, d1, d2]

theorem raises_mono (ps : List Port) {i : Instr} (h : Raises i) : StepMono ps i := by
  cases i with
  | bin op x y =>
    cases y with
    | int c => exact of_positive h
    | reg y =>
      rcases h with rfl | rfl
      · exact of_bin C06_bvand (by decide)
      · exact of_bin C06_bvor (by decide)
  | bit op a b =>
    rcases h with rfl | rfl
    · exact of_bit (by decide)
    · exact of_bit (by decide)
  | _ => exact of_positive h

/-! ### Whole circuits -/

/-- Either the instructions fail on all values of the declared widths, or they raise digits with their inputs. -/
theorem run_mono (p : List Instr) (hp : ∀ i ∈ p, Raises i) (ps : List Port) :
    (∃ e, ∀ t, List.Forall₂ Fits ps t → simulate t p = .error e) ∨
      ∀ t t', List.Forall₂ Fits ps t → List.Forall₂ Fits ps t' → Below t t' →
        ∃ w w', simulate t p = .ok w ∧ simulate t' p = .ok w' ∧ Below w w' := by
  induction p generalizing ps with
  | nil => exact .inr fun t t' _ _ h => ⟨t, t', rfl, rfl, h⟩
  | cons i p ih =>
    have hr : ∀ t, simulate t (i :: p) = cstep t i >>= fun t => simulate t p := fun t => rfl
    rcases raises_mono ps (hp i (by simp)) with ⟨e, h⟩ | ⟨q, hq, h⟩
    · exact .inl ⟨e, fun t ht => by rw [hr, h t ht]; rfl⟩
    · have hnext : ∀ t, List.Forall₂ Fits ps t → ∃ r, cstep t i = .ok (t ++ [r]) ∧ Given q t r ∧
          List.Forall₂ Fits (ps ++ [q.1]) (t ++ [r]) := by
        intro t ht
        obtain ⟨r, h1, h2⟩ := h t ht
        exact ⟨r, h1, h2, List.rel_append ht (.cons h2.1 .nil)⟩
      rcases ih (fun i hi => hp i (by simp [hi])) (ps ++ [q.1]) with ⟨e, hi⟩ | hi
      · refine .inl ⟨e, fun t ht => ?_⟩
        obtain ⟨r, h1, -, h3⟩ := hnext t ht
        rw [hr, h1]
        exact hi _ h3
      · refine .inr fun t t' ht ht' hb => ?_
        obtain ⟨r, h1, h2, h3⟩ := hnext t ht
        obtain ⟨r', h1', h2', h3'⟩ := hnext t' ht'
        rw [hr, hr, h1, h1']
        refine hi _ _ h3 h3' fun a ha => ?_
        have hl := ht.length_eq
        have hl' := ht'.length_eq
        by_cases c1 : a.1 < ps.length
        · have e : ∀ (u : List (Reg BVal Bool)) v, u.length = ps.length → digit (u ++ [v]) a = digit u a := by
            intro u v hu
            unfold digit
            rw [List.getElem?_append_left (by omega)]
          rw [e _ _ hl.symm] at ha
          rw [e _ _ hl'.symm]
          exact hb a ha
        · by_cases c2 : a.1 = ps.length
          · have e : ∀ (u : List (Reg BVal Bool)) v, u.length = ps.length → digit (u ++ [v]) a = rdigit v a.2 := by
              intro u v hu
              unfold digit
              have : (u ++ [v])[a.1]? = some v := by rw [c2, ← hu]; simp
              rw [this]; rfl
            rw [e _ _ hl.symm] at ha
            rw [e _ _ hl'.symm]
            by_cases c3 : a.2 < width q.1
            · rw [h2.2 _ c3] at ha
              rw [h2'.2 _ c3]
              exact hq _ _ _ hb ha
            · rw [rdigit_out h2.1 (by omega)] at ha
              cases ha
          · unfold digit at ha
            rw [List.getElem?_eq_none (by simp; omega)] at ha
            cases ha

end Rising

open Rising

/-- Setting more digits of the inputs clears no digit of any value; and it does not change whether the code raises. -/
theorem C169_monotone (p : List Instr) (hp : ∀ i ∈ p, Raises i) {ps : List Port} {t t' : List (Reg BVal Bool)}
    (ht : List.Forall₂ Fits ps t) (ht' : List.Forall₂ Fits ps t') (hb : Below t t') :
    (∃ e, run concrete t p = .error e ∧ run concrete t' p = .error e) ∨
      ∃ w w', run concrete t p = .ok w ∧ run concrete t' p = .ok w' ∧ Below w w' := by
  rcases run_mono p hp ps with ⟨e, h⟩ | h
  · exact .inl ⟨e, h t ht, h t' ht'⟩
  · exact .inr (h t t' ht ht' hb)

/-- On vectors and bits: an output `x` on the smaller inputs and `y` on the larger satisfy `x & y == x`. -/
theorem C169_masks (p : List Instr) (hp : ∀ i ∈ p, Raises i) {ps : List Port} {t t' : List (Reg BVal Bool)}
    (ht : List.Forall₂ Fits ps t) (ht' : List.Forall₂ Fits ps t') (hb : Below t t') {w w' : List (Reg BVal Bool)}
    (hw : run concrete t p = .ok w) (hw' : run concrete t' p = .ok w') (o : Nat) :
    (∀ x y : BVal, w[o]? = some (.vec x) → w'[o]? = some (.vec y) → ∀ j, ibit x.value j = true → ibit y.value j = true) ∧
      ∀ b c : Bool, w[o]? = some (.bit b) → w'[o]? = some (.bit c) → b = true → c = true := by
  rcases C169_monotone p hp ht ht' hb with ⟨e, h, -⟩ | ⟨u, u', h1, h2, h3⟩
  · cases hw.symm.trans h
  · cases hw.symm.trans h1
    cases hw'.symm.trans h2
    refine ⟨fun x y hx hy j hj => ?_, fun b c hx hy hj => ?_⟩
    · have := h3 (o, j)
      simp only [digit, hx, hy, Option.map_some, Option.getD_some, rdigit] at this
      exact this hj
    · have := h3 (o, 0)
      simp only [digit, hx, hy, Option.map_some, Option.getD_some, rdigit] at this
      simpa [hj] using this

theorem Rising.fits_readBack {ps : List (List Char × Port)} (hp : PortsOk ps) (f : List Char → Bool)
    (g : List Char → (w : Nat) → BitVec w) : List.Forall₂ Fits (ps.map (·.2)) (ps.map (readBack f g)) := by
  replace hp := hp.2
  induction ps with
  | nil => exact .nil
  | cons q ps ih =>
    refine .cons ?_ (ih fun q r n h => hp q r n (List.mem_cons_of_mem _ h))
    obtain ⟨x, q⟩ := q
    cases q with
    | bit => trivial
    | vec r n =>
      refine ⟨⟨by simp, ?_⟩, rfl, rfl, hp x r n List.mem_cons_self⟩
      show (((g x n).toNat : Nat) : Int) < 2 ^ n
      exact_mod_cast (g x n).isLt

/-- With symbolic inputs: an output bit that holds under an assignment holds under every assignment that sets more digits. -/
theorem C169_smt (S : Smt.Simplifier) (p : List Instr) (hp : ∀ i ∈ p, Raises i) {ps : List (List Char × Port)} (hps : PortsOk ps)
    {u : List (Reg Smt.SBV Smt.Term)} (hu : run (smt S) (ps.map smtIn) p = .ok u) {o : Nat} {z : Smt.Term}
    (hz : u[o]? = some (.bit z)) {e e' : Smt.Env}
    (hb : Below (ps.map (readBack e.bool e.bv)) (ps.map (readBack e'.bool e'.bv))) (hv : z.eval e = some (.bool true)) :
    z.eval e' = some (.bool true) := by
  obtain ⟨w, hw, h1⟩ := C123_replay S hps hu hz e hv
  have hk := C123_smt S e' p (reads_smt e'.int (readBack_reads e'.bool e'.bv ps) hps.2)
  obtain ⟨w', hw', hk⟩ := RelP.ok_left hk hu
  obtain ⟨c, h2, h3⟩ := (getElem?_rel hk o).1 z hz
  have := (C169_masks p hp (fits_readBack hps _ _) (fits_readBack hps _ _) hb hw hw' o).2 _ c h1 h2 rfl
  subst this
  exact h3

theorem C169_z3 (p : List Instr) (hp : ∀ i ∈ p, Raises i) {ps : List (List Char × Port)} (hps : PortsOk ps)
    {u : List (Reg Z3.ZBV Z3.BoolE)} (hu : run z3 (ps.map z3In) p = .ok u) {o : Nat} {z : Z3.BoolE}
    (hz : u[o]? = some (.bit z)) {e e' : Z3.Env}
    (hb : Below (ps.map (readBack e.bool e.bv)) (ps.map (readBack e'.bool e'.bv))) (hv : z e = true) : z e' = true := by
  obtain ⟨w, hw, h1⟩ := C123_replay_z3 hps hu hz e
  obtain ⟨w', hw', h2⟩ := C123_replay_z3 hps hu hz e'
  exact (C169_masks p hp (fits_readBack hps _ _) (fits_readBack hps _ _) hb hw hw' o).2 _ _ h1 h2 hv

/-- Inversions and sums are excluded for a reason: `~x` and `x + 1` clear digits that `x` sets. -/
theorem C169_excluded : ¬ Raises (.un .not 0) ∧ ¬ Raises (.bin .add 0 (.int 1)) ∧
    ∃ x y : BVal, One .bv 2 x ∧ One .bv 2 y ∧ Below [.vec x] [.vec y] ∧
      (∃ w w', run concrete [.vec x] [.un .not 0] = .ok w ∧ run concrete [.vec y] [.un .not 0] = .ok w' ∧ ¬ Below w w') ∧
      ∃ w w', run concrete [.vec x] [.bin .add 0 (.int 1)] = .ok w ∧ run concrete [.vec y] [.bin .add 0 (.int 1)] = .ok w' ∧
        ¬ Below w w' := by
  refine ⟨id, by simp [Raises, Positive], ⟨.root .bv, 2, 0⟩, ⟨.root .bv, 2, 1⟩,
    ⟨⟨by decide, by decide⟩, rfl, rfl, by decide⟩, ⟨⟨by decide, by decide⟩, rfl, rfl, by decide⟩, fun a ha => ?_, ⟨_, _, rfl, rfl, fun h => ?_⟩, ⟨_, _, rfl, rfl, fun h => ?_⟩⟩
  · obtain ⟨i, j⟩ := a
    cases i with
    | zero => simp [digit, rdigit, ibit_zero] at ha
    | succ i => simp [digit] at ha
  · exact absurd (h (1, 0) (by decide +kernel)) (by decide +kernel)
  · exact absurd (h (1, 0) (by decide +kernel)) (by decide +kernel)

/-- `((x & m) | (x << 1))[0:4]` and a bit of it. -/
def Rising.demo : List Instr := [.bin .and 0 (.reg 1), .bin .shl 0 (.int 1), .bin .or 2 (.reg 3), .slice 4 0 4, .index 5 1]

example : ∀ i ∈ Rising.demo, Raises i := by simp [Rising.demo, Raises, Positive]
example : ∃ w w', run concrete [.vec ⟨.root .bv, 8, 5⟩, .vec ⟨.root .bv, 8, 3⟩] Rising.demo = .ok w ∧
    run concrete [.vec ⟨.root .bv, 8, 7⟩, .vec ⟨.root .bv, 8, 3⟩] Rising.demo = .ok w' ∧
    w[5]? = some (.vec ⟨.root .bv, 4, 11⟩) ∧ w'[5]? = some (.vec ⟨.root .bv, 4, 15⟩) := ⟨_, _, rfl, rfl, rfl, rfl⟩

end HW
