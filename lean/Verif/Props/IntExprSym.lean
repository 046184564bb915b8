import Verif.Model.IntExprSym
import Verif.Props.IntExpr
import Verif.Lemmas.CircuitFamilies

/-!
# Expressions on symbolic vectors and on Python ints (C130)
-/

namespace HW
open Spec

/-- On the concrete vectors, every part of the expression returns an int or a vector of the class `k` and width `n`,
and an operator that differs between the families (`bad`) does not occur. -/
def Expr.Tracks (k : Kind) (n : Nat) (X : Nat → BVal) (bad : AOp → Bool → Bool → Prop) : Expr → Prop
  | .var i => ∃ c, (Expr.var i).evalObj X = .ok (evalAs k n true c)
  | .lit _ => True
  | .neg a => a.Tracks k n X bad
  | .inv a => a.Tracks k n X bad
  | .op o a b => a.Tracks k n X bad ∧ b.Tracks k n X bad ∧ ¬ bad o a.hasVar b.hasVar ∧
      ∃ c, (Expr.op o a b).evalObj X = .ok (evalAs k n (a.hasVar || b.hasVar) c)

/-- `//` and `%` of signed vectors: C35. -/
def smtBad (r : Root) (o : AOp) (s t : Bool) : Prop := (s || t) = true ∧ r = .sint ∧ (o = .fdiv ∨ o = .mod)
/-- `//` of signed vectors (C93), and an int to the left of a vector (C95). -/
def z3Bad (r : Root) (o : AOp) (s t : Bool) : Prop :=
  (s = false ∧ t = true) ∨ ((s || t) = true ∧ r = .sint ∧ o = .fdiv)

section
open Smt
variable (S : Simplifier) {e : Smt.Env}

/-- What an expression computes under an assignment. -/
def SAs (e : Smt.Env) (r : Root) (n : Nat) (isVec : Bool) (c : Int) : SObj → Prop
  | .bv y => isVec = true ∧ Smt.Den e y ⟨.root r, n, c % 2 ^ n⟩
  | .int v => isVec = false ∧ v = c
  | _ => False

theorem SAs.cases {r : Root} {n : Nat} {s : Bool} {c : Int} {o : SObj} (h : SAs e r n s c o) :
    (s = true ∧ ∃ y, o = .bv y ∧ y.kind = .root r ∧ y.size = n ∧ Smt.Den e y ⟨.root r, n, c % 2 ^ n⟩) ∨
    (s = false ∧ o = .int c) := by
  cases o with
  | bv y => exact .inl ⟨h.1, y, rfl, Circuit.At_root h.2.1, h.2.2.1.symm, h.2⟩
  | int v => exact .inr ⟨h.1, by rw [h.2]⟩
  | _ => exact h.elim

theorem opSmt_as {r : Root} {n : Nat} (hn : 0 < n) (o : AOp) {s t : Bool} {a b c : Int} {l m : SObj}
    (hl : SAs e r n s a l) (hm : SAs e r n t b m) (hb : ¬ smtBad r o s t)
    (h : opObj o (evalAs (.root r) n s a) (evalAs (.root r) n t b) = .ok (evalAs (.root r) n (s || t) c)) :
    ∃ z, opSmt S o l m = .ok z ∧ SAs e r n (s || t) c z := by
  have fin : ∀ {M : PyM SBV} {l' r' : Obj},
      opObj o l' r' = (do return (← binA o l' r' 0).1) → opObj o l' r' = .ok (.bv ⟨.root r, n, c % 2 ^ n⟩) →
      RelM (DenRes e 0) M (binA o l' r' 0) → ∃ z, M = .ok z ∧ Smt.Den e z ⟨.root r, n, c % 2 ^ n⟩ := by
    intro M l' r' h1 h2 h3
    rw [h1] at h2
    obtain ⟨p, hp, h4⟩ := Circuit.bind_ok h2
    rw [hp] at h3
    obtain ⟨z, hz, V, hV, hd⟩ := h3.ok_right
    subst hV
    simp only [pure, Except.pure, Except.ok.injEq, Obj.bv.injEq] at h4
    exact ⟨z, hz, h4 ▸ hd⟩
  rcases hl.cases with ⟨rfl, x, rfl, kx, sx, dx⟩ | ⟨rfl, rfl⟩ <;>
    rcases hm.cases with ⟨rfl, y, rfl, ky, sy, dy⟩ | ⟨rfl, rfl⟩
  · simp only [evalAs, if_true, Bool.or_true] at h
    obtain ⟨z, hz, hd⟩ := fin rfl h (C75_vectors S o 0 (by simpa [smtBad] using hb) kx ky dx dy (sx ▸ hn) (sy ▸ hn))
    refine ⟨.bv z, ?_, rfl, hd⟩
    simp only [opSmt, kx, ky, hz]; rfl
  · simp only [evalAs, if_true, Bool.or_false, Bool.false_eq_true, if_false] at h
    obtain ⟨z, hz, hd⟩ := fin rfl h
      (C75_left S o 0 (by simpa [smtBad] using hb) kx dx (sx ▸ hn) (.int (v := b)) trivial nofun)
    refine ⟨.bv z, ?_, rfl, hd⟩
    simp only [opSmt, kx, hz]; rfl
  · simp only [evalAs, if_true, Bool.or_true, Bool.false_eq_true, if_false] at h
    obtain ⟨z, hz, hd⟩ := fin rfl h
      (C75_right S o 0 (by simpa [smtBad] using hb) ky dy (sy ▸ hn) (.int (v := a)) trivial nofun
        (by rintro ⟨_, ⟨⟩⟩))
    refine ⟨.bv z, ?_, rfl, hd⟩
    simp only [opSmt, ky, hz]; rfl
  · simp only [evalAs, Bool.or_false, Bool.false_eq_true, if_false] at h
    obtain ⟨v, hv, h4⟩ := Circuit.bind_ok h
    cases h4
    exact ⟨.int c, by simp only [opSmt, hv]; rfl, rfl, rfl⟩

theorem evalSmt_tracks {r : Root} {n : Nat} (hn : 0 < n) {x : Nat → SBV} {X : Nat → BVal}
    (hx : ∀ i, Smt.Den e (x i) (X i)) (ex : Expr) (h : ex.Tracks (.root r) n X (smtBad r)) :
    ∃ c o, ex.evalObj X = .ok (evalAs (.root r) n ex.hasVar c) ∧ ex.evalSmt S x = .ok o ∧
      SAs e r n ex.hasVar c o := by
  induction ex with
  | var i =>
    obtain ⟨c, hc⟩ := h
    refine ⟨c, .bv (x i), hc, rfl, rfl, ?_⟩
    have : X i = ⟨.root r, n, c % 2 ^ n⟩ := by
      simp only [Expr.evalObj, evalAs, if_true, Except.ok.injEq, Obj.bv.injEq] at hc; exact hc
    exact this ▸ hx i
  | lit c => exact ⟨c, .int c, rfl, rfl, rfl, rfl⟩
  | neg a ih =>
    obtain ⟨c, o, h1, h2, h3⟩ := ih h
    have e1 : (Expr.neg a).evalObj X = .ok (evalAs (.root r) n a.hasVar (-c)) := by
      rw [Expr.evalObj, h1]; exact negObj_as _ n _ c
    rcases h3.cases with ⟨hs, y, rfl, ky, sy, dy⟩ | ⟨hs, rfl⟩
    · have := C34_bvneg S dy
      rw [C05_bvneg] at this
      obtain ⟨z, hz, hd⟩ := this.ok_right
      refine ⟨-c, .bv z, e1, by simp only [Expr.evalSmt, h2, Smt.ok_bind, negSmt, hz]; rfl, hs, ?_⟩
      rw [show (wrap n (-(c % 2 ^ n))) = -c % 2 ^ n by
        rw [wrap, ← Int.zero_sub, ← Int.zero_sub c, Int.sub_emod, Int.emod_emod_of_dvd _ (Int.dvd_refl _),
          ← Int.sub_emod]] at hd
      exact hd
    · exact ⟨-c, .int (-c), e1, by rw [Expr.evalSmt, h2]; rfl, hs, rfl⟩
  | inv a ih =>
    obtain ⟨c, o, h1, h2, h3⟩ := ih h
    have e1 : (Expr.inv a).evalObj X = .ok (evalAs (.root r) n a.hasVar (pyNot c)) := by
      rw [Expr.evalObj, h1]; exact invObj_as _ n _ c
    rcases h3.cases with ⟨hs, y, rfl, ky, sy, dy⟩ | ⟨hs, rfl⟩
    · have h4 := C34_bvnot S dy
      have h5 := invObj_as (.root r) n true c
      simp only [evalAs, if_true, invObj, unInvert] at h5
      obtain ⟨V, hV, h6⟩ := Circuit.bind_ok h5
      cases h6
      rw [hV] at h4
      obtain ⟨z, hz, hd⟩ := h4.ok_right
      exact ⟨pyNot c, .bv z, e1, by simp only [Expr.evalSmt, h2, Smt.ok_bind, invSmt, hz]; rfl, hs, hd⟩
    · exact ⟨pyNot c, .int (pyNot c), e1, by rw [Expr.evalSmt, h2]; rfl, hs, rfl⟩
  | op o a b iha ihb =>
    obtain ⟨ta, tb, hb, c, hc⟩ := h
    obtain ⟨ca, oa, h1, h2, h3⟩ := iha ta
    obtain ⟨cb, ob, g1, g2, g3⟩ := ihb tb
    have h4 := hc
    rw [Expr.evalObj, h1, g1] at h4
    obtain ⟨z, hz, hd⟩ := opSmt_as S hn o h3 g3 hb h4
    exact ⟨c, z, hc, by rw [Expr.evalSmt, h2, g2]; exact hz, hd⟩

end

section
open Z3
variable {e : Z3.Env}

def ZAs (e : Z3.Env) (r : Root) (n : Nat) (isVec : Bool) (c : Int) : ZObj → Prop
  | .bv y => isVec = true ∧ Z3.Den e y ⟨.root r, n, c % 2 ^ n⟩
  | .int v => isVec = false ∧ v = c
  | _ => False

theorem ZAs.cases {r : Root} {n : Nat} {s : Bool} {c : Int} {o : ZObj} (h : ZAs e r n s c o) :
    (s = true ∧ ∃ y, o = .bv y ∧ y.root = r ∧ y.size = n ∧ Z3.Den e y ⟨.root r, n, c % 2 ^ n⟩) ∨
    (s = false ∧ o = .int c) := by
  cases o with
  | bv y =>
    refine .inl ⟨h.1, y, rfl, ?_, h.2.2.1.symm, h.2⟩
    have := h.2.1
    cases this; rfl
  | int v => exact .inr ⟨h.1, by rw [h.2]⟩
  | _ => exact h.elim

theorem opZ3_as {r : Root} {n : Nat} (o : AOp) {s t : Bool} {a b c : Int} {l m : ZObj}
    (hl : ZAs e r n s a l) (hm : ZAs e r n t b m) (hb : ¬ z3Bad r o s t)
    (h : opObj o (evalAs (.root r) n s a) (evalAs (.root r) n t b) = .ok (evalAs (.root r) n (s || t) c)) :
    ∃ z, opZ3 o l m = .ok z ∧ ZAs e r n (s || t) c z := by
  have fin : ∀ {M : PyM ZRes} {l' r' : Obj},
      opObj o l' r' = (do return (← binA o l' r' 0).1) → opObj o l' r' = .ok (.bv ⟨.root r, n, c % 2 ^ n⟩) →
      RelE (ZDenRes e 0) M (binA o l' r' 0) → ∃ z, M = .ok (.bv z) ∧ Z3.Den e z ⟨.root r, n, c % 2 ^ n⟩ := by
    intro M l' r' h1 h2 h3
    rw [h1] at h2
    obtain ⟨p, hp, h4⟩ := Circuit.bind_ok h2
    rw [hp] at h3
    obtain ⟨z, hz, hd⟩ := h3.ok_right
    obtain ⟨p1, p2⟩ := p
    simp only [pure, Except.pure, Except.ok.injEq] at h4
    subst h4
    cases z with
    | bv z => exact ⟨z, hz, hd.1⟩
    | bit z => exact hd.elim
  rcases hl.cases with ⟨rfl, x, rfl, kx, sx, dx⟩ | ⟨rfl, rfl⟩ <;>
    rcases hm.cases with ⟨rfl, y, rfl, ky, sy, dy⟩ | ⟨rfl, rfl⟩
  · simp only [evalAs, if_true, Bool.or_true] at h
    obtain ⟨z, hz, hd⟩ := fin rfl h (C95_vectors_partial o 0 dx dy (by simpa [z3Bad, kx] using hb)
      (fun _ => by rw [kx, ky]; unfold sameReading; cases r <;> simp))
    exact ⟨.bv z, by simp only [opZ3, hz]; rfl, rfl, hd⟩
  · simp only [evalAs, if_true, Bool.or_false, Bool.false_eq_true, if_false] at h
    obtain ⟨z, hz, hd⟩ := fin rfl h
      (C95_right o 0 dx (.int (v := b)) trivial nofun (by simpa [z3Bad, kx] using hb))
    exact ⟨.bv z, by simp only [opZ3, hz]; rfl, rfl, hd⟩
  · exact absurd (.inl ⟨rfl, rfl⟩) hb
  · simp only [evalAs, Bool.or_false, Bool.false_eq_true, if_false] at h
    obtain ⟨v, hv, h4⟩ := Circuit.bind_ok h
    cases h4
    exact ⟨.int c, by simp only [opZ3, hv]; rfl, rfl, rfl⟩

theorem evalZ3_tracks {r : Root} {n : Nat} {x : Nat → ZBV} {X : Nat → BVal}
    (hx : ∀ i, Z3.Den e (x i) (X i)) (ex : Expr) (h : ex.Tracks (.root r) n X (z3Bad r)) :
    ∃ c o, ex.evalObj X = .ok (evalAs (.root r) n ex.hasVar c) ∧ ex.evalZ3 x = .ok o ∧
      ZAs e r n ex.hasVar c o := by
  induction ex with
  | var i =>
    obtain ⟨c, hc⟩ := h
    refine ⟨c, .bv (x i), hc, rfl, rfl, ?_⟩
    have : X i = ⟨.root r, n, c % 2 ^ n⟩ := by
      simp only [Expr.evalObj, evalAs, if_true, Except.ok.injEq, Obj.bv.injEq] at hc; exact hc
    exact this ▸ hx i
  | lit c => exact ⟨c, .int c, rfl, rfl, rfl, rfl⟩
  | neg a ih =>
    obtain ⟨c, o, h1, h2, h3⟩ := ih h
    have e1 : (Expr.neg a).evalObj X = .ok (evalAs (.root r) n a.hasVar (-c)) := by
      rw [Expr.evalObj, h1]; exact negObj_as _ n _ c
    rcases h3.cases with ⟨hs, y, rfl, ky, sy, dy⟩ | ⟨hs, rfl⟩
    · have := C92_bvneg dy
      rw [C05_bvneg] at this
      obtain ⟨z, hz, hd⟩ := this.ok_right
      refine ⟨-c, .bv z, e1, by simp only [Expr.evalZ3, h2, Smt.ok_bind, negZ3, hz]; rfl, hs, ?_⟩
      rw [show (wrap n (-(c % 2 ^ n))) = -c % 2 ^ n by
        rw [wrap, ← Int.zero_sub, ← Int.zero_sub c, Int.sub_emod, Int.emod_emod_of_dvd _ (Int.dvd_refl _),
          ← Int.sub_emod]] at hd
      exact hd
    · exact ⟨-c, .int (-c), e1, by rw [Expr.evalZ3, h2]; rfl, hs, rfl⟩
  | inv a ih =>
    obtain ⟨c, o, h1, h2, h3⟩ := ih h
    have e1 : (Expr.inv a).evalObj X = .ok (evalAs (.root r) n a.hasVar (pyNot c)) := by
      rw [Expr.evalObj, h1]; exact invObj_as _ n _ c
    rcases h3.cases with ⟨hs, y, rfl, ky, sy, dy⟩ | ⟨hs, rfl⟩
    · have h4 := C92_bvnot dy
      have h5 := invObj_as (.root r) n true c
      simp only [evalAs, if_true, invObj, unInvert] at h5
      obtain ⟨V, hV, h6⟩ := Circuit.bind_ok h5
      cases h6
      rw [hV] at h4
      obtain ⟨z, hz, hd⟩ := h4.ok_right
      exact ⟨pyNot c, .bv z, e1, by simp only [Expr.evalZ3, h2, Smt.ok_bind, invZ3, hz]; rfl, hs, hd⟩
    · exact ⟨pyNot c, .int (pyNot c), e1, by rw [Expr.evalZ3, h2]; rfl, hs, rfl⟩
  | op o a b iha ihb =>
    obtain ⟨ta, tb, hb, c, hc⟩ := h
    obtain ⟨ca, oa, h1, h2, h3⟩ := iha ta
    obtain ⟨cb, ob, g1, g2, g3⟩ := ihb tb
    have h4 := hc
    rw [Expr.evalObj, h1, g1] at h4
    obtain ⟨z, hz, hd⟩ := opZ3_as o h3 g3 hb h4
    exact ⟨c, z, hc, by rw [Expr.evalZ3, h2, g2]; exact hz, hd⟩

end

/-! ## Which expressions are tracked -/

theorem Expr.Modular.tracks {r : Root} {n : Nat} (hn : 0 < n) {X : Nat → BVal} (hX : Args (.root r) n X)
    {bad : AOp → Bool → Bool → Prop} {ex : Expr} (h : ex.Modular n)
    (hb : ∀ o a b, bad o a b → o = .fdiv ∨ o = .mod) : ex.Tracks (.root r) n X bad := by
  have key : ∀ ex : Expr, ex.Modular n → ∃ c, ex.evalObj X = .ok (evalAs (.root r) n ex.hasVar c) := by
    intro ex hm
    obtain ⟨c, -, h2⟩ := C128_modular (.root r) hn hX (fun i => (X i).value) (fun i => by
      obtain ⟨_, h2, h3⟩ := hX i; rw [← h2]; exact h3.mod_eq) ex hm
    exact ⟨c, h2⟩
  induction ex with
  | var i => exact key _ h
  | lit c => trivial
  | neg a ih => exact ih h
  | inv a ih => exact ih h
  | op o a b iha ihb =>
    have nb : ∀ s t, ¬ bad o s t := by
      intro s t hbad
      rcases hb _ _ _ hbad with rfl | rfl <;> exact h
    have k := key _ h
    cases o <;> simp only [Expr.Modular] at h
    case shl =>
      obtain ⟨h1, c, rfl, -⟩ := h
      exact ⟨iha h1, trivial, nb _ _, k⟩
    all_goals exact ⟨iha h.1, ihb h.2, nb _ _, k⟩

/-- An operator excluded by `bad` does not occur in the expression. -/
def Expr.Avoids (bad : AOp → Bool → Bool → Prop) : Expr → Prop
  | .var _ => True
  | .lit _ => True
  | .neg a => a.Avoids bad
  | .inv a => a.Avoids bad
  | .op o a b => a.Avoids bad ∧ b.Avoids bad ∧ ¬ bad o a.hasVar b.hasVar

theorem Expr.Modular.tracks' {r : Root} {n : Nat} (hn : 0 < n) {X : Nat → BVal} (hX : Args (.root r) n X)
    {bad : AOp → Bool → Bool → Prop} {ex : Expr} (h : ex.Modular n) (ha : ex.Avoids bad) :
    ex.Tracks (.root r) n X bad := by
  have h0 := Expr.Modular.tracks hn hX (bad := fun _ _ _ => False) h (fun _ _ _ => False.elim)
  clear h
  induction ex with
  | var i => exact h0
  | lit c => trivial
  | neg a ih => exact ih ha h0
  | inv a ih => exact ih ha h0
  | op o a b iha ihb => exact ⟨iha ha.1 h0.1, ihb ha.2.1 h0.2.1, ha.2.2, h0.2.2.2⟩

theorem Expr.Fits.tracks {r : Root} {n : Nat} (hn : 0 < n) {X : Nat → BVal} (hX : Args (.root r) n X)
    {bad : AOp → Bool → Bool → Prop} {ex : Expr} (h : ex.Fits (.root r) n fun i => reading (X i))
    (hs : ex.NoIntShr (.root r)) (ha : ex.Avoids bad) : ex.Tracks (.root r) n X bad := by
  have key : ∀ ex : Expr, (ex.Fits (.root r) n fun i => reading (X i)) → ex.NoIntShr (.root r) →
      ∃ c, ex.evalObj X = .ok (evalAs (.root r) n ex.hasVar c) := by
    intro ex hm hs
    obtain ⟨c, -, -, h2⟩ := evalObj_fits (.root r) hn hX ex hm hs
    exact ⟨c, h2⟩
  induction ex with
  | var i => exact key _ trivial trivial
  | lit c => trivial
  | neg a ih => exact ih h.1 hs ha
  | inv a ih => exact ih h.1 hs ha
  | op o a b iha ihb => exact ⟨iha h.1 hs.1 ha.1, ihb h.2.1 hs.2.1 ha.2.1, ha.2.2, key _ h hs⟩

/-! ## C130 -/

section
open Smt
variable (S : Simplifier)

/-- **C130** the expressions of C128 on `SMTBitVector`s: under every assignment the result has the value the function
has on Python ints, modulo `2^n`. -/
theorem C130_smt {e : Smt.Env} {r : Root} {n : Nat} (hn : 0 < n) {x : Nat → SBV} {X : Nat → BVal}
    (hx : ∀ i, Smt.Den e (x i) (X i)) (hX : Args (.root r) n X) (v : Nat → Int)
    (hv : ∀ i, v i % 2 ^ n = (X i).value) (ex : Expr) (he : ex.Modular n) (hvar : ex.hasVar = true) :
    ∃ c y, ex.evalInt v = .ok c ∧ ex.evalSmt S x = .ok (.bv y) ∧ Smt.Den e y ⟨.root r, n, c % 2 ^ n⟩ := by
  obtain ⟨c, h1, h2⟩ := C128_modular (.root r) hn hX v hv ex he
  obtain ⟨c', o, g1, g2, g3⟩ := evalSmt_tracks S hn hx ex
    (he.tracks hn hX fun o a b h => h.2.2)
  rw [hvar] at g1 g3 h2
  rw [h2] at g1
  rcases g3.cases with ⟨-, y, rfl, -, -, d⟩ | ⟨h, -⟩
  · refine ⟨c, y, h1, g2, ?_⟩
    simp only [evalAs, if_true, Except.ok.injEq, Obj.bv.injEq] at g1
    rw [g1]; exact d
  · cases h

/-- **C130** so every integer identity is valid for the solver: the two terms have the same value under every
assignment. -/
theorem C130_smt_identity {e : Smt.Env} {r : Root} {n : Nat} (hn : 0 < n) {x : Nat → SBV} {X : Nat → BVal}
    (hx : ∀ i, Smt.Den e (x i) (X i)) (hX : Args (.root r) n X) (a b : Expr) (ha : a.Modular n) (hb : b.Modular n)
    (va : a.hasVar = true) (vb : b.hasVar = true) (h : ∀ v : Nat → Int, a.evalInt v = b.evalInt v) :
    ∃ y z, a.evalSmt S x = .ok (.bv y) ∧ b.evalSmt S x = .ok (.bv z) ∧ y.term.eval e = z.term.eval e ∧
      y.term.eval e ≠ none := by
  have hv : ∀ i, (X i).value % 2 ^ n = (X i).value := fun i => by
    obtain ⟨_, h2, h3⟩ := hX i; rw [← h2]; exact h3.mod_eq
  obtain ⟨c, y, h1, h2, -, h4, p, hp, hp'⟩ := C130_smt S hn hx hX _ hv a ha va
  obtain ⟨d, z, g1, g2, -, g4, q, hq, hq'⟩ := C130_smt S hn hx hX _ hv b hb vb
  rw [h, g1] at h1
  cases h1
  refine ⟨y, z, h2, g2, ?_, by rw [hp]; exact nofun⟩
  rw [hp, hq]
  dsimp only at h4 g4 hp' hq'
  obtain ⟨ys, yk, yt⟩ := y
  obtain ⟨zs, zk, zt⟩ := z
  dsimp only at *
  subst h4; subst g4
  have : p = q := BitVec.eq_of_toNat_eq (by omega)
  rw [this]

/-- **C130 (partial)** the expressions of C129, with all operators: where no value leaves the range of the class, the
`SMTBitVector`s have the values of the Python ints.  Full claim: also `//` and `%` of signed vectors; refuted in C35. -/
theorem C130_smt_exact_partial {e : Smt.Env} {r : Root} {n : Nat} (hn : 0 < n) {x : Nat → SBV} {X : Nat → BVal}
    (hx : ∀ i, Smt.Den e (x i) (X i)) (hX : Args (.root r) n X) (ex : Expr)
    (he : ex.Fits (.root r) n fun i => reading (X i)) (hs : ex.NoIntShr (.root r)) (ha : ex.Avoids (smtBad r))
    (hvar : ex.hasVar = true) :
    ∃ c y Z, ex.evalInt (fun i => reading (X i)) = .ok c ∧ ex.evalSmt S x = .ok (.bv y) ∧ Smt.Den e y Z ∧
      Z.kind = .root r ∧ Z.size = n ∧ reading Z = c := by
  obtain ⟨c, h1, hc, h2⟩ := evalObj_fits (.root r) hn hX ex he hs
  obtain ⟨c', o, g1, g2, g3⟩ := evalSmt_tracks S hn hx ex (he.tracks hn hX hs ha)
  rw [hvar] at g1 g3 h2
  rw [h2] at g1
  rcases g3.cases with ⟨-, y, rfl, -, -, d⟩ | ⟨h, -⟩
  · simp only [evalAs, if_true, Except.ok.injEq, Obj.bv.injEq] at g1
    rw [← g1] at d
    exact ⟨c, y, _, h1, g2, d, rfl, rfl, hc.wrap hn⟩
  · cases h

end

section
open Z3

/-- **C130 (partial)** the expressions of C128 on `z3BitVector`s.  Full claim: also with an int to the left of a vector;
refuted below. -/
theorem C130_z3_partial {e : Z3.Env} {r : Root} {n : Nat} (hn : 0 < n) {x : Nat → ZBV} {X : Nat → BVal}
    (hx : ∀ i, Z3.Den e (x i) (X i)) (hX : Args (.root r) n X) (v : Nat → Int)
    (hv : ∀ i, v i % 2 ^ n = (X i).value) (ex : Expr) (he : ex.Modular n) (ha : ex.Avoids (z3Bad r))
    (hvar : ex.hasVar = true) :
    ∃ c y, ex.evalInt v = .ok c ∧ ex.evalZ3 x = .ok (.bv y) ∧ Z3.Den e y ⟨.root r, n, c % 2 ^ n⟩ := by
  obtain ⟨c, h1, h2⟩ := C128_modular (.root r) hn hX v hv ex he
  obtain ⟨c', o, g1, g2, g3⟩ := evalZ3_tracks hx ex (he.tracks' hn hX ha)
  rw [hvar] at g1 g3 h2
  rw [h2] at g1
  rcases g3.cases with ⟨-, y, rfl, -, -, d⟩ | ⟨h, -⟩
  · refine ⟨c, y, h1, g2, ?_⟩
    simp only [evalAs, if_true, Except.ok.injEq, Obj.bv.injEq] at g1
    rw [g1]; exact d
  · cases h

/-- **C130 (partial)** the expressions of C129 on `z3BitVector`s.  Missing: an int to the left of a vector, and `//` of
signed vectors (refuted in C93). -/
theorem C130_z3_exact_partial {e : Z3.Env} {r : Root} {n : Nat} (hn : 0 < n) {x : Nat → ZBV} {X : Nat → BVal}
    (hx : ∀ i, Z3.Den e (x i) (X i)) (hX : Args (.root r) n X) (ex : Expr)
    (he : ex.Fits (.root r) n fun i => reading (X i)) (ha : ex.Avoids (z3Bad r)) (hvar : ex.hasVar = true) :
    ∃ c y Z, ex.evalInt (fun i => reading (X i)) = .ok c ∧ ex.evalZ3 x = .ok (.bv y) ∧ Z3.Den e y Z ∧
      Z.kind = .root r ∧ Z.size = n ∧ reading Z = c := by
  have hs : ex.NoIntShr (.root r) := by
    clear he hvar
    induction ex with
    | var | lit => trivial
    | neg a ih => exact ih ha
    | inv a ih => exact ih ha
    | op o a b iha ihb => exact ⟨iha ha.1, ihb ha.2.1, fun _ h1 h2 => absurd (.inl ⟨h1, h2⟩) ha.2.2⟩
  obtain ⟨c, h1, hc, h2⟩ := evalObj_fits (.root r) hn hX ex he hs
  obtain ⟨c', o, g1, g2, g3⟩ := evalZ3_tracks hx ex (he.tracks hn hX hs ha)
  rw [hvar] at g1 g3 h2
  rw [h2] at g1
  rcases g3.cases with ⟨-, y, rfl, -, -, d⟩ | ⟨h, -⟩
  · simp only [evalAs, if_true, Except.ok.injEq, Obj.bv.injEq] at g1
    rw [← g1] at d
    exact ⟨c, y, _, h1, g2, d, rfl, rfl, hc.wrap hn⟩
  · cases h

/-- **C130** is false of the z3 family: `1 + x` raises `TypeError`. -/
theorem C130_refuted :
    ¬ ∀ (e : Z3.Env) (r : Root) (n : Nat) (x : Nat → ZBV) (X : Nat → BVal), 0 < n → (∀ i, Z3.Den e (x i) (X i)) →
      Args (.root r) n X → ∀ ex : Expr, ex.Modular n → ex.hasVar = true → ∃ y, ex.evalZ3 x = .ok (.bv y) := by
  intro h
  obtain ⟨y, hy⟩ := h zEnv9 .bv 4 (fun _ => zSym .bv 4 'x') (fun _ => ⟨.root .bv, 4, 9⟩) (by decide)
    (fun _ => ⟨rfl, rfl, by decide, _, rfl, by decide⟩) (fun _ => ⟨rfl, rfl, show BVal.WF ⟨.root .bv, 4, 9⟩ by decide⟩)
    (.op .add (.lit 1) (.var 0)) ⟨trivial, trivial⟩ rfl
  cases hy

/-- `(x * 3 - 20) >> 1` with `x = 9`: 3 in all families; the hypotheses of the theorems above hold at width 5. -/
def demoHalf : Expr := .op .shr (.op .sub (.op .mul (.var 0) (.lit 3)) (.lit 20)) (.lit 1)

example : (∀ _ : Nat, Z3.Den zEnv9 (zSym .uint 5 'x') ⟨.root .uint, 5, 9⟩) ∧
    demoHalf.Fits (.root .uint) 5 (fun _ => reading ⟨.root .uint, 5, 9⟩) ∧ demoHalf.Avoids (z3Bad .uint) ∧
    demoHalf.Avoids (smtBad .uint) ∧ demoHalf.NoIntShr (.root .uint) ∧
    ∃ y, demoHalf.evalZ3 (fun _ => zSym .uint 5 'x') = .ok (.bv y) ∧ Z3.Den zEnv9 y ⟨.root .uint, 5, 3⟩ := by
  refine ⟨fun _ => ⟨rfl, rfl, by decide, _, rfl, by decide⟩, ?_, ?_, ?_, ?_,
    _, rfl, rfl, rfl, by decide, _, rfl, by decide⟩
  · exact ⟨⟨⟨trivial, by show InClass _ _ _; decide, 27, by decide, by decide⟩, by show InClass _ _ _; decide, 7, by decide,
      by decide⟩, by show InClass _ _ _; decide, 3, by decide, by decide⟩
  · simp [demoHalf, Expr.Avoids, Expr.hasVar, z3Bad]
  · simp [demoHalf, Expr.Avoids, Expr.hasVar, smtBad]
  · simp [demoHalf, Expr.NoIntShr, Expr.hasVar]

end

open Smt in
/-- `~x + 1 == -x` is valid for the solver. -/
example (S : Simplifier) : ∃ y z, (Expr.op .add (.inv (.var 0)) (.lit 1)).evalSmt S (fun _ => symX) = .ok (.bv y) ∧
    (Expr.neg (.var 0)).evalSmt S (fun _ => symX) = .ok (.bv z) ∧ y.term.eval env200 = z.term.eval env200 ∧
    y.term.eval env200 ≠ none := by
  have hx : Smt.Den env200 symX ⟨.root .bv, 8, 200⟩ := ⟨rfl, rfl, 200#8, by decide, by decide⟩
  refine C130_smt_identity S (r := .bv) (n := 8) (X := fun _ => ⟨.root .bv, 8, 200⟩) (by decide) (fun _ => hx)
    (fun _ => ⟨rfl, rfl, show BVal.WF ⟨.root .bv, 8, 200⟩ by decide⟩) _ _ ⟨trivial, trivial⟩ trivial rfl rfl fun v => ?_
  simp [Expr.evalInt, AOp.int, bind, Except.bind, pure, Except.pure, pyNot]

end HW
