import Verif.Model.Smt.Bit
import Verif.Props.SmtIte
import Verif.Props.Operators

/-!
# C74 symbolic bits, C75 symbolic operators, C43 formulas
-/

namespace HW
open Spec Smt

variable (S : Simplifier)

/-! ## C74 -/

/-- Boolean meaning of the operators. -/
def Smt.BitOp.meaning : BitOp → Bool → Bool → Bool
  | .and, a, b => a && b
  | .or, a, b => a || b
  | .xor, a, b => a ^^ b
  | .eq, a, b => a == b
  | .ne, a, b => a != b

/-- What converts to a symbolic bit: bits, bools, the ints 0 and 1. -/
inductive DenBitLike (e : Env) : SObj → Bool → Prop
  | bit {t b} : DenBit e t b → DenBitLike e (.bit t) b
  | bool {b} : DenBitLike e (.bool b) b
  | zero : DenBitLike e (.int 0) false
  | one : DenBitLike e (.int 1) true

section
variable {S : Simplifier} {e : Env}

theorem bitOperand {o : SObj} {b : Bool} (h : DenBitLike e o b) :
    ∃ t, castBit S o = .ok t ∧ DenBit e t b := by
  cases h with
  | bit h => exact ⟨_, rfl, h⟩
  | bool => exact ⟨_, rfl, S.eval _ _ _ rfl⟩
  | zero => exact ⟨_, rfl, S.eval _ _ _ rfl⟩
  | one => exact ⟨_, rfl, S.eval _ _ _ rfl⟩

theorem bitTerm {a b : Term} {A B : Bool} (ha : DenBit e a A) (hb : DenBit e b B) (op : BitOp) :
    (op.term a b).eval e = some (.bool (op.meaning A B)) := by
  unfold DenBit at ha hb
  cases op <;> cases A <;> cases B <;> simp [BitOp.term, BitOp.meaning, Term.eval, ha, hb, BOp.eval, UOp.eval]

theorem bitF_ok {t : Term} {b : Bool} (h : t.eval e = some (.bool b)) :
    (do bitF S (← node t) : PyM Term) = .ok (S.run t) ∧ DenBit e (S.run t) b := by
  refine ⟨?_, S.eval _ _ _ h⟩
  simp [node_ok h, ok_bind, bitF, eval_ty h, Val.ty]

theorem bitFwd_den {a : Term} {A : Bool} {o : SObj} {B : Bool} (ha : DenBit e a A) (ho : DenBitLike e o B) (op : BitOp) :
    ∃ t, op.fwd S a o = .ok (some t) ∧ DenBit e t (op.meaning A B) := by
  obtain ⟨b, hb, hB⟩ := bitOperand (S := S) ho
  have hev := bitTerm ha hB op
  refine ⟨S.run (op.term a b), ?_, S.eval _ _ _ hev⟩
  have h1 : bitF S (op.term a b) = .ok (S.run (op.term a b)) := by simp [bitF, eval_ty hev, Val.ty]
  simp only [BitOp.fwd, hb, node_ok hev, ok_bind, h1]; rfl
end

/-- **C74** a `SMTBit` on the left of `&`, `|`, `^`, `==`, `!=`, and a bit, bool, 0 or 1 on the right. -/
theorem C74_left {e : Env} {a : Term} {A : Bool} {o : SObj} {B : Bool} (ha : DenBit e a A) (ho : DenBitLike e o B)
    (op : BitOp) : ∃ t, bitLeft S op a o = .ok (.sym t) ∧ DenBit e t (op.meaning A B) := by
  obtain ⟨t, h1, h2⟩ := bitFwd_den (S := S) ha ho op
  exact ⟨t, by simp only [bitLeft, h1, ok_bind]; rfl, h2⟩

theorem Smt.BitOp.meaning_comm (op : BitOp) (A B : Bool) : op.meaning A B = op.meaning B A := by
  cases op <;> cases A <;> cases B <;> rfl

/-- **C74 (partial)**: full claim: the same with the `SMTBit` on the right, for all five operators.
Proved for all but `^`. -/
theorem C74_right_partial {e : Env} {a : Term} {A : Bool} {o : SObj} {B : Bool} (ha : DenBit e a A)
    (ho : DenBitLike e o B) (op : BitOp) (hop : op ≠ .xor) :
    ∃ t, bitRight S op o a = .ok (.sym t) ∧ DenBit e t (op.meaning B A) := by
  by_cases hc : op = .eq ∨ op = .ne
  · obtain ⟨t, h1, h2⟩ := bitFwd_den (S := S) ha ho op
    refine ⟨t, ?_, BitOp.meaning_comm op A B ▸ h2⟩
    rcases hc with rfl | rfl <;> simp only [bitRight, BitOp.rev, h1, ok_bind] <;> rfl
  · obtain ⟨b, hb, hB⟩ := bitOperand (S := S) ho
    have hev := bitTerm hB ha op
    refine ⟨S.run (op.term b a), ?_, S.eval _ _ _ hev⟩
    have h1 : bitF S (op.term b a) = .ok (S.run (op.term b a)) := by simp [bitF, eval_ty hev, Val.ty]
    have hop' : op = .and ∨ op = .or := by cases op <;> simp_all
    rcases hop' with rfl | rfl <;> simp only [bitRight, BitOp.rev, hb, node_ok hev, ok_bind, h1] <;> rfl

/-- **C74 refuted** for `^`: `True ^ bit` raises for every symbolic bit, there is no `__rxor__`. -/
theorem C74_rxor_refuted (o : SObj) (a : Term) : bitRight S .xor o a = .error .typeError := rfl

/-- **C74** `~`. -/
theorem C74_invert {e : Env} {a : Term} {A : Bool} (ha : DenBit e a A) :
    ∃ t, bitInvert S a = .ok t ∧ DenBit e t (!A) := by
  have hev : (Term.un .not a).eval e = some (.bool !A) := by
    have : a.eval e = some (.bool A) := ha
    simp [Term.eval, this, UOp.eval]
  obtain ⟨h1, h2⟩ := bitF_ok (S := S) hev
  exact ⟨_, h1, h2⟩

/-- **C74** other ints raise `ValueError`, on either side (`^` has no reflected method). -/
theorem C74_bad_int (a : Term) (v : Int) (h0 : v ≠ 0) (h1 : v ≠ 1) (op : BitOp) :
    bitLeft S op a (.int v) = .error .valueError ∧ (op ≠ .xor → bitRight S op (.int v) a = .error .valueError) := by
  constructor
  · simp only [bitLeft, BitOp.fwd, castBit, mkSBit, h0, h1, if_false]
    rfl
  · intro hop
    cases op with
    | xor => exact absurd rfl hop
    | _ =>
      simp only [bitRight, BitOp.rev, BitOp.fwd, castBit, mkSBit, h0, h1, if_false]
      rfl

/-- **C74** objects without a truth value of their own (`None`-like objects, lists): `==` is `False`, `!=` is `True`, the
operators raise `TypeError`, on either side. -/
theorem C74_foreign (a : Term) {o : SObj} (ho : (∃ i, o = .other i none) ∨ ∃ l, o = .seq l) :
    bitLeft S .eq a o = .ok (.py false) ∧ bitLeft S .ne a o = .ok (.py true) ∧
    bitRight S .eq o a = .ok (.py false) ∧ bitRight S .ne o a = .ok (.py true) ∧
    ∀ op ∈ [BitOp.and, .or, .xor], bitLeft S op a o = .error .typeError ∧ bitRight S op o a = .error .typeError := by
  rcases ho with ⟨i, rfl⟩ | ⟨l, rfl⟩ <;> refine ⟨rfl, rfl, rfl, rfl, ?_⟩ <;>
    (intro op hop
     simp only [List.mem_cons, List.not_mem_nil, or_false] at hop
     rcases hop with rfl | rfl | rfl <;> exact ⟨rfl, rfl⟩)

/-- The agreement with `Bit` is exact: same Boolean function as the concrete operators. -/
theorem C74_concrete (A B : Bool) (i : Nat) :
    binA .and (.bit A) (.bit B) i = .ok (.bit (BitOp.meaning .and A B), i) ∧
    binA .or (.bit A) (.bit B) i = .ok (.bit (BitOp.meaning .or A B), i) ∧
    binA .xor (.bit A) (.bit B) i = .ok (.bit (BitOp.meaning .xor A B), i) ∧
    binC .eq (.bit A) (.bit B) = .ok (.bit (BitOp.meaning .eq A B)) ∧
    binC .ne (.bit A) (.bit B) = .ok (.bit (BitOp.meaning .ne A B)) := by
  obtain ⟨h1, h2, h3, h4, h5⟩ := C30_right A (o := .bit B) (b := B) rfl i
  refine ⟨h1, h2, h3, ?_, ?_⟩
  · rw [h4]; cases A <;> cases B <;> rfl
  · rw [h5]; cases A <;> cases B <;> rfl

example : bitLeft noSimp .xor (.sym ['p'] .bool) (.int 1) =
    .ok (.sym (.un .not (.bin .iff (.boolC true) (.sym ['p'] .bool)))) := by decide

/-! ## C75 -/

theorem tryOper_rel {α β : Type} {R : α → β → Prop} {m : PyM α} {M : PyM β} (h : RelM R m M) :
    (∃ a b, tryOper m = .ok (some a) ∧ tryOper M = .ok (some b) ∧ R a b) ∨
    (tryOper m = .ok none ∧ tryOper M = .ok none) ∨ ∃ err, tryOper m = .error err ∧ tryOper M = .error err := by
  cases m with
  | ok a => cases M with
    | ok b => exact .inl ⟨a, b, rfl, rfl, h⟩
    | error => exact h.elim
  | error e => cases M with
    | ok => exact h.elim
    | error e' =>
      have : e = e' := h
      subst this
      cases e <;> first | exact .inr (.inl ⟨rfl, rfl⟩) | exact .inr (.inr ⟨_, rfl, rfl⟩)

/-- Concrete method behind an operator of a predefined class. -/
theorem slot_root (op : AOp) (r : Root) : AOp.slot op (.root r) = if op.signDep && r == .sint then .sgn else .uns := by
  cases op <;> cases r <;> rfl
theorem slotC_root (op : COp) (r : Root) : COp.slot op (.root r) = if op.signDep && r == .sint then .sgn else .uns := by
  cases op <;> cases r <;> rfl

/-- The symbolic methods are the concrete ones, but for signed division and remainder. -/
theorem smtM_hom (op : AOp) (r : Root) (h : ¬ (r = .sint ∧ (op = .fdiv ∨ op = .mod))) :
    HomV (AOp.smtM S op r) (if op.signDep && r == .sint then op.sMethod else op.uMethod) := by
  have hU : HomV (AOp.smtU S op) op.uMethod := by
    cases op
    · exact C34_bvand S
    · exact C34_bvor S
    · exact C34_bvxor S
    · exact C34_bvshl S
    · exact C34_bvlshr S
    · exact C34_bvadd S
    · exact C34_bvsub S
    · exact C34_bvmul S
    · exact C34_bvudiv S
    · exact C34_bvurem S
  unfold AOp.smtM
  by_cases hc : (op.signDep && r == .sint) = true
  · simp only [hc, if_true]
    have hr : r = .sint := by simp at hc; exact hc.2
    cases op with
    | shr => exact C34_bvashr S
    | fdiv => exact (h ⟨hr, .inl rfl⟩).elim
    | mod => exact (h ⟨hr, .inr rfl⟩).elim
    | _ => simp [AOp.signDep] at hc
  · rw [if_neg hc, if_neg hc]; exact hU

theorem smtMC_hom (op : COp) (r : Root) :
    HomB (COp.smtM S op r) (if op.signDep && r == .sint then op.sMethod else op.uMethod) := by
  unfold COp.smtM
  by_cases hc : (op.signDep && r == .sint) = true
  · simp only [hc, if_true]
    cases op with
    | ge => exact C34_bvsge S
    | gt => exact C34_bvsgt S
    | le => exact C34_bvsle S
    | lt => exact C34_bvslt S
    | _ => simp [COp.signDep] at hc
  · rw [if_neg hc, if_neg hc]
    cases op
    · exact C34_bveq S
    · exact C34_bvne S
    · exact C34_bvuge S
    · exact C34_bvugt S
    · exact C34_bvule S
    · exact C34_bvult S

theorem fwd_root (op : AOp) (r : Root) (X : BVal) (O : Obj) (i : Nat) :
    op.fwd (AOp.slot op (.root r)) X O i =
      (tryOper ((if op.signDep && r == .sint then op.sMethod else op.uMethod) X O)).map fun a => (a, i) := by
  rw [slot_root]; split <;> rfl

theorem rev_root (op : AOp) (r : Root) (X : BVal) (O : Obj) (i : Nat) :
    op.rev (AOp.slot op (.root r)) X O i =
      if op = .shr ∧ r ≠ .sint then op.fwd (AOp.slot op (.root r)) X O i
      else match HW.coerce X.kind X.size O with
        | .ok y => op.fwd (AOp.slot op (.root r)) y (.bv X) i
        | .error _ => .error .nameError := by
  rw [slot_root]
  by_cases hc : (op.signDep && r == .sint) = true
  · rw [if_pos hc, if_neg (by simp at hc; simp [hc.2])]
    simp only [AOp.rev]
    cases HW.coerce X.kind X.size O <;> rfl
  · rw [if_neg hc]
    by_cases hop : op = .shr
    · subst hop
      have hr : r ≠ .sint := by simpa [AOp.signDep] using hc
      rw [if_pos ⟨rfl, hr⟩]
      simp only [AOp.rev, if_true]
    · rw [if_neg (fun h => hop h.1)]
      simp only [AOp.rev, hop, if_false]
      cases HW.coerce X.kind X.size O <;> rfl

/-- Related operator results. -/
def DenRes (e : Env) (i : Nat) (s : SBV) (r : Obj × Nat) : Prop := ∃ V, r = (.bv V, i) ∧ Den e s V

theorem fwd_rel {e : Env} {r : Root} {x : SBV} {X : BVal} {o : SObj} {O : Obj} (op : AOp) (i : Nat)
    (hop : ¬ (r = .sint ∧ (op = .fdiv ∨ op = .mod))) (hx : Den e x X) (hn : 0 < x.size)
    (ho : DenObj e o O) (hf : SObj.Fits x.size o) :
    (∃ a b, sfwdA S op r x o = .ok (some a) ∧ op.fwd (AOp.slot op (.root r)) X O i = .ok (some b, i) ∧ Den e a b) ∨
    (sfwdA S op r x o = .ok none ∧ op.fwd (AOp.slot op (.root r)) X O i = .ok (none, i)) ∨
    ∃ err, sfwdA S op r x o = .error err ∧ op.fwd (AOp.slot op (.root r)) X O i = .error err := by
  have h := smtM_hom S op r hop e x X o O hx ho hn hf
  rw [fwd_root]
  rcases tryOper_rel h with ⟨a, b, h1, h2, h3⟩ | ⟨h1, h2⟩ | ⟨err, h1, h2⟩
  · exact .inl ⟨a, b, h1, by rw [h2]; rfl, h3⟩
  · exact .inr (.inl ⟨h1, by rw [h2]; rfl⟩)
  · exact .inr (.inr ⟨err, h1, by rw [h2]; rfl⟩)

/-- **C75** vector on the left, anything but a vector on the right. -/
theorem C75_left {e : Env} {r : Root} {x : SBV} {X : BVal} {o : SObj} {O : Obj} (op : AOp) (i : Nat)
    (hop : ¬ (r = .sint ∧ (op = .fdiv ∨ op = .mod))) (hk : x.kind = .root r) (hx : Den e x X) (hn : 0 < x.size)
    (ho : DenObj e o O) (hf : SObj.Fits x.size o) (hno : ∀ y, o ≠ .bv y) :
    RelM (DenRes e i) (svecLeft S op r x o) (binA op (.bv X) O i) := by
  have hX : X.kind = .root r := by have := hx.1; rw [hk] at this; exact this
  have hbin : binA op (.bv X) O i = (op.fwd (AOp.slot op (.root r)) X O i).bind fun p =>
      match p.1 with | some v => .ok (.bv v, p.2) | none => .error .typeError := by
    cases ho with
    | bv => exact (hno _ rfl).elim
    | @bit t c =>
      have hc : operand X.size (.bit c) = .ok ((if c then 1 else 0) % 2 ^ X.size) := by
        simp [operand, Obj.denotes, wrap]
      simp only [binA, fwdA, hX, bind, StateT.bind,
        fwd_ref op (AOp.slot op (.root r)) hx.WF (hx.2.1 ▸ hn) (o := .bit c) trivial hc i]
      rfl
    | _ =>
      simp only [binA, fwdA, revA, hX, bind, StateT.bind]
      cases op.fwd (AOp.slot op (.root r)) X _ i with
      | error => rfl
      | ok p => obtain ⟨v, j⟩ := p; cases v <;> rfl
  rw [hbin]
  rcases fwd_rel S op i hop hx hn ho hf with ⟨a, b, h1, h2, h3⟩ | ⟨h1, h2⟩ | ⟨err, h1, h2⟩
  · simp only [svecLeft, h1, ok_bind, h2]; exact ⟨b, rfl, h3⟩
  · simp only [svecLeft, h1, ok_bind, h2]; rfl
  · simp only [svecLeft, h1, h2]; rfl

/-- The reflected method, for any left operand. -/
theorem right_rel {e : Env} {r : Root} {x : SBV} {X : BVal} {o : SObj} {O : Obj} (op : AOp) (i : Nat)
    (hop : ¬ (r = .sint ∧ (op = .fdiv ∨ op = .mod))) (hx : Den e x X) (hn : 0 < x.size)
    (ho : DenObj e o O) (hf : SObj.Fits x.size o) :
    RelM (DenRes e i) (svecRight S op r o x) ((op.rev (AOp.slot op (.root r)) X O i).bind fun p =>
      match p.1 with | some v => .ok (.bv v, p.2) | none => .error .typeError) := by
  have hs : X.size = x.size := hx.2.1
  rw [rev_root]
  unfold svecRight srevA
  by_cases hsh : op = .shr ∧ r ≠ .sint
  · rw [if_pos hsh, if_pos hsh]
    rcases fwd_rel S op i hop hx hn ho hf with ⟨a, b, h1, h2, h3⟩ | ⟨h1, h2⟩ | ⟨err, h1, h2⟩
    · simp only [h1, ok_bind, h2]; exact ⟨b, rfl, h3⟩
    · simp only [h1, ok_bind, h2]; rfl
    · simp only [h1, h2]; rfl
  · rw [if_neg hsh, if_neg hsh]
    have hc := scoerce_rel (S := S) hn hx.1 ho hf
    rw [hs]
    cases h1 : scoerce S x.kind x.size o with
    | error err =>
      rw [h1] at hc
      cases h2 : HW.coerce X.kind x.size O with
      | error => rfl
      | ok => rw [h2] at hc; exact hc.elim
    | ok y =>
      rw [h1] at hc
      cases h2 : HW.coerce X.kind x.size O with
      | error => rw [h2] at hc; exact hc.elim
      | ok Y =>
        rw [h2] at hc
        have hyn : 0 < y.size := by have := hc.2; omega
        dsimp only
        rcases fwd_rel S op i hop hc.1 hyn (.bv hx) trivial with ⟨a, b, h1, h2, h3⟩ | ⟨h1, h2⟩ | ⟨err, h1, h2⟩
        · simp only [h1, ok_bind, h2]; exact ⟨b, rfl, h3⟩
        · simp only [h1, ok_bind, h2]; rfl
        · simp only [h1, h2]; rfl

/-- **C75** vector on the right, int, bool, sequence or other object on the left; a bit on the left for
operators a bit does not have itself. -/
theorem C75_right {e : Env} {r : Root} {x : SBV} {X : BVal} {o : SObj} {O : Obj} (op : AOp) (i : Nat)
    (hop : ¬ (r = .sint ∧ (op = .fdiv ∨ op = .mod))) (hk : x.kind = .root r) (hx : Den e x X) (hn : 0 < x.size)
    (ho : DenObj e o O) (hf : SObj.Fits x.size o) (hno : ∀ y, o ≠ .bv y)
    (hbit : (∃ t, o = .bit t) → op ≠ .and ∧ op ≠ .or ∧ op ≠ .xor) :
    RelM (DenRes e i) (svecRight S op r o x) (binA op O (.bv X) i) := by
  have hX : X.kind = .root r := by have := hx.1; rw [hk] at this; exact this
  have hbin : binA op O (.bv X) i = (op.rev (AOp.slot op (.root r)) X O i).bind fun p =>
      match p.1 with | some v => .ok (.bv v, p.2) | none => .error .typeError := by
    cases ho with
    | bv => exact (hno _ rfl).elim
    | @bit t c =>
      have hA : bitA op c (.bv X) = .ok none := by
        obtain ⟨h1, h2, h3⟩ := hbit ⟨t, rfl⟩
        cases op <;> first | rfl | contradiction
      simp only [binA, fwdA, revA, hX, hA, bind, StateT.bind, pure, StateT.pure, Except.pure, Except.bind, pyLift, Except.map, Option.map]
      cases op.rev (AOp.slot op (.root r)) X _ i with
      | error => rfl
      | ok p => obtain ⟨v, j⟩ := p; cases v <;> rfl
    | _ =>
      simp only [binA, fwdA, revA, hX, bind, StateT.bind, pure, StateT.pure, Except.pure, Except.bind]
      cases op.rev (AOp.slot op (.root r)) X _ i with
      | error => rfl
      | ok p => obtain ⟨v, j⟩ := p; cases v <;> rfl
  rw [hbin]
  exact right_rel S op i hop hx hn ho hf

theorem properSub_root {X Y : BVal} {r r' : Root} (hX : X.kind = .root r) (hY : Y.kind = .root r') :
    Y.properSub X = true ↔ ¬ (r = r' ∧ X.size = Y.size) ∧ Y.size = X.size ∧ r'.isSub r := by
  simp [BVal.properSub, BVal.sameType, hX, hY, Kind.isSub, Kind.base, and_assoc]
  intro _ _
  tauto

theorem rev_rel {e : Env} {r : Root} {x : SBV} {X : BVal} {y : SBV} {Y : BVal} (op : AOp) (i : Nat)
    (hop : ¬ (r = .sint ∧ (op = .fdiv ∨ op = .mod))) (hx : Den e x X) (hn : 0 < x.size) (hy : Den e y Y) (hm : 0 < y.size) :
    (∃ a b, srevA S op r x (.bv y) = .ok (some a) ∧ op.rev (AOp.slot op (.root r)) X (.bv Y) i = .ok (some b, i) ∧ Den e a b) ∨
    (srevA S op r x (.bv y) = .ok none ∧ op.rev (AOp.slot op (.root r)) X (.bv Y) i = .ok (none, i)) ∨
    ∃ err, srevA S op r x (.bv y) = .error err ∧ op.rev (AOp.slot op (.root r)) X (.bv Y) i = .error err := by
  have hs : X.size = x.size := hx.2.1
  have hs' : Y.size = y.size := hy.2.1
  rw [rev_root]
  unfold srevA
  by_cases hsh : op = .shr ∧ r ≠ .sint
  · rw [if_pos hsh, if_pos hsh]
    exact fwd_rel S op i hop hx hn (.bv hy) trivial
  · rw [if_neg hsh, if_neg hsh]
    simp only [scoerce, HW.coerce, hs, hs']
    by_cases hc : y.size ≠ x.size
    · rw [if_pos hc, if_pos hc]
      exact .inr (.inr ⟨.nameError, rfl, rfl⟩)
    · rw [if_neg hc, if_neg hc]
      exact fwd_rel S op i hop hy hm (.bv hx) trivial

/-- **C75** two vectors of predefined classes, of any widths. -/
theorem C75_vectors {e : Env} {r r' : Root} {x y : SBV} {X Y : BVal} (op : AOp) (i : Nat)
    (hop : ¬ ((r = .sint ∨ r' = .sint) ∧ (op = .fdiv ∨ op = .mod))) (hk : x.kind = .root r) (hk' : y.kind = .root r')
    (hx : Den e x X) (hy : Den e y Y) (hn : 0 < x.size) (hm : 0 < y.size) :
    RelM (DenRes e i) (svecVec S op r r' x y) (binA op (.bv X) (.bv Y) i) := by
  have hX : X.kind = .root r := by have := hx.1; rw [hk] at this; exact this
  have hY : Y.kind = .root r' := by have := hy.1; rw [hk'] at this; exact this
  have hs : X.size = x.size := hx.2.1
  have hs' : Y.size = y.size := hy.2.1
  have hop1 : ¬ (r = .sint ∧ (op = .fdiv ∨ op = .mod)) := fun h => hop ⟨.inl h.1, h.2⟩
  have hop2 : ¬ (r' = .sint ∧ (op = .fdiv ∨ op = .mod)) := fun h => hop ⟨.inr h.1, h.2⟩
  have hcond : (Y.properSub X && op.slot Y.kind != op.slot X.kind) = true ↔
      (¬ (r = r' ∧ x.size = y.size) ∧ y.size = x.size ∧ r'.isSub r ∧ op.signDep ∧ (r' = .sint ↔ ¬ r = .sint)) := by
    rw [Bool.and_eq_true, properSub_root hX hY, hX, hY, slot_root, slot_root, hs, hs']
    have hh : (!decide ((if op.signDep && r' == .sint then Impl.sgn else .uns) = (if op.signDep && r == .sint then Impl.sgn else .uns))) = true ↔
        op.signDep = true ∧ (r' = .sint ↔ ¬ r = .sint) := by
      cases op.signDep <;> cases r <;> cases r' <;> decide
    constructor
    · rintro ⟨⟨h1, h2, h3⟩, h4⟩
      have := hh.1 (by simpa using h4)
      exact ⟨h1, h2, h3, this⟩
    · rintro ⟨h1, h2, h3, h4⟩
      exact ⟨⟨h1, h2, h3⟩, by simpa using hh.2 h4⟩
  unfold binA svecVec
  by_cases hc : (¬ (r = r' ∧ x.size = y.size) ∧ y.size = x.size ∧ r'.isSub r ∧ op.signDep ∧ (r' = .sint ↔ ¬ r = .sint))
  · rw [if_pos hc]
    simp only [hcond.2 hc, if_true, revA, fwdA, bind, StateT.bind]
    rw [hX, hY]
    rcases rev_rel S op i hop2 hy hm hx hn with ⟨a, b, h1, h2, h3⟩ | ⟨h1, h2⟩ | ⟨err, h1, h2⟩
    · simp only [h1, h2, Except.bind]; exact ⟨b, rfl, h3⟩
    · rcases fwd_rel S op i hop1 hx hn (.bv hy) trivial with ⟨a, b, g1, g2, g3⟩ | ⟨g1, g2⟩ | ⟨err, g1, g2⟩
      · simp only [h1, h2, Except.bind, bind, StateT.bind, g1, pure, StateT.pure, Except.pure, Option.map, g2]; exact ⟨b, rfl, g3⟩
      · simp only [h1, h2, Except.bind, bind, StateT.bind, g1, pure, StateT.pure, Except.pure, Option.map, g2]; rfl
      · simp only [h1, h2, Except.bind, bind, StateT.bind, g1, pure, StateT.pure, Except.pure, Option.map, g2]; rfl
    · simp only [h1, h2, Except.bind]; rfl
  · rw [if_neg hc]
    have hc' : (Y.properSub X && op.slot Y.kind != op.slot X.kind) = false := by
      rw [← Bool.not_eq_true]; exact fun h => hc (hcond.1 h)
    have hst : X.sameType Y = true ↔ (r = r' ∧ x.size = y.size) := by
      simp [BVal.sameType, hX, hY, hs, hs']
    simp only [hc', Bool.false_eq_true, if_false, revA, fwdA, bind, StateT.bind]
    rw [hX, hY]
    rcases fwd_rel S op i hop1 hx hn (.bv hy) trivial with ⟨a, b, h1, h2, h3⟩ | ⟨h1, h2⟩ | ⟨err, h1, h2⟩
    · simp only [h1, h2, Except.bind]; exact ⟨b, rfl, h3⟩
    · by_cases hsm : r = r' ∧ x.size = y.size
      · simp only [h1, h2, Except.bind, hst.2 hsm, if_true, pure, StateT.pure, Except.pure, Option.map]
        rw [if_pos hsm]; rfl
      · have : X.sameType Y = false := by rw [← Bool.not_eq_true]; exact fun h => hsm (hst.1 h)
        simp only [h1, h2, Except.bind, this, hsm, if_false, pure, StateT.pure, Except.pure, Option.map, Bool.false_eq_true]
        rcases rev_rel S op i hop2 hy hm hx hn with ⟨a, b, g1, g2, g3⟩ | ⟨g1, g2⟩ | ⟨err, g1, g2⟩
        · simp only [StateT.bind, bind, g1, g2, Except.bind]; exact ⟨b, rfl, g3⟩
        · simp only [StateT.bind, bind, g1, g2, Except.bind]; rfl
        · simp only [StateT.bind, bind, g1, g2, Except.bind]; rfl
    · simp only [h1, h2, Except.bind]; rfl

/-- Results of comparisons: a symbolic bit, or a plain bool. -/
def DenCmp (e : Env) : IRes → Obj → Prop
  | .sym t, .bit b => DenBit e t b
  | .py b, .bool b' => b = b'
  | _, _ => False

theorem fwdC_rel {e : Env} {r : Root} {x : SBV} {X : BVal} {o : SObj} {O : Obj} (op : COp)
    (hx : Den e x X) (hn : 0 < x.size) (ho : DenObj e o O) (hf : SObj.Fits x.size o) :
    (∃ a b, sfwdC S op r x o = .ok (some a) ∧ op.fwd (COp.slot op (.root r)) X O = .ok (some b) ∧ DenBit e a b) ∨
    (sfwdC S op r x o = .ok none ∧ op.fwd (COp.slot op (.root r)) X O = .ok none) ∨
    ∃ err, sfwdC S op r x o = .error err ∧ op.fwd (COp.slot op (.root r)) X O = .error err := by
  have h := smtMC_hom S op r e x X o O hx ho hn hf
  have hf' : op.fwd (COp.slot op (.root r)) X O =
      tryOper ((if op.signDep && r == .sint then op.sMethod else op.uMethod) X O) := by
    rw [slotC_root]; split <;> rfl
  rw [hf']
  exact tryOper_rel h

theorem default_rel (e : Env) (op : COp) : RelM (DenCmp e) (sdefaultC op) (defaultC op) := by cases op <;> rfl

/-- **C75** comparisons with anything but a vector on the right. -/
theorem C75_compare_left {e : Env} {r : Root} {x : SBV} {X : BVal} {o : SObj} {O : Obj} (op : COp)
    (hk : x.kind = .root r) (hx : Den e x X) (hn : 0 < x.size)
    (ho : DenObj e o O) (hf : SObj.Fits x.size o) (hno : ∀ y, o ≠ .bv y) :
    RelM (DenCmp e) (scmpLeft S op r x o) (binC op (.bv X) O) := by
  have hX : X.kind = .root r := by have := hx.1; rw [hk] at this; exact this
  have hbin : binC op (.bv X) O = (op.fwd (COp.slot op (.root r)) X O).bind fun p =>
      match p with | some v => .ok (.bit v) | none => defaultC op := by
    cases ho with
    | bv => exact (hno _ rfl).elim
    | @bit t c =>
      have hc : operand X.size (.bit c) = .ok ((if c then 1 else 0) % 2 ^ X.size) := by
        simp [operand, Obj.denotes, wrap]
      simp only [binC, fwdC, hX, bind, Bool.false_eq_true, if_false,
        cfwd_ref op (COp.slot op (.root r)) hx.WF (hx.2.1 ▸ hn) (o := .bit c) trivial hc]
      rfl
    | _ =>
      simp only [binC, fwdC, hX, Bool.false_eq_true, if_false, bind]
      cases op.fwd (COp.slot op (.root r)) X _ with
      | error => rfl
      | ok p => cases p <;> rfl
  rw [hbin]
  rcases fwdC_rel S (r := r) op hx hn ho hf with ⟨a, b, h1, h2, h3⟩ | ⟨h1, h2⟩ | ⟨err, h1, h2⟩
  · simp only [scmpLeft, h1, ok_bind, h2]; exact h3
  · simp only [scmpLeft, h1, ok_bind, h2]; exact default_rel e op
  · simp only [scmpLeft, h1, h2]; rfl

/-- **C75** comparisons with an int, bool, sequence or other object on the left; a bit on the left
for the orderings. -/
theorem C75_compare_right {e : Env} {r : Root} {x : SBV} {X : BVal} {o : SObj} {O : Obj} (op : COp)
    (hk : x.kind = .root r) (hx : Den e x X) (hn : 0 < x.size)
    (ho : DenObj e o O) (hf : SObj.Fits x.size o) (hno : ∀ y, o ≠ .bv y)
    (hbit : (∃ t, o = .bit t) → op ≠ .eq ∧ op ≠ .ne) :
    RelM (DenCmp e) (scmpRight S op r o x) (binC op O (.bv X)) := by
  have hX : X.kind = .root r := by have := hx.1; rw [hk] at this; exact this
  have hbin : binC op O (.bv X) = (op.swap.fwd (COp.slot op.swap (.root r)) X O).bind fun p =>
      match p with | some v => .ok (.bit v) | none => defaultC op := by
    cases ho with
    | bv => exact (hno _ rfl).elim
    | @bit t c =>
      have hA : bitC op c (.bv X) = .ok none := by
        obtain ⟨h1, h2⟩ := hbit ⟨t, rfl⟩
        cases op <;> first | rfl | contradiction
      simp only [binC, fwdC, hX, hA, Bool.false_eq_true, if_false, ok_bind, bind, Except.bind]
      cases op.swap.fwd (COp.slot op.swap (.root r)) X _ with
      | error => rfl
      | ok p => cases p <;> rfl
    | _ =>
      simp only [binC, fwdC, hX, Bool.false_eq_true, if_false, ok_bind, bind]
      cases op.swap.fwd (COp.slot op.swap (.root r)) X _ with
      | error => rfl
      | ok p => cases p <;> rfl
  rw [hbin]
  rcases fwdC_rel S (r := r) op.swap hx hn ho hf with ⟨a, b, h1, h2, h3⟩ | ⟨h1, h2⟩ | ⟨err, h1, h2⟩
  · simp only [scmpRight, h1, ok_bind, h2]; exact h3
  · simp only [scmpRight, h1, ok_bind, h2]; exact default_rel e op
  · simp only [scmpRight, h1, h2]; rfl

/-- **C75** comparisons of two vectors of predefined classes, of any widths. -/
theorem C75_compare_vectors {e : Env} {r r' : Root} {x y : SBV} {X Y : BVal} (op : COp)
    (hk : x.kind = .root r) (hk' : y.kind = .root r')
    (hx : Den e x X) (hy : Den e y Y) (hn : 0 < x.size) (hm : 0 < y.size) :
    RelM (DenCmp e) (scmpVec S op r r' x y) (binC op (.bv X) (.bv Y)) := by
  have hX : X.kind = .root r := by have := hx.1; rw [hk] at this; exact this
  have hY : Y.kind = .root r' := by have := hy.1; rw [hk'] at this; exact this
  have hs : X.size = x.size := hx.2.1
  have hs' : Y.size = y.size := hy.2.1
  have hcond := properSub_root hX hY
  rw [hs, hs'] at hcond
  unfold binC scmpVec
  by_cases hc : ¬ (r = r' ∧ x.size = y.size) ∧ y.size = x.size ∧ r'.isSub r
  · rw [if_pos hc]
    simp only [hcond.2 hc, if_true, fwdC]
    rw [hX, hY]
    rcases fwdC_rel S (r := r') op.swap hy hm (.bv hx) trivial with ⟨a, b, h1, h2, h3⟩ | ⟨h1, h2⟩ | ⟨err, h1, h2⟩
    · simp only [h1, h2, ok_bind]; exact h3
    · simp only [h1, h2, ok_bind]
      rcases fwdC_rel S (r := r) op hx hn (.bv hy) trivial with ⟨a, b, g1, g2, g3⟩ | ⟨g1, g2⟩ | ⟨err, g1, g2⟩
      · simp only [g1, g2, ok_bind]; exact g3
      · simp only [g1, g2, ok_bind]; exact default_rel e op
      · simp only [g1, g2]; rfl
    · simp only [h1, h2]; rfl
  · rw [if_neg hc]
    have hc' : Y.properSub X = false := by
      rw [← Bool.not_eq_true]; exact fun h => hc (hcond.1 h)
    simp only [hc', Bool.false_eq_true, if_false, fwdC]
    rw [hX, hY]
    rcases fwdC_rel S (r := r) op hx hn (.bv hy) trivial with ⟨a, b, h1, h2, h3⟩ | ⟨h1, h2⟩ | ⟨err, h1, h2⟩
    · simp only [h1, h2, ok_bind]; exact h3
    · simp only [h1, h2, ok_bind]
      rcases fwdC_rel S (r := r') op.swap hy hm (.bv hx) trivial with ⟨a, b, g1, g2, g3⟩ | ⟨g1, g2⟩ | ⟨err, g1, g2⟩
      · simp only [g1, g2, ok_bind]; exact g3
      · simp only [g1, g2, ok_bind]; exact default_rel e op
      · simp only [g1, g2]; rfl
    · simp only [h1, h2]; rfl

example : svecRight noSimp .sub .bv (.int 5) symX = .ok ⟨.root .bv, 8, .bin .bvsub (.bvC 5 8) (.sym ['x'] (.bv 8))⟩ := by
  decide
example : scmpVec noSimp .lt .bv .sint symX ⟨.root .sint, 8, .sym ['y'] (.bv 8)⟩ =
    .ok (.sym (.bin .bvslt (.sym ['x'] (.bv 8)) (.sym ['y'] (.bv 8)))) := by decide

/-! ## C43 -/

mutual
/-- Boolean meaning of a formula. -/
inductive FMeans (e : Env) : Formula → Bool → Prop
  | bit {t b} : DenBit e t b → FMeans e (.bit t) b
  | and {l bs} : FsMean e l bs → FMeans e (.and l) (bs.all id)
  | or {l bs} : FsMean e l bs → FMeans e (.or l) (bs.any id)
  | implies {p q a b} : FMeans e p a → FMeans e q b → FMeans e (.implies p q) (!a || b)
inductive FsMean (e : Env) : List Formula → List Bool → Prop
  | nil : FsMean e [] []
  | cons {f l b bs} : FMeans e f b → FsMean e l bs → FsMean e (f :: l) (b :: bs)
end

section
variable {S : Simplifier} {e : Env}

theorem bitBin_den {a b : Term} {A B : Bool} (ha : DenBit e a A) (hb : DenBit e b B) (op : BitOp) :
    ∃ t, bitBin S op a b = .ok t ∧ DenBit e t (op.meaning A B) := by
  obtain ⟨t, h1, h2⟩ := C74_left S ha (.bit hb) op
  exact ⟨t, by simp only [bitBin, h1, ok_bind]; rfl, h2⟩

theorem reduce_den (op : BitOp) : ∀ {acc : Term} {A : Bool} {l : List Term} {bs : List Bool}, DenBit e acc A →
    List.Forall₂ (DenBit e) l bs → ∃ t, reduceBits S op acc l = .ok t ∧ DenBit e t (bs.foldl op.meaning A)
  | acc, A, [], [], h, .nil => ⟨acc, rfl, h⟩
  | acc, A, t :: l, b :: bs, h, .cons hb hl => by
    obtain ⟨u, h1, h2⟩ := bitBin_den (S := S) h hb op
    obtain ⟨v, g1, g2⟩ := reduce_den op h2 hl
    exact ⟨v, by simp only [reduceBits, h1, ok_bind, g1], g2⟩

theorem foldl_and (A : Bool) (bs : List Bool) : bs.foldl (BitOp.meaning .and) A = (A :: bs).all id := by
  induction bs generalizing A with
  | nil => simp
  | cons b bs ih => rw [List.foldl_cons, ih]; simp [BitOp.meaning, Bool.and_assoc]
theorem foldl_or (A : Bool) (bs : List Bool) : bs.foldl (BitOp.meaning .or) A = (A :: bs).any id := by
  induction bs generalizing A with
  | nil => simp
  | cons b bs ih => rw [List.foldl_cons, ih]; simp [BitOp.meaning, Bool.or_assoc]

mutual
theorem toHw_den : ∀ {f : Formula} {b : Bool}, FMeans e f b → ∃ t, f.toHw S = .ok t ∧ DenBit e t b
  | _, _, .bit h => ⟨_, rfl, h⟩
  | _, _, .and (l := l) (bs := bs) h => by
    obtain ⟨ts, h1, h2⟩ := toHws_den h
    cases h2 with
    | nil => exact ⟨S.run (.boolC true), by simp only [Formula.toHw, h1, ok_bind]; rfl, S.eval _ _ _ rfl⟩
    | @cons t b ts bs hb hl =>
      obtain ⟨u, g1, g2⟩ := reduce_den (S := S) .and hb hl
      rw [foldl_and] at g2
      exact ⟨u, by simp only [Formula.toHw, h1, ok_bind]; exact g1, g2⟩
  | _, _, .or (l := l) (bs := bs) h => by
    obtain ⟨ts, h1, h2⟩ := toHws_den h
    cases h2 with
    | nil => exact ⟨S.run (.boolC false), by simp only [Formula.toHw, h1, ok_bind]; rfl, S.eval _ _ _ rfl⟩
    | @cons t b ts bs hb hl =>
      obtain ⟨u, g1, g2⟩ := reduce_den (S := S) .or hb hl
      rw [foldl_or] at g2
      exact ⟨u, by simp only [Formula.toHw, h1, ok_bind]; exact g1, g2⟩
  | _, _, .implies (p := p) (q := q) (a := a) (b := b) hp hq => by
    obtain ⟨t, h1, h2⟩ := toHw_den hp
    obtain ⟨u, g1, g2⟩ := toHw_den hq
    obtain ⟨n, k1, k2⟩ := C74_invert S h2
    obtain ⟨r, j1, j2⟩ := bitBin_den (S := S) k2 g2 .or
    exact ⟨r, by simp only [Formula.toHw, h1, ok_bind, k1, g1, j1], j2⟩
theorem toHws_den : ∀ {l : List Formula} {bs : List Bool}, FsMean e l bs →
    ∃ ts, Formula.toHws S l = .ok ts ∧ List.Forall₂ (DenBit e) ts bs
  | _, _, .nil => ⟨[], rfl, .nil⟩
  | _, _, .cons hf hl => by
    obtain ⟨t, h1, h2⟩ := toHw_den hf
    obtain ⟨ts, g1, g2⟩ := toHws_den hl
    exact ⟨t :: ts, by simp only [Formula.toHws, h1, ok_bind, g1]; rfl, .cons h2 g2⟩
end
end

/-- **C43** `to_hwtypes()` of a formula nested in any way has its Boolean meaning. -/
theorem C43_to_hwtypes {e : Env} {f : Formula} {b : Bool} (h : FMeans e f b) :
    ∃ t, f.toHw S = .ok t ∧ DenBit e t b := toHw_den h

mutual
/-- All leaves are bits. -/
def Smt.Formula.wellSorted : Formula → Prop
  | .bit t => t.ty? = some .bool
  | .and l => Formula.allWellSorted l
  | .or l => Formula.allWellSorted l
  | .implies p q => p.wellSorted ∧ q.wellSorted
def Smt.Formula.allWellSorted : List Formula → Prop
  | [] => True
  | f :: l => f.wellSorted ∧ Formula.allWellSorted l
end

mutual
theorem means_total (e : Env) : ∀ {f : Formula}, Formula.wellSorted f → ∃ b, FMeans e f b
  | .bit t, h => by
    obtain ⟨v, hv, hty⟩ := ty_eval e h
    cases v with
    | bool b => exact ⟨b, .bit hv⟩
    | int _ => cases hty
    | bv _ _ => cases hty
  | .and l, h => by obtain ⟨bs, hb⟩ := means_totals e (l := l) h; exact ⟨_, .and hb⟩
  | .or l, h => by obtain ⟨bs, hb⟩ := means_totals e (l := l) h; exact ⟨_, .or hb⟩
  | .implies p q, h => by
    obtain ⟨a, ha⟩ := means_total e h.1
    obtain ⟨b, hb⟩ := means_total e h.2
    exact ⟨_, .implies ha hb⟩
theorem means_totals (e : Env) : ∀ {l : List Formula}, Formula.allWellSorted l → ∃ bs, FsMean e l bs
  | [], _ => ⟨[], .nil⟩
  | f :: l, h => by
    obtain ⟨b, hb⟩ := means_total e h.1
    obtain ⟨bs, hbs⟩ := means_totals e h.2
    exact ⟨b :: bs, .cons hb hbs⟩
end

/-- **C43** every formula over bits has a meaning under every assignment (so `C43_to_hwtypes` speaks
about all of them). -/
theorem C43_total (e : Env) {f : Formula} (h : Formula.wellSorted f) : ∃ b, FMeans e f b := means_total e h

/-- **C43 (partial)**: full claim: `And(it)`, `Or(it)` keep every item of any iterable.  Proved for
lists and other iterables that can be iterated twice; anything that is not a formula or a bit raises
`ValueError`. -/
theorem C43_constructor_partial (l : List FArg) :
    (FArg.bad ∈ l → mkAnd (.list l) = .error .valueError ∧ mkOr (.list l) = .error .valueError) ∧
    (∀ fs : List Formula, mkAnd (.list (fs.map .ok)) = .ok (.and fs) ∧ mkOr (.list (fs.map .ok)) = .ok (.or fs)) := by
  constructor
  · intro h
    have : l.any FArg.isBad = true := by
      rw [List.any_eq_true]; exact ⟨_, h, rfl⟩
    constructor <;> simp only [mkAnd, mkOr, checkList, this, if_true] <;> rfl
  · intro fs
    have h1 : (fs.map FArg.ok).any FArg.isBad = false := by simp [FArg.isBad]
    have h2 : (fs.map FArg.ok).filterMap FArg.formula? = fs := by
      rw [List.filterMap_map]; exact List.filterMap_some
    constructor <;> simp only [mkAnd, mkOr, checkList, h1, Bool.false_eq_true, if_false, h2] <;> rfl

/-- **C43** `Implies(p, q)` of two formulas or bits; anything else raises `ValueError`. -/
theorem C43_implies (p q : FArg) : mkImplies p q = match p.formula?, q.formula? with
    | some a, some b => .ok (.implies a b)
    | _, _ => .error .valueError := by
  cases p <;> cases q <;> rfl

/-- **C43 refuted** for one-shot iterators: the argument check consumes them, so the conjunction of
any bits given by a generator is `True` (and the disjunction `False`). -/
theorem C43_generator_refuted (fs : List Formula) (e : Env) :
    mkAnd (.once (fs.map .ok)) = .ok (.and []) ∧ mkOr (.once (fs.map .ok)) = .ok (.or []) ∧
    FMeans e (.and []) true ∧ FMeans e (.or []) false := by
  have h1 : (fs.map FArg.ok).any FArg.isBad = false := by simp [FArg.isBad]
  refine ⟨?_, ?_, .and .nil, .or .nil⟩ <;>
    simp only [mkAnd, mkOr, checkList, h1, Bool.false_eq_true, if_false] <;> rfl

example : FMeans env200 (.implies (.and [.bit (.boolC true), .or []]) (.bit (.boolC false)))
    (!([true, [].any id].all id) || false) :=
  .implies (.and (.cons (.bit (by unfold DenBit; rfl)) (.cons (.or .nil) .nil))) (.bit (by unfold DenBit; rfl))

end HW
