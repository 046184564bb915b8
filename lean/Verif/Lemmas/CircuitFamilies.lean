import Verif.Lemmas.Circuit
import Verif.Props.SmtBit
import Verif.Props.SmtStruct
import Verif.Props.Z3Ops
import Verif.Props.Z3Ite

/-!
The methods of the two symbolic families, as circuits use them, denote those of the concrete family.
-/

namespace HW.Circuit
open Spec

/-! ## The SMT family -/

section
open Smt
variable {e : Smt.Env} {S : Simplifier}

/-- The vector `x` denotes `X`; its class is one of the four predefined ones, of positive width. -/
def SVec (e : Smt.Env) (x : SBV) (X : BVal) : Prop := Smt.Den e x X ∧ (∃ r, x.kind = .root r) ∧ 0 < x.size

theorem bind_ok {α β : Type} {m : PyM α} {f : α → PyM β} {b : β} (h : (m >>= f) = .ok b) :
    ∃ a, m = .ok a ∧ f a = .ok b := by
  cases m with
  | error => cases h
  | ok a => exact ⟨a, rfl, h⟩

theorem bvF_inv {k : SKind} {n : Nat} {t : Term} {s : SBV} (h : bvF S k n t = .ok s) : s.kind = k ∧ s.size = n := by
  unfold bvF at h
  split at h
  · cases h; exact ⟨rfl, rfl⟩
  · cases h

theorem sBin_inv {op : Bin} {x y : SBV} {o : SObj} (h : sBin S op x o = .ok y) (hn : 0 < x.size) :
    y.kind = x.kind ∧ 0 < y.size := by
  cases op
  case comp =>
    obtain ⟨z, -, h⟩ := bind_ok h
    obtain ⟨t, -, h⟩ := bind_ok h
    obtain ⟨h1, h2⟩ := bvF_inv h
    exact ⟨h1, by omega⟩
  all_goals
    obtain ⟨z, -, h⟩ := bind_ok h
    obtain ⟨t, -, h⟩ := bind_ok h
    obtain ⟨h1, h2⟩ := bvF_inv h
    exact ⟨h1, by omega⟩

theorem bvExtract_inv {t v : Term} {a b : Int} (h : bvExtract t a b = .ok v) : ∃ w, v.ty? = some (.bv w) ∧ 0 < w := by
  unfold bvExtract at h
  split at h
  · rename_i w ht
    by_cases hc : a ≤ b ∧ 0 ≤ a ∧ b < w
    · rw [if_pos hc] at h
      cases h
      exact ⟨b.toNat - a.toNat + 1, by simp only [Term.ty?, ht, Option.bind_some, UOp.ty?]; rw [if_pos (by omega)], by omega⟩
    · rw [if_neg hc] at h; cases h
  · cases h

theorem getSlice_inv {x y : SBV} {s : PySlice} (h : x.getSlice S s = .ok y) : y.kind = x.kind ∧ 0 < y.size := by
  unfold SBV.getSlice at h
  dsimp only at h
  by_cases hs : s.step.getD 1 ≠ 1
  · rw [if_pos hs] at h; cases h
  · rw [if_neg hs] at h
    obtain ⟨v, hv, h⟩ := bind_ok h
    obtain ⟨w, hw, hp⟩ := bvExtract_inv hv
    rw [hw] at h
    obtain ⟨h1, h2⟩ := bvF_inv h
    exact ⟨h1, by omega⟩

theorem At_root {k : SKind} {r : Root} (h : k.At e (.root r)) : k = .root r := by
  cases k with
  | root q => cases h; rfl
  | poly => obtain ⟨T, F, b, -, -, -, h⟩ := h; cases h

theorem smtP {α β : Type} {R : α → β → Prop} {m : PyM α} {M : PyM β} (h : RelM R m M) : RelP (· = ·) R m M := by
  cases m <;> cases M <;> exact h

theorem toVec {m : PyM SBV} {M : PyM BVal} (h : RelM (Smt.Den e) m M) {r : Root}
    (hk : ∀ y, m = .ok y → y.kind = .root r ∧ 0 < y.size) : RelP (· = ·) (SVec e) m M :=
  (smtP (h.with_left hk)).mono fun _ _ h => ⟨h.1, ⟨r, h.2.1⟩, h.2.2⟩

theorem sOpnd {o : Opnd SBV Term} {p : Opnd BVal Bool} (h : OpndRel (SVec e) (Smt.DenBit e) o p) :
    Smt.DenObj e (sObj o) (cObj p) ∧ ∀ n, SObj.Fits n (sObj o) := by
  cases h with
  | vec h => exact ⟨.bv h.1, fun _ => trivial⟩
  | bit h => exact ⟨.bit h, fun _ => trivial⟩
  | int => exact ⟨.int, fun _ => trivial⟩

theorem sBin_hom (op : Bin) : HomV (sBin S op) (cBin op) := by
  cases op
  exacts [C34_bvand S, C34_bvor S, C34_bvxor S, C34_bvnand S, C34_bvnor S, C34_bvxnor S, C34_bvshl S, C34_bvlshr S,
    C34_bvashr S, C34_bvadd S, C34_bvsub S, C34_bvmul S, C34_bvudiv S, C34_bvurem S, C34_bvcomp S]

theorem sCmp_hom (op : Cmp) : HomB (sCmp S op) (cCmp op) := by
  cases op
  exacts [C34_bveq S, C34_bvne S, C34_bvult S, C34_bvule S, C34_bvugt S, C34_bvuge S, C34_bvslt S, C34_bvsle S,
    C34_bvsgt S, C34_bvsge S]

theorem SVec.kind {x : SBV} {X : BVal} (h : SVec e x X) {r : Root} (hr : x.kind = .root r) : X.kind = .root r := by
  have := h.1.1
  rw [hr] at this
  exact this

theorem cBitOp_eq (op : BitOp) (A B : Bool) : cBitOp op A B = .ok (op.meaning A B) := by
  obtain ⟨h1, h2, h3, h4, h5⟩ := C74_concrete A B 0
  cases op <;> simp only [cBitOp, h1, h2, h3, h4, h5] <;> rfl

theorem iteBV_eq (c : Bool) {X Y : BVal} (hX : X.WF) (hY : Y.WF) (hk : X.kind = Y.kind) (hn : X.size = Y.size) :
    (iteBV c X Y 0).map Prod.fst = .ok (if c then X else Y) := by
  obtain ⟨k, i, h1, h2⟩ := C27_vec c hX hY hn 0
  rw [if_pos hk] at h2
  subst h2
  simp only [iteBV, bind, StateT.bind, h1, Except.bind, pure, StateT.pure, Except.pure, Except.map]
  obtain ⟨K, n, v⟩ := X
  obtain ⟨K', n', v'⟩ := Y
  dsimp only at hk hn ⊢
  subst hk hn
  cases c <;> rfl

theorem sBit_rel (op : BitOp) {a b : Term} {A B : Bool} (ha : Smt.DenBit e a A) (hb : Smt.DenBit e b B) :
    RelP (· = ·) (Smt.DenBit e) (bitBin S op a b) (cBitOp op A B) := by
  obtain ⟨t, h1, h2⟩ := C74_left S ha (.bit hb) op
  rw [cBitOp_eq, bitBin, h1]
  exact h2

theorem sMux_rel {c : Term} {C : Bool} {x y : SBV} {X Y : BVal} (hc : Smt.DenBit e c C) (hx : SVec e x X) (hy : SVec e y Y)
    (hs : X.kind = Y.kind ∧ X.size = Y.size) :
    RelP (· = ·) (SVec e) (sMux S c x y) ((iteBV C X Y 0).map Prod.fst) := by
  obtain ⟨⟨r, hr⟩, hn⟩ := hx.2
  obtain ⟨⟨q, hq⟩, hm⟩ := hy.2
  have hk : x.kind = y.kind := by
    have := hs.1
    rw [hx.kind hr, hy.kind hq] at this
    rw [hr, hq]
    cases this; rfl
  have hsz : x.size = y.size := by rw [← hx.1.2.1, ← hy.1.2.1, hs.2]
  obtain ⟨z, h1, h2⟩ := C38_selects S hc hx.1 hy.1 hk hsz 0
  rw [iteBV_eq C hx.1.WF hy.1.WF hs.1 hs.2]
  unfold sMux
  simp only [h1, bind, Except.bind, pure, Except.pure]
  refine ⟨h2, ⟨r, ?_⟩, ?_⟩
  · refine At_root (e := e) ?_
    have := h2.1
    cases C
    · rw [← hx.kind hr, hs.1]; exact this
    · rw [← hx.kind hr]; exact this
  · rw [← h2.2.1]
    cases C
    · exact hy.1.2.1 ▸ hm
    · exact hx.1.2.1 ▸ hn

theorem smtM_inv {op : AOp} {r : Root} {x y : SBV} {o : SObj} (h : AOp.smtM S op r x o = .ok y) (hn : 0 < x.size) :
    y.kind = x.kind ∧ 0 < y.size := by
  have key : ∀ b : BOp, SBV.bin S b x o = .ok y → y.kind = x.kind ∧ 0 < y.size := by
    intro b h
    obtain ⟨z, -, h⟩ := bind_ok h
    obtain ⟨t, -, h⟩ := bind_ok h
    obtain ⟨h1, h2⟩ := bvF_inv h
    exact ⟨h1, by omega⟩
  unfold AOp.smtM at h
  split at h
  · cases op <;> exact key _ h
  · cases op <;> exact key _ h

theorem sfwdA_inv {op : AOp} {r : Root} {x y : SBV} {o : SObj} (h : sfwdA S op r x o = .ok (some y)) (hn : 0 < x.size) :
    y.kind = x.kind ∧ 0 < y.size := by
  unfold sfwdA tryOper at h
  split at h
  · rename_i v hv
    cases h
    exact smtM_inv hv hn
  all_goals cases h

theorem svecLeft_inv {op : AOp} {r : Root} {x y : SBV} {o : SObj} (h : svecLeft S op r x o = .ok y) (hn : 0 < x.size) :
    y.kind = x.kind ∧ 0 < y.size := by
  obtain ⟨z, hz, h⟩ := bind_ok h
  cases z with
  | none => cases h
  | some z => cases h; exact sfwdA_inv hz hn

theorem svecVec_inv {op : AOp} {r : Root} {x y z : SBV} (hs : x.size = y.size) (h : svecVec S op r r x y = .ok z)
    (hn : 0 < x.size) : z.kind = x.kind ∧ 0 < z.size := by
  unfold svecVec at h
  rw [if_neg (by simp [hs])] at h
  obtain ⟨v, hv, h⟩ := bind_ok h
  cases v with
  | none => simp [hs] at h
  | some v => cases h; exact sfwdA_inv hv hn

theorem resVec {m : PyM SBV} {X : BVal} {op : AOp} {O : Obj} (h : RelM (DenRes e 0) m (binA op (.bv X) O 0)) {r : Root}
    (hk : ∀ y, m = .ok y → y.kind = .root r ∧ 0 < y.size) : RelP (· = ·) (SVec e) m (cOpA op X O) := by
  unfold cOpA
  cases m with
  | error =>
    cases hb : binA op (.bv X) O 0 with
    | error => rw [hb] at h; exact h
    | ok => rw [hb] at h; exact h.elim
  | ok y =>
    cases hb : binA op (.bv X) O 0 with
    | error => rw [hb] at h; exact h.elim
    | ok V =>
      rw [hb] at h
      obtain ⟨V, rfl, hd⟩ := h
      exact ⟨hd, ⟨r, (hk y rfl).1⟩, (hk y rfl).2⟩

theorem resBit {m : PyM IRes} {X : BVal} {op : COp} {O : Obj} (h : RelM (DenCmp e) m (binC op (.bv X) O)) :
    RelP (· = ·) (Smt.DenBit e) (m >>= iBit) (cOpC op X O) := by
  unfold cOpC
  cases m with
  | error =>
    cases hb : binC op (.bv X) O with
    | error => rw [hb] at h; exact h
    | ok => rw [hb] at h; exact h.elim
  | ok y =>
    cases hb : binC op (.bv X) O with
    | error => rw [hb] at h; exact h.elim
    | ok V =>
      rw [hb] at h
      cases y <;> cases V <;> first | exact h | exact h.elim | exact rfl

theorem sOpA_rel (op : AOp) {x : SBV} {X : BVal} {o : Opnd SBV Term} {p : Opnd BVal Bool} (hx : SVec e x X)
    (ho : OpndRel (SVec e) (Smt.DenBit e) o p) (hf : fitsOp concrete X p = true)
    (hd : ¬ (decide (X.kind = .root .sint) = true ∧ (op = .fdiv ∨ op = .mod))) :
    RelP (· = ·) (SVec e) (sOpA S op x (sObj o)) (cOpA op X (cObj p)) := by
  obtain ⟨⟨r, hr⟩, hn⟩ := hx.2
  have hX := hx.kind hr
  have hop : ¬ (r = .sint ∧ (op = .fdiv ∨ op = .mod)) := by
    rintro ⟨rfl, h⟩
    exact hd ⟨decide_eq_true hX, h⟩
  obtain ⟨h1, h2⟩ := sOpnd ho
  unfold sOpA
  rw [hr]
  cases ho with
  | @vec y Y hy =>
    obtain ⟨⟨q, hq⟩, hm⟩ := hy.2
    have hs : X.kind = Y.kind ∧ X.size = Y.size := of_decide_eq_true hf
    have : r = q := by
      have := hs.1
      rw [hX, hy.kind hq] at this
      cases this; rfl
    subst this
    have hsz : x.size = y.size := by rw [← hx.1.2.1, ← hy.1.2.1, hs.2]
    simp only [sObj, cObj, hq]
    refine resVec (r := r) (C75_vectors S op 0 (by simpa using hop) hr hq hx.1 hy.1 hn hm) fun z hz => ?_
    rw [← hr]
    exact svecVec_inv hsz hz hn
  | bit hb =>
    refine resVec (r := r) (C75_left S op 0 hop hr hx.1 hn h1 (h2 _) nofun) fun z hz => ?_
    rw [← hr]
    exact svecLeft_inv hz hn
  | int =>
    refine resVec (r := r) (C75_left S op 0 hop hr hx.1 hn h1 (h2 _) nofun) fun z hz => ?_
    rw [← hr]
    exact svecLeft_inv hz hn

theorem sOpC_rel (op : COp) {x : SBV} {X : BVal} {o : Opnd SBV Term} {p : Opnd BVal Bool} (hx : SVec e x X)
    (ho : OpndRel (SVec e) (Smt.DenBit e) o p) : RelP (· = ·) (Smt.DenBit e) (sOpC S op x (sObj o)) (cOpC op X (cObj p)) := by
  obtain ⟨⟨r, hr⟩, hn⟩ := hx.2
  obtain ⟨h1, h2⟩ := sOpnd ho
  unfold sOpC
  rw [hr]
  cases ho with
  | @vec y Y hy =>
    obtain ⟨⟨q, hq⟩, hm⟩ := hy.2
    simp only [sObj, cObj, hq]
    exact resBit (C75_compare_vectors S op hr hq hx.1 hy.1 hn hm)
  | bit hb => exact resBit (C75_compare_left S op hr hx.1 hn h1 (h2 _) nofun)
  | int => exact resBit (C75_compare_left S op hr hx.1 hn h1 (h2 _) nofun)

/-- The methods of the symbolic family denote those of the concrete one. -/
theorem smt_sim (e : Smt.Env) (S : Simplifier) : Sim (smt S) concrete (· = ·) (SVec e) (Smt.DenBit e) where
  refl _ := rfl
  size h := h.1.2.1.symm
  sameClass := by
    intro x X y Y hx hy
    obtain ⟨⟨r, hr⟩, hn⟩ := hx.2
    obtain ⟨⟨q, hq⟩, hm⟩ := hy.2
    change decide (x.kind = y.kind ∧ x.size = y.size) = decide (X.kind = Y.kind ∧ X.size = Y.size)
    rw [hx.kind hr, hy.kind hq, hr, hq, hx.1.2.1, hy.1.2.1]
    simp
  const := by
    intro r n v hn
    refine toVec (r := r) (C36_construct S hn (k := .root r) (K := .root r) rfl (.int (v := v)) trivial) ?_
    intro y hy
    change (do bvF S (.root r) n (← Smt.mkBV (v % 2 ^ n) n)) = .ok y at hy
    obtain ⟨t, -, h⟩ := bind_ok hy
    obtain ⟨h1, h2⟩ := bvF_inv h
    exact ⟨h1, by omega⟩
  un := by
    intro op x X hx
    obtain ⟨⟨r, hr⟩, hn⟩ := hx.2
    cases op
    · refine toVec (r := r) (C34_bvnot S hx.1) fun y hy => ?_
      obtain ⟨t, -, h⟩ := bind_ok hy
      obtain ⟨h1, h2⟩ := bvF_inv h
      exact ⟨h1.trans hr, by omega⟩
    · refine toVec (r := r) (C34_bvneg S hx.1) fun y hy => ?_
      obtain ⟨t, -, h⟩ := bind_ok hy
      obtain ⟨h1, h2⟩ := bvF_inv h
      exact ⟨h1.trans hr, by omega⟩
  bin := by
    intro op x X o p hx ho
    obtain ⟨⟨r, hr⟩, hn⟩ := hx.2
    obtain ⟨h1, h2⟩ := sOpnd ho
    refine toVec (r := r) (sBin_hom op e _ _ _ _ hx.1 h1 hn (h2 _)) fun y hy => ?_
    rw [← hr]
    exact sBin_inv hy hn
  cmp := by
    intro op x X o p hx ho
    obtain ⟨h1, h2⟩ := sOpnd ho
    exact smtP (sCmp_hom op e _ _ _ _ hx.1 h1 hx.2.2 (h2 _))
  rol := by
    intro x X k hx h0 h1
    obtain ⟨⟨r, hr⟩, hn⟩ := hx.2
    have := C73_rotate_int S hx.1 hn k
    rw [if_pos ⟨h0, by have := hx.1.2.1; change k ≤ (X.size : Int) at h1; omega⟩] at this
    refine toVec (r := r) this.1 fun y hy => ?_
    obtain ⟨t, -, h⟩ := bind_ok hy
    obtain ⟨t, -, h⟩ := bind_ok h
    obtain ⟨h1, h2⟩ := bvF_inv h
    exact ⟨h1.trans hr, by omega⟩
  ror := by
    intro x X k hx h0 h1
    obtain ⟨⟨r, hr⟩, hn⟩ := hx.2
    have := C73_rotate_int S hx.1 hn k
    rw [if_pos ⟨h0, by have := hx.1.2.1; change k ≤ (X.size : Int) at h1; omega⟩] at this
    refine toVec (r := r) this.2 fun y hy => ?_
    obtain ⟨t, -, h⟩ := bind_ok hy
    obtain ⟨t, -, h⟩ := bind_ok h
    obtain ⟨h1, h2⟩ := bvF_inv h
    exact ⟨h1.trans hr, by omega⟩
  zext := by
    intro x X k hx
    obtain ⟨⟨r, hr⟩, hn⟩ := hx.2
    refine toVec (r := r) (C36_zext S hx.1 k) fun y hy => ?_
    change SBV.zext S x k = _ at hy
    unfold SBV.zext at hy
    split at hy
    · cases hy
    · obtain ⟨t, -, h⟩ := bind_ok hy
      obtain ⟨h1, h2⟩ := bvF_inv h
      exact ⟨h1.trans hr, by omega⟩
  sext := by
    intro x X k hx hk
    obtain ⟨⟨r, hr⟩, hn⟩ := hx.2
    refine toVec (r := r) (C36_sext S hx.1 hn k hk) fun y hy => ?_
    change SBV.sext S x k = _ at hy
    unfold SBV.sext at hy
    split at hy
    · cases hy
    · obtain ⟨t, -, h⟩ := bind_ok hy
      obtain ⟨h1, h2⟩ := bvF_inv h
      exact ⟨h1.trans hr, by omega⟩
  slice := by
    intro x X lo hi hx h0 h1 h2
    obtain ⟨⟨r, hr⟩, hn⟩ := hx.2
    have hs := hx.1.2.1
    change hi ≤ (X.size : Int) at h2
    have := C36_slice S hx.1 (some lo) (some hi)
    rw [if_pos (by
      simp only [sliceFrom, sliceTo]
      rw [if_neg (by omega), if_neg (by omega)]
      omega)] at this
    refine toVec (r := r) this fun y hy => ?_
    rw [← hr]
    exact getSlice_inv (S := S) (s := ⟨some lo, some hi, none⟩) hy
  index := by
    intro x X i hx
    exact smtP (C36_index S hx.1 i)
  concat := by
    intro x X y Y hx hy
    obtain ⟨⟨r, hr⟩, hn⟩ := hx.2
    obtain ⟨⟨q, hq⟩, hm⟩ := hy.2
    refine toVec (r := r) (C36_concat S hx.1 hy.1 ?_) fun z hz => ?_
    · intro h
      rw [hx.kind hr, hy.kind hq] at h
      rw [hr, hq]
      cases h; rfl
    · change SBV.concat S x y = _ at hz
      unfold SBV.concat at hz
      split at hz
      · cases hz
      · obtain ⟨t, -, h⟩ := bind_ok hz
        obtain ⟨h1, h2⟩ := bvF_inv h
        exact ⟨h1.trans hr, by omega⟩
  adc := by
    intro x X o p c d hx ho hc
    obtain ⟨⟨r, hr⟩, hn⟩ := hx.2
    obtain ⟨h1, h2⟩ := sOpnd ho
    obtain ⟨g1, g2⟩ := sOpnd hc
    refine (smtP ((C36_adc S hx.1 h1 g1 hn (h2 _) (g2 _)).with_left (P := fun z => z.1.kind = x.kind ∧ 0 < z.1.size) ?_)).mono
      fun _ _ h => ⟨⟨h.1.1, ⟨r, h.2.1.trans hr⟩, h.2.2⟩, h.1.2⟩
    intro z hz
    obtain ⟨o, -, hz⟩ := bind_ok hz
    obtain ⟨c, -, hz⟩ := bind_ok hz
    obtain ⟨a, ha, hz⟩ := bind_ok hz
    obtain ⟨b, -, hz⟩ := bind_ok hz
    obtain ⟨c', -, hz⟩ := bind_ok hz
    obtain ⟨s, hs, hz⟩ := bind_ok hz
    obtain ⟨t, ht, hz⟩ := bind_ok hz
    obtain ⟨u, hu, hz⟩ := bind_ok hz
    obtain ⟨v, -, hz⟩ := bind_ok hz
    cases hz
    have ka : a.kind = x.kind ∧ 0 < a.size := by
      unfold SBV.zext at ha
      rw [if_neg (by decide)] at ha
      obtain ⟨t, -, h⟩ := bind_ok ha
      obtain ⟨h1, h2⟩ := bvF_inv h
      exact ⟨h1, by omega⟩
    have ks := sBin_inv (op := .add) hs ka.2
    have kt := sBin_inv (op := .add) ht ks.2
    have ku := getSlice_inv hu
    exact ⟨by rw [ku.1, kt.1, ks.1, ka.1], ku.2⟩
  signed := by
    intro x X hx
    obtain ⟨⟨r, hr⟩, -⟩ := hx.2
    change decide (x.kind = _) = decide (X.kind = _)
    rw [hx.kind hr, hr]
    simp
  opA op _ _ _ _ hx ho hf hd := sOpA_rel op hx ho hf hd
  opC op _ _ _ _ hx ho _ := sOpC_rel op hx ho
  bit op _ _ _ _ ha hb := sBit_rel op ha hb
  bitNot := by
    intro a A ha
    obtain ⟨t, h1, h2⟩ := C74_invert S ha
    change RelP _ _ (bitInvert S a) (.ok (BVal.bitNot A))
    rw [h1]
    exact h2
  mux hc hx hy hs := sMux_rel hc hx hy (of_decide_eq_true hs)

end

/-! ## The z3 family -/

section
open Z3
open Smt (BitOp)
variable {e : Z3.Env}

/-- The z3 family raises a plain `TypeError` where the concrete one raises `InconsistentSizeError`. -/
def ZErr (a b : PyErr) : Prop := a = b ∨ (a = .typeError ∧ b = .inconsistentSize)

theorem z3P {α β : Type} {R : α → β → Prop} {m : PyM α} {M : PyM β} (h : RelE R m M) : RelP ZErr R m M := by
  cases m <;> cases M <;> exact h

theorem zOpnd {o : Opnd ZBV BoolE} {p : Opnd BVal Bool} (h : OpndRel (Z3.Den e) (Z3.DenBit e) o p) :
    Z3.DenObj e (zObj o) (cObj p) ∧ ∀ n, ZObj.Fits n (zObj o) := by
  cases h with
  | vec h => exact ⟨.bv h, fun _ => trivial⟩
  | bit h => exact ⟨.bit h, fun _ => trivial⟩
  | int => exact ⟨.int, fun _ => trivial⟩

theorem zBin_hom (op : Bin) : ZHomV (zBin op) (cBin op) := by
  cases op
  exacts [C92_bvand, C92_bvor, C92_bvxor, C92_bvnand, C92_bvnor, C92_bvxnor, C92_bvshl, C92_bvlshr,
    C92_bvashr, C92_bvadd, C92_bvsub, C92_bvmul, C92_bvudiv, C92_bvurem, C92_bvcomp]

theorem zCmp_hom (op : Cmp) : ZHomB (zCmp op) (cCmp op) := by
  cases op
  exacts [C92_bveq, C92_bvne, C92_bvult, C92_bvule, C92_bvugt, C92_bvuge, C92_bvslt, C92_bvsle, C92_bvsgt, C92_bvsge]

theorem zBit_rel (op : BitOp) {a b : BoolE} {A B : Bool} (ha : Z3.DenBit e a A) (hb : Z3.DenBit e b B) :
    RelP ZErr (Z3.DenBit e) (zBitBin op a b) (cBitOp op A B) := by
  rw [cBitOp_eq]
  have ha : a e = A := ha
  have hb : b e = B := hb
  cases op <;> simp only [zBitBin, zBinA, zBinC, zBitC, zBitOp, mkZBit, bind, Except.bind, pure, Except.pure] <;>
    simp only [RelP, Z3.DenBit, ha, hb] <;> cases A <;> cases B <;> rfl

theorem zMux_rel {c : BoolE} {C : Bool} {x y : ZBV} {X Y : BVal} (hc : Z3.DenBit e c C) (hx : Z3.Den e x X)
    (hy : Z3.Den e y Y) (hs : X.kind = Y.kind ∧ X.size = Y.size) :
    RelP ZErr (Z3.Den e) (zIte c (.bv x) (.bv y)) ((iteBV C X Y 0).map Prod.fst) := by
  rw [iteBV_eq C hx.WF hy.WF hs.1 hs.2]
  have hk := hs.1
  rw [hx.1, hy.1] at hk
  have hn := hs.2
  rw [hx.2.1, hy.2.1] at hn
  obtain ⟨z, h1, h2, -⟩ := C96_select hc hx hy (by injection hk with hk; exact hk.symm) hn.symm 0
  rw [h1]
  exact h2

theorem zresVec {m : PyM ZRes} {X : BVal} {op : AOp} {O : Obj} (h : RelE (ZDenRes e 0) m (binA op (.bv X) O 0)) :
    RelP ZErr (Z3.Den e) (m >>= fun | .bv z => .ok z | .bit _ => .error .typeError) (cOpA op X O) := by
  unfold cOpA
  cases m with
  | error =>
    cases hb : binA op (.bv X) O 0 with
    | error => rw [hb] at h; exact h
    | ok => rw [hb] at h; exact h.elim
  | ok y =>
    cases hb : binA op (.bv X) O 0 with
    | error => rw [hb] at h; exact h.elim
    | ok V =>
      rw [hb] at h
      obtain ⟨V, j⟩ := V
      cases y <;> cases V <;> first | exact h.1 | exact h.elim | exact Or.inl rfl

theorem zresBit {m : PyM BoolE} {X : BVal} {op : COp} {O : Obj} (h : RelE (ZDenCmp e) m (binC op (.bv X) O)) :
    RelP ZErr (Z3.DenBit e) m (cOpC op X O) := by
  unfold cOpC
  cases m with
  | error =>
    cases hb : binC op (.bv X) O with
    | error => rw [hb] at h; exact h
    | ok => rw [hb] at h; exact h.elim
  | ok y =>
    cases hb : binC op (.bv X) O with
    | error => rw [hb] at h; exact h.elim
    | ok V =>
      rw [hb] at h
      cases V <;> exact h

theorem zOpA_rel (op : AOp) {x : ZBV} {X : BVal} {o : Opnd ZBV BoolE} {p : Opnd BVal Bool} (hx : Z3.Den e x X)
    (ho : OpndRel (Z3.Den e) (Z3.DenBit e) o p) (hf : fitsOp concrete X p = true)
    (hd : ¬ (decide (X.kind = .root .sint) = true ∧ (op = .fdiv ∨ op = .mod))) :
    RelP ZErr (Z3.Den e) (zOpA op x (zObj o)) (cOpA op X (cObj p)) := by
  have hop : ¬ (x.root = .sint ∧ op = .fdiv) := by
    rintro ⟨h1, h2⟩
    exact hd ⟨decide_eq_true (by rw [hx.1, h1]), .inl h2⟩
  obtain ⟨h1, h2⟩ := zOpnd ho
  cases ho with
  | @vec y Y hy =>
    have hs : X.kind = Y.kind ∧ X.size = Y.size := of_decide_eq_true hf
    have hk := hs.1
    rw [hx.1, hy.1] at hk
    injection hk with hk
    refine zresVec (C95_vectors_partial op 0 hx hy hop fun _ => ?_)
    rw [← hk]
    unfold sameReading
    cases x.root <;> simp
  | bit hb => exact zresVec (C95_right op 0 hx h1 (h2 _) nofun hop)
  | int => exact zresVec (C95_right op 0 hx h1 (h2 _) nofun hop)

theorem zOpC_rel (op : COp) {x : ZBV} {X : BVal} {o : Opnd ZBV BoolE} {p : Opnd BVal Bool} (hx : Z3.Den e x X)
    (ho : OpndRel (Z3.Den e) (Z3.DenBit e) o p) : RelP ZErr (Z3.DenBit e) (zBinC op (.bv x) (zObj o)) (cOpC op X (cObj p)) := by
  obtain ⟨h1, h2⟩ := zOpnd ho
  cases ho with
  | vec hy => exact zresBit (C95_compare op hx hy)
  | bit hb => exact zresBit (C95_compare_right op hx h1 (h2 _) nofun nofun)
  | int => exact zresBit (C95_compare_right op hx h1 (h2 _) nofun nofun)

/-- The methods of the z3 family denote those of the concrete one. -/
theorem z3_sim (e : Z3.Env) : Sim z3 concrete ZErr (Z3.Den e) (Z3.DenBit e) where
  refl _ := .inl rfl
  size h := h.2.1.symm
  sameClass := by
    intro x X y Y hx hy
    change decide (x.root = y.root ∧ x.size = y.size) = decide (X.kind = Y.kind ∧ X.size = Y.size)
    rw [hx.1, hy.1, hx.2.1, hy.2.1]
    simp
  const r n v hn := z3P (C94_construct hn (.int (v := v)) trivial)
  un := by
    intro op x X hx
    cases op
    · exact z3P (C92_bvnot hx)
    · exact z3P (C92_bvneg hx)
  bin := by
    intro op x X o p hx ho
    obtain ⟨h1, h2⟩ := zOpnd ho
    exact z3P (zBin_hom op e _ _ _ _ hx h1 (h2 _))
  cmp := by
    intro op x X o p hx ho
    obtain ⟨h1, h2⟩ := zOpnd ho
    exact z3P (zCmp_hom op e _ _ _ _ hx h1 (h2 _))
  rol hx _ _ := z3P (C92_bvrol e _ _ _ _ hx .int trivial)
  ror hx _ _ := z3P (C92_bvror e _ _ _ _ hx .int trivial)
  zext hx := z3P (C94_zext hx _)
  sext hx hk := z3P ((C94_sext hx _).1 hk)
  slice := by
    intro x X lo hi hx h0 h1 h2
    have hs := hx.2.1
    change hi ≤ (X.size : Int) at h2
    have := (C94_slice hx (some lo) (some hi)).1
    rw [if_pos (by
      simp only [sliceFrom, sliceTo]
      rw [if_neg (by omega), if_neg (by omega)]
      omega)] at this
    exact z3P this
  index hx := z3P (C94_index hx _)
  concat hx hy := z3P (C94_concat hx hy)
  adc := by
    intro x X o p c d hx ho hc
    obtain ⟨h1, h2⟩ := zOpnd ho
    obtain ⟨g1, g2⟩ := zOpnd hc
    exact z3P (C94_adc hx h1 g1 (h2 _) (g2 _))
  signed := by
    intro x X hx
    change decide (x.root = _) = decide (X.kind = _)
    rw [hx.1]
    simp
  opA op _ _ _ _ hx ho hf hd := zOpA_rel op hx ho hf hd
  opC op _ _ _ _ hx ho _ := zOpC_rel op hx ho
  bit op _ _ _ _ ha hb := zBit_rel op ha hb
  bitNot := by
    intro a A ha
    have : a e = A := ha
    exact congrArg (! ·) this
  mux hc hx hy hs := zMux_rel hc hx hy (of_decide_eq_true hs)

end

end HW.Circuit
