import Verif.Lemmas.Adt.Equal
import Verif.Props.Operators
import Verif.Props.BitVector

/-!
# Property C143: `==` and `!=` of ADT values with vectors and bits as fields
-/

namespace HW
open Circuit Adt

/-! ### The concrete family -/

/-- Two vectors of the simulation, of one width and predefined classes: `==` is equality of the values. -/
theorem Adt.cEq {x y : BVal} {r r' : Root} (hx : x.WF) (hy : y.WF) (hn : 0 < x.size) (hs : x.size = y.size)
    (hr : x.kind = .root r) (hr' : y.kind = .root r') :
    concrete.opC .eq x (.vec y) = .ok (decide (x.value = y.value)) := by
  obtain ⟨k, n, a⟩ := x
  obtain ⟨k', n', b⟩ := y
  dsimp only at hr hr' hs hn
  subst hr; subst hr'; subst hs
  show cOpC .eq _ (.bv _) = _
  unfold cOpC
  rw [(C25_operators r r' n hn hx hy 0).2 .eq]
  rfl

/-- Fields: objects with a vector each. -/
def Adt.fields {V B : Type} (l : List (Nat × V)) : List (SVal V B) := l.map fun p => .vec p.1 p.2

theorem Adt.decides_refl (W : World) (C : Ty) : decides W false C C = some false := by
  simp [decides, dispatch, W.sub_refl]

section
variable {F : Family} {T : Truth F} {L : LeafEq F} (W : World)

theorem Adt.ne_same {x y : SVal F.V F.B} {m : PyM (ERes F.B)} (he : SVal.eq F T L W x y = m)
    (h : x.cls? = y.cls?) :
    SVal.ne F T L W x y = m >>= ERes.neg F T := by
  unfold SVal.ne swaps
  rw [h, he]
  cases y.cls? <;> simp

theorem Adt.sum_eq (i j k k' : Nat) (C : Ty) (x y : F.V) : SVal.eq F T L W (.sum i C (.vec k x)) (.sum j C (.vec k' y)) =
    (F.opC .eq x (.vec y)).map .bit := by
  simp only [SVal.eq, SVal.eqv, decides_refl, leafEqF, leafEq, Bool.false_eq_true, if_false]
  rfl

theorem Adt.tup_eq (i j : Nat) (C : Ty) (a : Bool) (vs ws : List (SVal F.V F.B)) (h : vs.length = ws.length) :
    SVal.eq F T L W (.tup i C a vs) (.tup j C a ws) = (SVal.eqvs F T L W false vs ws).map .py := by
  simp only [SVal.eq, SVal.eqv, decides_refl, if_true, h, ne_eq, not_true_eq_false, and_false, if_false]
  rfl

theorem Adt.eqvs_length (f : Bool) : ∀ {vs ws : List (SVal F.V F.B)}, vs.length ≠ ws.length →
    SVal.eqvs F T L W f vs ws ≠ .ok true
  | [], [], h => absurd rfl h
  | [], _ :: _, _ => by rw [SVal.eqvs] <;> exact nofun
  | _ :: _, [], _ => by rw [SVal.eqvs] <;> exact nofun
  | x :: vs, y :: ws, h => by
      have ih := eqvs_length f (vs := vs) (ws := ws) (by simpa using h)
      rw [SVal.eqvs]
      split
      · exact ih
      · cases SVal.eqv F T L W f x y with
        | error e => exact nofun
        | ok r =>
          show (r.truth F T >>= fun b => if b = true then SVal.eqvs F T L W f vs ws else pure false) ≠ _
          cases r.truth F T with
          | error e => exact nofun
          | ok b => cases b with
            | false => exact nofun
            | true => exact ih

/-- **C143** (lengths).  Tuples or products of one class whose fields are no longer as many (a slice of `value_` was
assigned) are never equal, over any backend; after the assignment the answer is `False`, and no field is compared. -/
theorem C143_length (i j : Nat) (C : Ty) (a b : Bool) {vs ws : List (SVal F.V F.B)} (h : vs.length ≠ ws.length) :
    SVal.eq F T L W (.tup i C a vs) (.tup j C b ws) ≠ .ok (.py true) ∧
    ((a || b) = true → SVal.eq F T L W (.tup i C a vs) (.tup j C b ws) = .ok (.py false) ∧
      SVal.ne F T L W (.tup i C a vs) (.tup j C b ws) = .ok true) := by
  have hs : swaps W (SVal.tup i C a vs).cls? (SVal.tup j C b ws).cls? = false := by simp [swaps, SVal.cls?]
  have key : (a || b) = true → SVal.eq F T L W (.tup i C a vs) (.tup j C b ws) = .ok (.py false) := by
    intro hab
    simp only [SVal.eq, SVal.eqv, decides_refl]
    cases a <;> cases b <;> simp_all <;> rfl
  refine ⟨?_, fun hab => ⟨key hab, ?_⟩⟩
  · cases hab : (a || b) with
    | true => rw [key hab]; simp
    | false =>
      obtain ⟨rfl, rfl⟩ : a = false ∧ b = false := by simpa using hab
      simp only [SVal.eq, SVal.eqv, decides_refl, Bool.false_eq_true, false_and, if_false, if_true]
      have := eqvs_length (F := F) (T := T) (L := L) (W := W) false h
      revert this
      cases SVal.eqvs F T L W false vs ws with
      | error e => exact fun _ => nofun
      | ok c => cases c with
        | true => exact fun h => absurd rfl h
        | false => exact fun _ h => nomatch h
  · unfold SVal.ne
    rw [hs, if_neg (by simp), key hab]; rfl

theorem Adt.fields_length {V B : Type} {l m : List (Nat × V)} (h : l.length = m.length) :
    (fields (B := B) l).length = (fields (B := B) m).length := by
  unfold fields; rw [List.length_map, List.length_map, h]

theorem Adt.fields_cons (p q : Nat × F.V) (l m : List (Nat × F.V)) :
    SVal.eqvs F T L W false (fields (p :: l)) (fields (q :: m)) =
      if p.1 = q.1 then SVal.eqvs F T L W false (fields l) (fields m) else
        F.opC .eq p.2 (.vec q.2) >>= T.bit >>= fun b =>
          if b then SVal.eqvs F T L W false (fields l) (fields m) else .ok false := by
  show SVal.eqvs F T L W false (.vec p.1 p.2 :: fields l) (.vec q.1 q.2 :: fields m) = _
  simp only [SVal.eqvs, SVal.id, SVal.eqv, leafEqF, leafEq, Bool.false_eq_true, if_false]
  split
  · rfl
  · cases F.opC .eq p.2 (.vec q.2) <;> rfl
end

/-- Every two vectors in the same place are well formed, nonempty, of predefined classes and one width. -/
def Adt.Alike (l m : List (Nat × BVal)) : Prop := List.Forall₂ (fun p q => p.2.WF ∧ q.2.WF ∧ 0 < p.2.size ∧
  p.2.size = q.2.size ∧ (∃ r, p.2.kind = .root r) ∧ (∃ r, q.2.kind = .root r) ∧ (p.1 = q.1 → p.2 = q.2)) l m

theorem Adt.fields_eq (W : World) {l m : List (Nat × BVal)} (h : Alike l m) :
    SVal.eqvs concrete cTruth cLeafEq W false (fields l) (fields m) =
      .ok (decide (l.map (·.2.value) = m.map (·.2.value))) := by
  induction h with
  | nil => rfl
  | @cons p q l m hp _ ih =>
    obtain ⟨h1, h2, h3, h4, ⟨r, h5⟩, ⟨r', h6⟩, h7⟩ := hp
    refine (fields_cons (F := concrete) W p q l m).trans ?_
    by_cases hi : p.1 = q.1
    · rw [if_pos hi]
      refine ih.trans ?_
      simp [h7 hi]
    · rw [if_neg hi]
      refine (congrArg (fun c => c >>= cTruth.bit >>= fun b : Bool => if b = true then
        SVal.eqvs concrete cTruth cLeafEq W false (fields l) (fields m) else .ok false) (cEq h1 h2 h3 h4 h5 h6)).trans ?_
      show (if decide (p.2.value = q.2.value) = true then _ else _) = _
      by_cases hv : p.2.value = q.2.value
      · rw [if_pos (decide_eq_true hv)]; refine ih.trans ?_; simp [hv]
      · rw [if_neg (by simpa using hv)]; simp [hv]

/-- **C143** (simulation).  Two tuples or products of one class are equal iff their vectors are, field by field; the
result is a Python bool, and `!=` is the opposite.  For a sum it is a `Bit`. -/
theorem C143_concrete (W : World) (i j : Nat) (C : Ty) (a : Bool) {l m : List (Nat × BVal)} (h : Alike l m) :
    SVal.eq concrete cTruth cLeafEq W (.tup i C a (fields l)) (.tup j C a (fields m)) =
      .ok (.py (decide (l.map (·.2.value) = m.map (·.2.value)))) ∧
    SVal.ne concrete cTruth cLeafEq W (.tup i C a (fields l)) (.tup j C a (fields m)) =
      .ok (!decide (l.map (·.2.value) = m.map (·.2.value))) ∧
    ∀ p q, l = [p] → m = [q] →
      SVal.eq concrete cTruth cLeafEq W (.sum i C (.vec p.1 p.2)) (.sum j C (.vec q.1 q.2)) =
        .ok (.bit (decide (p.2.value = q.2.value))) ∧
      SVal.ne concrete cTruth cLeafEq W (.sum i C (.vec p.1 p.2)) (.sum j C (.vec q.1 q.2)) =
        .ok (!decide (p.2.value = q.2.value)) := by
  have h1 : SVal.eq concrete cTruth cLeafEq W (.tup i C a (fields l)) (.tup j C a (fields m)) =
      .ok (.py (decide (l.map (·.2.value) = m.map (·.2.value)))) :=
    (tup_eq (F := concrete) W i j C a _ _ (fields_length h.length_eq)).trans (congrArg (Except.map ERes.py) (fields_eq W h))
  refine ⟨h1, ne_same (F := concrete) W h1 rfl, ?_⟩
  rintro p q rfl rfl
  cases h with
  | cons hp _ =>
    obtain ⟨h1, h2, h3, h4, ⟨r, h5⟩, ⟨r', h6⟩, h7⟩ := hp
    have h8 := (sum_eq (F := concrete) (T := cTruth) (L := cLeafEq) W i j p.1 q.1 C p.2 q.2).trans
      (congrArg (Except.map ERes.bit) (cEq h1 h2 h3 h4 h5 h6))
    exact ⟨h8, ne_same (F := concrete) W h8 rfl⟩

/-- **C143** (widths).  Sums that hold vectors of different widths are not unequal: the comparison raises
`InconsistentSizeError`, with `!=` too. -/
theorem C143_width_refuted (W : World) (i j k k' : Nat) (C : Ty) {x y : BVal} (h : x.size ≠ y.size) :
    SVal.eq concrete cTruth cLeafEq W (.sum i C (.vec k x)) (.sum j C (.vec k' y)) = .error .inconsistentSize ∧
    SVal.ne concrete cTruth cLeafEq W (.sum i C (.vec k x)) (.sum j C (.vec k' y)) = .error .inconsistentSize := by
  have h1 : concrete.opC .eq x (.vec y) = .error .inconsistentSize := by
    show cOpC .eq x (.bv y) = _
    unfold cOpC
    rw [(C22_operators (x := x) (y := y) (Ne.symm h) 0).2 .eq]
    rfl
  have h8 := (sum_eq (F := concrete) (T := cTruth) (L := cLeafEq) W i j k k' C x y).trans
    (congrArg (Except.map ERes.bit) h1)
  exact ⟨h8, ne_same (F := concrete) W h8 rfl⟩

/-! ### pysmt -/

/-- **C143** (pysmt).  Where no bit is compared with a vector, `==` of symbolic values never says anything wrong: a
bool is what the simulation says whatever the assignment, a bit stands for the simulation's, and an exception is the
simulation's, or a `TypeError` because a tuple asked for the truth value of a symbolic bit. -/
theorem C143_smt_partial (S : Smt.Simplifier) (e : Smt.Env) (W : World) {x y : SVal Smt.SBV Smt.Term} {X Y : SVal BVal Bool}
    (hx : SRel (SVec e) (Smt.DenBit e) x X) (hy : SRel (SVec e) (Smt.DenBit e) y Y) (hc : Comp true X Y) :
    (∀ b, SVal.eq (smt S) (sTruth S) (sLeafEq S) W x y = .ok (.py b) →
      SVal.eq concrete cTruth cLeafEq W X Y = .ok (.py b)) ∧
    (∀ t, SVal.eq (smt S) (sTruth S) (sLeafEq S) W x y = .ok (.bit t) →
      ∃ B, SVal.eq concrete cTruth cLeafEq W X Y = .ok (.bit B) ∧ Smt.DenBit e t B) ∧
    (∀ er, SVal.eq (smt S) (sTruth S) (sLeafEq S) W x y = .error er →
      (er = .typeError ∧ x.hasTup = true) ∨ SVal.eq concrete cTruth cLeafEq W X Y = .error er) := by
  have h := seqv_rel (smt_sim e S) (fun h1 h2 => sOpC_rel .eq h1 (.vec h2)) (T := sTruth S) (U := cTruth)
    (L := sLeafEq S) (M := cLeafEq) W (al := true) (fun _ => rfl) (fun _ _ => rfl) false hx hy hc
  unfold SVal.eq
  revert h
  generalize SVal.eqv (smt S) (sTruth S) (sLeafEq S) W false x y = m
  generalize SVal.eqv concrete cTruth cLeafEq W false X Y = M
  intro h
  rcases h with ⟨h1, rfl⟩ | h
  · exact ⟨nofun, nofun, fun er h => .inl ⟨by injection h with h; exact h.symm, h1⟩⟩
  · refine ⟨fun b hb => ?_, fun t ht => ?_, fun er he => ?_⟩
    · subst hb
      obtain ⟨r, rfl, hr⟩ := h.ok_left rfl
      cases hr; rfl
    · subst ht
      obtain ⟨r, rfl, hr⟩ := h.ok_left rfl
      cases hr with
      | bit h' => exact ⟨_, rfl, h'⟩
    · subst he
      cases M with
      | ok => exact h.elim
      | error e' => exact .inr (congrArg _ (Eq.symm h))

/-- **C143** (pysmt, `!=`).  The same for `!=`, which always is a bool. -/
theorem C143_smt_ne_partial (S : Smt.Simplifier) (e : Smt.Env) (W : World) {x y : SVal Smt.SBV Smt.Term}
    {X Y : SVal BVal Bool} (hx : SRel (SVec e) (Smt.DenBit e) x X) (hy : SRel (SVec e) (Smt.DenBit e) y Y)
    (hc : Comp true X Y) (hc' : Comp true Y X) :
    (∀ b, SVal.ne (smt S) (sTruth S) (sLeafEq S) W x y = .ok b → SVal.ne concrete cTruth cLeafEq W X Y = .ok b) ∧
    (∀ er, SVal.ne (smt S) (sTruth S) (sLeafEq S) W x y = .error er →
      er = .typeError ∨ SVal.ne concrete cTruth cLeafEq W X Y = .error er) := by
  obtain ⟨a1, a2, a3⟩ := C143_smt_partial S e W hx hy hc
  obtain ⟨b1, b2, b3⟩ := C143_smt_partial S e W hy hx hc'
  have hsw : swaps W X.cls? Y.cls? = swaps W x.cls? y.cls? := by
    exact (congrArg₂ (swaps W) hx.cls hy.cls).symm
  show (∀ b, (if swaps W x.cls? y.cls? = true then _ else _) = _ → (if swaps W X.cls? Y.cls? = true then _ else _) = _) ∧
    (∀ er, (if swaps W x.cls? y.cls? = true then _ else _) = _ → _ ∨ (if swaps W X.cls? Y.cls? = true then _ else _) = _)
  rw [hsw]
  have key : ∀ (m : PyM (ERes Smt.Term)) (M : PyM (ERes Bool)), (∀ b, m = .ok (.py b) → M = .ok (.py b)) →
      (∀ er, m = .error er → er = .typeError ∨ M = .error er) →
      (∀ b, (m >>= ERes.neg (smt S) (sTruth S)) = Except.ok b →
        (M >>= ERes.neg concrete cTruth) = Except.ok b) ∧
      (∀ er, (m >>= ERes.neg (smt S) (sTruth S)) = Except.error er → er = .typeError ∨
        (M >>= ERes.neg concrete cTruth) = Except.error er) := by
    intro m M h1 h2
    cases m with
    | error e' =>
      refine ⟨nofun, fun er he => ?_⟩
      have : e' = er := by injection he
      subst this
      rcases h2 _ rfl with h | rfl
      · exact .inl h
      · exact .inr rfl
    | ok r => cases r with
      | py b => rw [h1 b rfl]; exact ⟨fun _ h => h, fun _ h => by cases h⟩
      | bit t => exact ⟨nofun, fun er he => .inl (by injection he with he; exact he.symm)⟩
  split
  · exact key _ _ b1 fun er he => (b3 er he).imp And.left id
  · exact key _ _ a1 fun er he => (a3 er he).imp And.left id

/-- **C143** (pysmt, which).  `==` of tuples or products of symbolic vectors is `True` if their fields are the very
same objects, and raises `TypeError` otherwise; `!=` likewise, and of sums of vectors it always raises. -/
theorem C143_smt_tuple (S : Smt.Simplifier) (e : Smt.Env) (W : World) (i j : Nat) (C : Ty) (a : Bool)
    {l m : List (Nat × Smt.SBV)} {L M : List (Nat × BVal)}
    (hl : List.Forall₂ (fun p q => SVec e p.2 q.2) l L) (hm : List.Forall₂ (fun p q => SVec e p.2 q.2) m M)
    (hs : List.Forall₂ (fun p q => p.2.size = q.2.size) L M) :
    SVal.eq (smt S) (sTruth S) (sLeafEq S) W (.tup i C a (fields l)) (.tup j C a (fields m)) =
      (if l.map Prod.fst = m.map Prod.fst then .ok (.py true) else .error .typeError) ∧
    SVal.ne (smt S) (sTruth S) (sLeafEq S) W (.tup i C a (fields l)) (.tup j C a (fields m)) =
      (if l.map Prod.fst = m.map Prod.fst then .ok false else .error .typeError) ∧
    ∀ p q, l = [p] → m = [q] →
      (∃ t, SVal.eq (smt S) (sTruth S) (sLeafEq S) W (.sum i C (.vec p.1 p.2)) (.sum j C (.vec q.1 q.2)) = .ok (.bit t)) ∧
      SVal.ne (smt S) (sTruth S) (sLeafEq S) W (.sum i C (.vec p.1 p.2)) (.sum j C (.vec q.1 q.2)) =
        .error .typeError := by
  have hv : ∀ {x y : Smt.SBV} {X Y : BVal}, SVec e x X → SVec e y Y → X.size = Y.size →
      ∃ t, (smt S).opC .eq x (.vec y) = .ok t := by
    intro x y X Y h1 h2 h3
    obtain ⟨r, hr⟩ := h1.2.1
    obtain ⟨r', hr'⟩ := h2.2.1
    have h4 := cEq (Smt.Den.WF h1.1) (Smt.Den.WF h2.1) (h1.1.2.1 ▸ h1.2.2) h3 (h1.kind hr) (h2.kind hr')
    obtain ⟨t, ht, -⟩ := (sOpC_rel .eq h1 (.vec h2)).ok_right h4
    exact ⟨t, ht⟩
  have hf : SVal.eqvs (smt S) (sTruth S) (sLeafEq S) W false (fields l) (fields m) =
      if l.map Prod.fst = m.map Prod.fst then .ok true else .error .typeError := by
    clear i j a
    induction hl generalizing m M with
    | nil => cases hs; cases hm; rfl
    | @cons p P l L hp hl ih =>
      cases hs with
      | @cons _ Q _ M hs1 hs2 =>
        cases hm with
        | @cons q _ m _ hq hm =>
          have ih := ih hm hs2
          refine (fields_cons (F := smt S) W p q l m).trans ?_
          by_cases hi : p.1 = q.1
          · rw [if_pos hi, ih]; simp [hi]
          · rw [if_neg hi, if_neg (by simp [hi])]
            obtain ⟨t, ht⟩ := hv hp hq hs1
            rw [ht]
            rfl
  have h1 : SVal.eq (smt S) (sTruth S) (sLeafEq S) W (.tup i C a (fields l)) (.tup j C a (fields m)) =
      if l.map Prod.fst = m.map Prod.fst then .ok (.py true) else .error .typeError := by
    refine (tup_eq (F := smt S) W i j C a _ _
      (fields_length (hl.length_eq.trans (hs.length_eq.trans hm.length_eq.symm)))).trans ((congrArg (Except.map ERes.py) hf).trans ?_)
    split <;> rfl
  refine ⟨h1, (ne_same (F := smt S) W h1 rfl).trans ?_, ?_⟩
  · split <;> rfl
  · rintro p q rfl rfl
    cases hl with
    | cons hp hl => cases hl; cases hm with
      | cons hq hm => cases hm; cases hs with
        | cons hs1 _ =>
          obtain ⟨t, ht⟩ := hv hp hq hs1
          have h8 := (sum_eq (F := smt S) (T := sTruth S) (L := sLeafEq S) W i j p.1 q.1 C p.2 q.2).trans
            (congrArg (Except.map ERes.bit) ht)
          exact ⟨⟨t, h8⟩, ne_same (F := smt S) W h8 rfl⟩

/-- **C143** (pysmt, bits and vectors).  A sum that holds a bit against one that holds a vector: the simulation turns the
vector into a bit, pysmt the bit into a vector, so that `S(Bit(1)) == S(BitVector[8](2))` is true in the simulation and
stands for false with pysmt. -/
theorem C143_mixed_refuted (S : Smt.Simplifier) (W : World) (C : Ty) : ∃ (e : Smt.Env) (x y : SVal Smt.SBV Smt.Term)
    (X Y : SVal BVal Bool) (t : Smt.Term), SRel (SVec e) (Smt.DenBit e) x X ∧ SRel (SVec e) (Smt.DenBit e) y Y ∧
    SVal.eq (smt S) (sTruth S) (sLeafEq S) W x y = .ok (.bit t) ∧ Smt.DenBit e t false ∧
    SVal.eq concrete cTruth cLeafEq W X Y = .ok (.bit true) := by
  let e : Smt.Env := ⟨fun _ => true, fun _ => 0, fun _ _ => 2⟩
  have ha : Smt.DenBit e (.sym ['b'] .bool) true := rfl
  have hy : SVec e ⟨.root .bv, 8, .sym ['x'] (.bv 8)⟩ ⟨.root .bv, 8, 2⟩ := ⟨⟨rfl, rfl, _, rfl, rfl⟩, ⟨_, rfl⟩, by decide⟩
  have hc : concrete.opC .eq ⟨.root .bv, 8, 2⟩ (.bit true) = .ok false := rfl
  obtain ⟨t, ht, hd⟩ := (sOpC_rel (S := S) .eq hy (.bit ha)).ok_right hc
  refine ⟨e, .sum 0 C (.bit 1 (.sym ['b'] .bool)), .sum 2 C (.vec 3 ⟨.root .bv, 8, .sym ['x'] (.bv 8)⟩),
    .sum 0 C (.bit 1 true), .sum 2 C (.vec 3 ⟨.root .bv, 8, 2⟩), t, ⟨rfl, rfl, rfl, ha⟩, ⟨rfl, rfl, rfl, hy⟩, ?_, hd, ?_⟩
  · simp only [SVal.eq, SVal.eqv, decides_refl, leafEqF, leafEq, Bool.false_eq_true, if_false, sLeafEq]
    exact congrArg (fun m : PyM Smt.Term => m >>= fun t => pure (ERes.bit t)) ht
  · simp only [SVal.eq, SVal.eqv, decides_refl, leafEqF, leafEq, Bool.false_eq_true, if_false, cLeafEq]
    rfl

/-! ### z3 -/

/-- **C143** (z3, sums).  Values in which no tuple or product occurs: `==` means what the simulation says, where no bit
is compared with a vector, nor a vector or bit with an ADT value.  `InconsistentSizeError` may be `TypeError`. -/
theorem C143_z3_partial (e : Z3.Env) (W : World) {x y : SVal Z3.ZBV Z3.BoolE} {X Y : SVal BVal Bool}
    (hx : SRel (Z3.Den e) (Z3.DenBit e) x X) (hy : SRel (Z3.Den e) (Z3.DenBit e) y Y) (hc : Comp false X Y)
    (ht : x.hasTup = false) :
    (∀ b, SVal.eq z3 zTruth zLeafEq W x y = .ok (.py b) ↔ SVal.eq concrete cTruth cLeafEq W X Y = .ok (.py b)) ∧
    (∀ t, SVal.eq z3 zTruth zLeafEq W x y = .ok (.bit t) →
      SVal.eq concrete cTruth cLeafEq W X Y = .ok (.bit (t e))) ∧
    (∀ er, SVal.eq z3 zTruth zLeafEq W x y = .error er →
      ∃ er', ZErr er er' ∧ SVal.eq concrete cTruth cLeafEq W X Y = .error er') := by
  have h := seqv_rel (z3_sim e) (fun h1 h2 => zOpC_rel .eq h1 (.vec h2)) (T := zTruth) (U := cTruth)
    (L := zLeafEq) (M := cLeafEq) W (al := false) nofun (fun h => absurd (ht ▸ h) Bool.false_ne_true) false hx hy hc
  unfold SVal.eq
  revert h
  generalize SVal.eqv z3 zTruth zLeafEq W false x y = m
  generalize SVal.eqv concrete cTruth cLeafEq W false X Y = M
  intro h
  rcases h with ⟨h1, rfl⟩ | h
  · exact absurd (ht ▸ h1) Bool.false_ne_true
  · refine ⟨fun b => ⟨fun hb => ?_, fun hb => ?_⟩, fun t ht => ?_, fun er he => ?_⟩
    · subst hb
      obtain ⟨r, rfl, hr⟩ := h.ok_left rfl
      cases hr; rfl
    · subst hb
      obtain ⟨r, rfl, hr⟩ := h.ok_right rfl
      cases hr; rfl
    · subst ht
      obtain ⟨r, rfl, hr⟩ := h.ok_left rfl
      cases hr with
      | bit h' => exact congrArg (fun b => Except.ok (ERes.bit b)) (Eq.symm h')
    · subst he
      cases M with
      | ok => exact h.elim
      | error e' => exact ⟨e', h, rfl⟩

/-- **C143** (z3, always true).  Any two tuples or products of one class whose fields are z3 vectors of the same
widths compare equal, and never unequal, whatever the vectors are; two sums of z3 vectors are never unequal. -/
theorem C143_z3_refuted (e : Z3.Env) (W : World) (i j : Nat) (C : Ty) (a : Bool)
    {l m : List (Nat × Z3.ZBV)} {L M : List (Nat × BVal)}
    (hl : List.Forall₂ (fun p q => Z3.Den e p.2 q.2) l L) (hm : List.Forall₂ (fun p q => Z3.Den e p.2 q.2) m M)
    (hs : List.Forall₂ (fun p q => p.2.size = q.2.size) L M) :
    SVal.eq z3 zTruth zLeafEq W (.tup i C a (fields l)) (.tup j C a (fields m)) = .ok (.py true) ∧
    SVal.ne z3 zTruth zLeafEq W (.tup i C a (fields l)) (.tup j C a (fields m)) = .ok false ∧
    ∀ p q, l = [p] → m = [q] →
      SVal.ne z3 zTruth zLeafEq W (.sum i C (.vec p.1 p.2)) (.sum j C (.vec q.1 q.2)) = .ok false := by
  have hv : ∀ {x y : Z3.ZBV} {X Y : BVal}, Z3.Den e x X → Z3.Den e y Y → X.size = Y.size →
      ∃ t, z3.opC .eq x (.vec y) = .ok t := by
    intro x y X Y h1 h2 h3
    have h4 := cEq (Z3.Den.WF h1) (Z3.Den.WF h2) (h1.2.1 ▸ h1.2.2.1) h3 h1.1 h2.1
    obtain ⟨t, ht, -⟩ := (zOpC_rel .eq h1 (.vec h2)).ok_right h4
    exact ⟨t, ht⟩
  have hf : SVal.eqvs z3 zTruth zLeafEq W false (fields l) (fields m) = .ok true := by
    clear i j a
    induction hl generalizing m M with
    | nil => cases hs; cases hm; rfl
    | @cons p P l L hp hl ih =>
      cases hs with
      | @cons _ Q _ M hs1 hs2 =>
        cases hm with
        | @cons q _ m _ hq hm =>
          have ih := ih hm hs2
          refine (fields_cons (F := z3) W p q l m).trans ?_
          by_cases hi : p.1 = q.1
          · rw [if_pos hi]; exact ih
          · rw [if_neg hi]
            obtain ⟨t, ht⟩ := hv hp hq hs1
            rw [ht]
            exact ih
  have h1 : SVal.eq z3 zTruth zLeafEq W (.tup i C a (fields l)) (.tup j C a (fields m)) = .ok (.py true) :=
    (tup_eq (F := z3) W i j C a _ _
      (fields_length (hl.length_eq.trans (hs.length_eq.trans hm.length_eq.symm)))).trans (congrArg (Except.map ERes.py) hf)
  refine ⟨h1, ne_same (F := z3) W h1 rfl, ?_⟩
  rintro p q rfl rfl
  cases hl with
  | cons hp hl => cases hl; cases hm with
    | cons hq hm => cases hm; cases hs with
      | cons hs1 _ =>
        obtain ⟨t, ht⟩ := hv hp hq hs1
        have h8 := (sum_eq (F := z3) (T := zTruth) (L := zLeafEq) W i j p.1 q.1 C p.2 q.2).trans
          (congrArg (Except.map ERes.bit) ht)
        exact ne_same (F := z3) W h8 rfl

/-- **C143** (z3, raises).  A sum that holds a z3 vector or bit against one that holds an ADT value raises `TypeError`,
in either order; with the other families the two are unequal. -/
theorem C143_z3_raises (S : Smt.Simplifier) (W : World) (i j k : Nat) (C : Ty) (x : Z3.ZBV) (X : BVal) (x' : Smt.SBV)
    (k' : Nat) (en : EnumT) (n : Nat) :
    SVal.eq z3 zTruth zLeafEq W (.sum i C (.vec k x)) (.sum j C (.enum k' en n)) = .error .typeError ∧
    SVal.eq z3 zTruth zLeafEq W (.sum j C (.enum k' en n)) (.sum i C (.vec k x)) = .error .typeError ∧
    SVal.eq concrete cTruth cLeafEq W (.sum i C (.vec k X)) (.sum j C (.enum k' en n)) = .ok (.py false) ∧
    SVal.eq concrete cTruth cLeafEq W (.sum j C (.enum k' en n)) (.sum i C (.vec k X)) = .ok (.py false) ∧
    SVal.eq (smt S) (sTruth S) (sLeafEq S) W (.sum i C (.vec k x')) (.sum j C (.enum k' en n)) = .ok (.py false) ∧
    SVal.eq (smt S) (sTruth S) (sLeafEq S) W (.sum j C (.enum k' en n)) (.sum i C (.vec k x')) = .ok (.py false) := by
  refine ⟨?_, ?_, ?_, ?_, ?_, ?_⟩ <;> simp only [SVal.eq, SVal.eqv, decides_refl] <;> rfl

/-- **C143** (z3, a bit against a vector).  A sum that holds a z3 bit raises `TypeError` against one that holds a vector;
in the other order the bit counts as 0 or 1. -/
theorem C143_z3_bit_vector (e : Z3.Env) (W : World) (i j k l : Nat) (C : Ty) {b : Z3.BoolE} {B : Bool} {x : Z3.ZBV} {X : BVal}
    (hb : Z3.DenBit e b B) (hx : Z3.Den e x X) :
    SVal.eq z3 zTruth zLeafEq W (.sum i C (.bit k b)) (.sum j C (.vec l x)) = .error .typeError ∧
    ∃ t, SVal.eq z3 zTruth zLeafEq W (.sum j C (.vec l x)) (.sum i C (.bit k b)) = .ok (.bit t) ∧
      Z3.DenBit e t (decide (X.value = if B then 1 else 0)) := by
  constructor
  · simp only [SVal.eq, SVal.eqv, decides_refl]; rfl
  · have hc : concrete.opC .eq X (.bit B) = .ok (decide (X.value = if B then 1 else 0)) := by
      have hw := Z3.Den.WF hx
      have hn : 0 < X.size := hx.2.1 ▸ hx.2.2.1
      have hw1 : Spec.wrap X.size (if B then 1 else 0) = if B then 1 else 0 := by
        have : (2 : Int) ^ 1 ≤ 2 ^ X.size := pow_le_pow_right₀ (by decide) hn
        refine Int.emod_eq_of_lt ?_ ?_ <;> split <;> omega
      show cOpC .eq X (.bit B) = _
      unfold cOpC
      rw [binC_fwd (o := .bit B) nofun (cfwd_ref .eq _ hw hn (o := .bit B) trivial (b := Spec.wrap X.size (if B then 1 else 0)) rfl), hw1]
      rfl
    obtain ⟨t, ht, hd⟩ := (zOpC_rel .eq hx (.bit hb)).ok_right hc
    refine ⟨t, ?_, hd⟩
    simp only [SVal.eq, SVal.eqv, decides_refl]
    exact congrArg (fun m : PyM Z3.BoolE => m >>= fun t => pure (ERes.bit t)) ht

/-! ### Examples -/

private def sx (n : Char) : Smt.SBV := ⟨.root .bv, 8, .sym [n] (.bv 8)⟩
private def zx (n : Char) : Z3.ZBV := ⟨.bv, 8, ⟨8, fun e => e.bv [n] 8⟩⟩
private def cv (v : Int) : BVal := ⟨.root .bv, 8, v⟩
private def eS : Smt.Env := ⟨fun _ => false, fun _ => 0, fun n _ => if n = ['x'] then 3 else 5⟩
private def eZ : Z3.Env := ⟨fun _ => false, fun n _ => if n = ['x'] then 3 else 5⟩

example : Alike [(0, cv 3), (1, cv 4)] [(2, cv 3), (1, cv 4)] :=
  .cons ⟨by decide, by decide, by decide, rfl, ⟨_, rfl⟩, ⟨_, rfl⟩, nofun⟩
    (.cons ⟨by decide, by decide, by decide, rfl, ⟨_, rfl⟩, ⟨_, rfl⟩, fun _ => rfl⟩ .nil)

/-- Two assigned products of one class, one with two values, one with one. -/
example (S : Smt.Simplifier) (W : World) (C : Ty) :
    SVal.eq (smt S) (sTruth S) (sLeafEq S) W (.tup 0 C true (fields [(1, sx 'x'), (2, sx 'y')]))
      (.tup 3 C true (fields [(4, sx 'x')])) = .ok (.py false) :=
  ((C143_length (F := smt S) W 0 3 C true true (by simp [fields])).2 rfl).1

example : (cv 3).size ≠ (⟨.root .bv, 16, 3⟩ : BVal).size := by decide

/-- Two symbolic products that are equal to `P(3)` and `P(5)` here. -/
example (C : Ty) : SRel (SVec eS) (Smt.DenBit eS) (.tup 0 C false [.vec 1 (sx 'x')]) (.tup 0 C false [.vec 1 (cv 3)]) ∧
    SRel (SVec eS) (Smt.DenBit eS) (.tup 2 C false [.vec 3 (sx 'y')]) (.tup 2 C false [.vec 3 (cv 5)]) ∧
    Comp (V := BVal) (B := Bool) true (.tup 0 C false [.vec 1 (cv 3)]) (.tup 2 C false [.vec 3 (cv 5)]) :=
  ⟨⟨rfl, rfl, rfl, ⟨rfl, ⟨rfl, rfl, _, rfl, rfl⟩, ⟨_, rfl⟩, by decide⟩, trivial⟩,
    ⟨rfl, rfl, rfl, ⟨rfl, ⟨rfl, rfl, _, rfl, rfl⟩, ⟨_, rfl⟩, by decide⟩, trivial⟩, trivial, trivial⟩

example : List.Forall₂ (fun (p : Nat × Smt.SBV) (q : Nat × BVal) => SVec eS p.2 q.2) [(1, sx 'x')] [(1, cv 3)] ∧
    List.Forall₂ (fun (p : Nat × Smt.SBV) (q : Nat × BVal) => SVec eS p.2 q.2) [(3, sx 'y')] [(3, cv 5)] :=
  ⟨.cons ⟨⟨rfl, rfl, _, rfl, rfl⟩, ⟨_, rfl⟩, by decide⟩ .nil, .cons ⟨⟨rfl, rfl, _, rfl, rfl⟩, ⟨_, rfl⟩, by decide⟩ .nil⟩

example (W : World) (C : Ty) : ∃ t, SVal.eq z3 zTruth zLeafEq W (.sum 0 C (.vec 1 (zx 'x'))) (.sum 2 C (.bit 3 fun e => e.bool ['b'])) =
    .ok (.bit t) ∧ Z3.DenBit eZ t false :=
  (C143_z3_bit_vector eZ W 2 0 3 1 C (b := fun e => e.bool ['b']) (B := false) (X := cv 3) rfl ⟨rfl, rfl, by decide, _, rfl, rfl⟩).2

/-- z3: `P(x) == P(y)` is `True` although the fields stand for 3 and 5. -/
example (W : World) (C : Ty) :
    SVal.eq z3 zTruth zLeafEq W (.tup 0 C false (fields [(1, zx 'x')])) (.tup 2 C false (fields [(3, zx 'y')])) =
      .ok (.py true) ∧
    SVal.eq concrete cTruth cLeafEq W (.tup 0 C false (fields [(1, cv 3)])) (.tup 2 C false (fields [(3, cv 5)])) =
      .ok (.py false) :=
  ⟨(C143_z3_refuted eZ W 0 2 C false (L := [(1, cv 3)]) (M := [(3, cv 5)]) (.cons ⟨rfl, rfl, by decide, _, rfl, rfl⟩ .nil)
      (.cons ⟨rfl, rfl, by decide, _, rfl, rfl⟩ .nil) (.cons rfl .nil)).1,
    (C143_concrete W 0 2 C false (l := [(1, cv 3)]) (m := [(3, cv 5)]) (.cons ⟨by decide, by decide, by decide, rfl, ⟨_, rfl⟩, ⟨_, rfl⟩, nofun⟩ .nil)).1⟩

example (C : Ty) : SRel (Z3.Den eZ) (Z3.DenBit eZ) (.sum 0 C (.vec 1 (zx 'x'))) (.sum 0 C (.vec 1 (cv 3))) ∧
    SRel (Z3.Den eZ) (Z3.DenBit eZ) (.sum 2 C (.vec 3 (zx 'y'))) (.sum 2 C (.vec 3 (cv 5))) ∧
    Comp (V := BVal) (B := Bool) false (.sum 0 C (.vec 1 (cv 3))) (.sum 2 C (.vec 3 (cv 5))) ∧
    (SVal.sum 0 C (.vec 1 (zx 'x')) : SVal Z3.ZBV Z3.BoolE).hasTup = false :=
  ⟨⟨rfl, rfl, rfl, rfl, rfl, by decide, _, rfl, rfl⟩, ⟨rfl, rfl, rfl, rfl, rfl, by decide, _, rfl, rfl⟩, trivial, rfl⟩

end HW
