import Verif.Model.Smt.Ite
import Verif.Props.SmtInt

/-!
# C38 symbolic `ite`, C39 substitution
-/

namespace HW
open Spec Smt

/-! ## C38 -/

mutual
/-- A symbolic branch denotes a concrete one, component-wise.  The instances of a protocol class hold
vectors of the width the class declares. -/
inductive DenBranch (e : Env) : SBranch → Branch → Prop
  | bit {t b} : DenBit e t b → DenBranch e (.bit t) (.bit b)
  | bv {x X} : Den e x X → DenBranch e (.bv x) (.bv X)
  | tup {l L} : DenBranches e l L → DenBranch e (.tup l) (.tup L)
  | proto {c : SProto} {C : ProtoCls} {x X} : c.id = C.id → c.kind.At e C.kind → C.size = c.size →
      x.size = c.size → Den e x X → DenBranch e (.proto c x) (.proto C X)
  | other {c} : DenBranch e (.other c) (.other c)
inductive DenBranches (e : Env) : List SBranch → List Branch → Prop
  | nil : DenBranches e [] []
  | cons {x X l L} : DenBranch e x X → DenBranches e l L → DenBranches e (x :: l) (X :: L)
end

mutual
/-- Vector classes occurring in a branch. -/
def branchKinds : SBranch → List SKind
  | .bv x => [x.kind]
  | .tup l => branchesKinds l
  | _ => []
def branchesKinds : List SBranch → List SKind
  | [] => []
  | b :: l => branchKinds b ++ branchesKinds l
end

mutual
/-- Protocol classes occurring in a branch. -/
def branchProtos : SBranch → List SProto
  | .proto c _ => [c]
  | .tup l => branchesProtos l
  | _ => []
def branchesProtos : List SBranch → List SProto
  | [] => []
  | b :: l => branchProtos b ++ branchesProtos l
end

/-- Different symbolic classes of the two branches stay different when their conditions are
evaluated (every class made by `ite` has its own identity). -/
def ClassesDistinct (e : Env) (ks ks' : List SKind) (cs cs' : List SProto) : Prop :=
  (∀ k ∈ ks, ∀ k' ∈ ks', ∀ K, k.At e K → k'.At e K → k = k') ∧
  (∀ c ∈ cs, ∀ c' ∈ cs', c.id = c'.id → c = c')

theorem DenBranches.length {e : Env} : ∀ {l : List SBranch} {L : List Branch}, DenBranches e l L → L.length = l.length
  | _, _, .nil => rfl
  | _, _, .cons _ h => by simp [h.length]

section
variable {S : Simplifier} {e : Env}

/-- The three phases of `build_ite` agree: same exception from `determine_return_type`, or all three
succeed on both sides with related results. -/
def IteRel (S : Simplifier) (e : Env) (s : Term) (b : Bool) (t f : SBranch) (T F : Branch) : Prop :=
  ∀ i, (∃ err, sreturnType s t f i = .error err ∧ returnType b T F i = .error err) ∨
    ∃ r R j, sreturnType s t f i = .ok (r, j) ∧ returnType b T F i = .ok (R, j) ∧
      ∃ v V, spushIte s t f = .ok v ∧ pushIte b T F = .ok V ∧
        ∃ o O, scoerceBranch S r v = .ok o ∧ coerceBranch R V = .ok O ∧ DenBranch e o O

def IteRels (S : Simplifier) (e : Env) (s : Term) (b : Bool) (t f : List SBranch) (T F : List Branch) : Prop :=
  ∀ i, (∃ err, sreturnTypes s t f i = .error err ∧ returnTypes b T F i = .error err) ∨
    ∃ r R j, sreturnTypes s t f i = .ok (r, j) ∧ returnTypes b T F i = .ok (R, j) ∧
      ∃ v V, spushItes s t f = .ok v ∧ pushItes b T F = .ok V ∧ r.length = v.length ∧ R.length = V.length ∧
        ∃ o O, scoerceBranches S r v = .ok o ∧ coerceBranches R V = .ok O ∧ DenBranches e o O

theorem ite_term {s t f : Term} {b : Bool} {x y : Val} (hs : DenBit e s b) (ht : t.eval e = some x)
    (hf : f.eval e = some y) (hty : x.ty = y.ty) : (Term.ite s t f).eval e = some (if b then x else y) := by
  have hs' : s.eval e = some (.bool b) := hs
  cases b <;> simp [Term.eval, hs', ht, hf, hty]

theorem bv_ite {s : Term} {b : Bool} (hs : DenBit e s b) {x y : SBV} {X Y : BVal} (hx : Den e x X) (hy : Den e y Y)
    (hn : x.size = y.size) {k : SKind} {K : Kind} (hk : k.At e K) :
    ∃ t o, node (.ite s x.term y.term) = .ok t ∧ bvF S k x.size t = .ok o ∧
      Den e o ⟨K, x.size, (if b then X else Y).value⟩ ∧ o.size = x.size := by
  obtain ⟨k1, K1, n1, t1, a1, rfl, rfl, hkK1, ht1⟩ := hx.cases
  obtain ⟨k2, K2, n2, t2, a2, rfl, rfl, hkK2, ht2⟩ := hy.cases
  dsimp only at hn ⊢
  subst hn
  have hev := ite_term hs ht1 ht2 rfl
  rw [show (if b then Val.bv n1 a1 else Val.bv n1 a2) = Val.bv n1 (if b then a1 else a2) by cases b <;> rfl] at hev
  obtain ⟨o, h1, h2, h3, h4⟩ := bvF_den (S := S) hk hev
  refine ⟨_, o, node_ok hev, h1, ?_, h2⟩
  rw [show (if b then (⟨K1, n1, toI a1⟩ : BVal) else ⟨K2, n1, toI a2⟩).value = toI (if b then a1 else a2) by
    cases b <;> rfl]
  exact h4

theorem mkBV_same {k : Kind} {X : BVal} (h : X.WF) : mkBV k X.size (.bv X) = .ok ⟨k, X.size, X.value⟩ := by
  rw [mkBV_eq]
  simp only [Obj.denotes]
  rw [h.mod_eq]

mutual
theorem iteRel {s : Term} {b : Bool} (hs : DenBit e s b) : ∀ {t f : SBranch} {T F : Branch},
    DenBranch e t T → DenBranch e f F →
    ClassesDistinct e (branchKinds t) (branchKinds f) (branchProtos t) (branchProtos f) →
    IteRel S e s b t f T F
  | _, _, _, _, .tup (l := l) (L := L) hl, hf, hd => by
    intro i
    cases hf with
    | bit _ => exact .inl ⟨_, rfl, rfl⟩
    | bv _ => exact .inl ⟨_, rfl, rfl⟩
    | proto _ _ _ _ => exact .inl ⟨_, rfl, rfl⟩
    | other => exact .inl ⟨_, rfl, rfl⟩
    | @tup m M hm =>
      have e1 := hl.length
      have e2 := hm.length
      by_cases hlen : l.length = m.length
      · have hlen' : L.length = M.length := by omega
        rcases iteRels hs hl hm hlen hd i with ⟨err, h1, h2⟩ | ⟨r, R, j, h1, h2, v, V, h3, h4, l1, l2, o, O, h5, h6, h7⟩
        · refine .inl ⟨if err.isTypeError then .typeError else err, ?_, ?_⟩
          · simp only [sreturnType, hlen, if_true, h1]; split <;> rfl
          · simp only [returnType, hlen', if_true, h2]; split <;> rfl
        · refine .inr ⟨.tup r, .tup R, j, ?_, ?_, .tup v, .tup V, ?_, ?_, .tup o, .tup O, ?_, ?_, .tup h7⟩
          · simp only [sreturnType, hlen, if_true, h1]
          · simp only [returnType, hlen', if_true, h2]
          · simp only [spushIte, hlen, if_true, h3]; rfl
          · simp only [pushIte, hlen', if_true, h4]; rfl
          · simp only [scoerceBranch, l1, if_true, h5]; rfl
          · simp only [coerceBranch, l2, if_true, h6]; rfl
      · have hlen' : ¬ L.length = M.length := by omega
        refine .inl ⟨.typeError, ?_, ?_⟩
        · simp only [sreturnType, hlen, if_false]; rfl
        · simp only [returnType, hlen', if_false]; rfl
  | _, _, _, _, .bit (t := t) (b := B) ht, hf, hd => by
    intro i
    cases hf with
    | bv _ => exact .inl ⟨_, rfl, rfl⟩
    | proto _ _ _ _ => exact .inl ⟨_, rfl, rfl⟩
    | other => exact .inl ⟨_, rfl, rfl⟩
    | tup _ => exact .inl ⟨_, rfl, rfl⟩
    | @bit f B' hf =>
      have hev := ite_term hs ht hf rfl
      rw [show (if b then Val.bool B else Val.bool B') = Val.bool (if b then B else B') by cases b <;> rfl] at hev
      have hty := eval_ty hev
      refine .inr ⟨.bit, .bit, i, rfl, rfl, .term (.ite s t f), .bit (if b then B else B'), ?_, ?_, .bit _, .bit (if b then B else B'), ?_, ?_,
        .bit (S.eval _ _ _ hev)⟩
      · simp only [spushIte, smtIte, node_ok hev, ok_bind]; rfl
      · cases b <;> rfl
      · simp only [scoerceBranch, bitF, hty, Val.ty, if_true]; rfl
      · rfl
  | _, _, _, _, .bv (x := x) (X := X) hx, hf, hd => by
    intro i
    cases hf with
    | bit _ => exact .inl ⟨_, rfl, rfl⟩
    | proto _ _ _ _ => exact .inl ⟨_, rfl, rfl⟩
    | other => exact .inl ⟨_, rfl, rfl⟩
    | tup _ => exact .inl ⟨_, rfl, rfl⟩
    | @bv y Y hy =>
      have sx : X.size = x.size := hx.2.1
      have sy : Y.size = y.size := hy.2.1
      have hkk : X.kind = Y.kind ↔ x.kind = y.kind := by
        constructor
        · intro h
          exact hd.1 x.kind (by simp [branchKinds]) y.kind (by simp [branchKinds]) X.kind hx.1 (h ▸ hy.1)
        · intro h; exact SKind.At.unique (h ▸ hx.1) hy.1
      by_cases hsz : x.size = y.size
      · have hpush : pushIte b (.bv X) (.bv Y) = .ok (.bv (if b then X else Y)) := by cases b <;> rfl
        have hsz' : (if b then X else Y).size = x.size := by cases b <;> simp [sx, sy, hsz]
        have hwf : (if b then X else Y).WF := by cases b <;> simp [hx.WF, hy.WF]
        by_cases hk : x.kind = y.kind
        · obtain ⟨t, o, h1, h2, h3, h4⟩ := bv_ite (S := S) hs hx hy hsz hx.1
          refine .inr ⟨.vec x.kind x.size, .vec X.kind X.size, i, ?_, ?_, .term t, _, ?_, hpush, .bv o,
            .bv ⟨X.kind, x.size, (if b then X else Y).value⟩, ?_, ?_, .bv h3⟩
          · simp only [sreturnType, hk, hsz, and_self, if_true]; rfl
          · simp only [returnType, hkk.2 hk, sx, sy, hsz, and_self, if_true]; rfl
          · simp only [spushIte, smtIte, h1, ok_bind]; rfl
          · simp only [scoerceBranch, h2, ok_bind]; rfl
          · simp only [coerceBranch, Branch.toObj]
            rw [sx, ← hsz', mkBV_same hwf]; rfl
        · have hpk : (SKind.poly i x.kind y.kind s).At e (.poly i X.kind Y.kind b) :=
            ⟨X.kind, Y.kind, b, hx.1, hy.1, hs, rfl⟩
          obtain ⟨t, o, h1, h2, h3, h4⟩ := bv_ite (S := S) hs hx hy hsz hpk
          refine .inr ⟨.vec (.poly i x.kind y.kind s) x.size, .vec (.poly i X.kind Y.kind b) X.size, i + 1, ?_, ?_, .term t, _,
            ?_, hpush, .bv o, .bv ⟨_, x.size, (if b then X else Y).value⟩, ?_, ?_, .bv h3⟩
          · simp only [sreturnType, hk, false_and, if_false, bind, StateT.bind, spolyVector, hsz, ne_eq, not_true]; rfl
          · have hK : ¬ X.kind = Y.kind := fun h => hk (hkk.1 h)
            simp only [returnType, hK, false_and, if_false, bind, StateT.bind, polyVector, sx, sy, hsz, ne_eq, not_true]; rfl
          · simp only [spushIte, smtIte, h1, ok_bind]; rfl
          · simp only [scoerceBranch, h2, ok_bind]; rfl
          · simp only [coerceBranch, Branch.toObj]
            rw [sx, ← hsz', mkBV_same hwf]; rfl
      · refine .inl ⟨.inconsistentSize, ?_, ?_⟩
        · simp only [sreturnType, hsz, and_false, if_false, bind, StateT.bind, spolyVector, ne_eq, not_false_eq_true, if_true]; rfl
        · simp only [returnType, sx, sy, hsz, and_false, if_false, bind, StateT.bind, polyVector, ne_eq, not_false_eq_true, if_true]; rfl
  | _, _, _, _, .proto (c := c) (C := C) (x := x) (X := X) hi hk hc hxc hx, hf, hd => by
    intro i
    cases hf with
    | bit _ => exact .inl ⟨_, rfl, rfl⟩
    | bv _ => exact .inl ⟨_, rfl, rfl⟩
    | other => exact .inl ⟨_, rfl, rfl⟩
    | tup _ => exact .inl ⟨_, rfl, rfl⟩
    | @proto c' C' y Y hi' hk' hc' hyc hy =>
      have sx : X.size = x.size := hx.2.1
      have sy : Y.size = y.size := hy.2.1
      by_cases hcc : c = c'
      · subst hcc
        have hCC : C = C' := by
          obtain ⟨a1, a2, a3⟩ := C
          obtain ⟨b1, b2, b3⟩ := C'
          dsimp only at *
          rw [← hi, ← hi', hc, hc', SKind.At.unique hk hk']
        subst hCC
        have hsz' : (if b then X else Y).size = c.size := by cases b <;> simp [sx, sy, hxc, hyc]
        have hwf : (if b then X else Y).WF := by cases b <;> simp [hx.WF, hy.WF]
        obtain ⟨t, o, h1, h2, h3, h4⟩ := bv_ite (S := S) hs hx hy (hxc.trans hyc.symm) hk
        refine .inr ⟨.fromBV c, .fromBV C, i, ?_, ?_, .term t, .bv (if b then X else Y), ?_, ?_, .proto c o,
            .proto C ⟨C.kind, x.size, (if b then X else Y).value⟩, ?_, ?_, .proto hi hk hc (h4.trans hxc) h3⟩
        · simp only [sreturnType, if_true]; rfl
        · simp only [returnType, if_true]; rfl
        · simp only [spushIte, if_true, smtIte, h1, ok_bind]; rfl
        · simp only [pushIte, if_true]
        · simp only [scoerceBranch, ← hxc, h2, ok_bind]; rfl
        · simp only [coerceBranch, Branch.toObj]
          rw [hc, ← hsz', mkBV_same hwf, hsz', hxc]; rfl
      · have hCC : ¬ C = C' := by
          intro h
          exact hcc (hd.2 c (by simp [branchProtos]) c' (by simp [branchProtos]) (by rw [hi, hi', h]))
        refine .inl ⟨.typeError, ?_, ?_⟩
        · simp only [sreturnType, hcc, if_false]; rfl
        · simp only [returnType, hCC, if_false]; rfl
  | _, _, _, _, .other, hf, hd => by
    intro i
    cases hf <;> exact .inl ⟨_, rfl, rfl⟩
theorem iteRels {s : Term} {b : Bool} (hs : DenBit e s b) : ∀ {t f : List SBranch} {T F : List Branch},
    DenBranches e t T → DenBranches e f F → t.length = f.length →
    ClassesDistinct e (branchesKinds t) (branchesKinds f) (branchesProtos t) (branchesProtos f) →
    IteRels S e s b t f T F
  | _, _, _, _, .nil, .nil, _, _ => fun i =>
    .inr ⟨[], [], i, rfl, rfl, [], [], rfl, rfl, rfl, rfl, [], [], rfl, rfl, .nil⟩
  | _, _, _, _, .nil, .cons _ _, h, _ => by cases h
  | _, _, _, _, .cons _ _, .nil, h, _ => by cases h
  | _, _, _, _, .cons (x := x) (X := X) (l := l) (L := L) hx hl, .cons (x := y) (X := Y) (l := m) (L := M) hy hm, hlen, hd => by
    intro i
    have hd1 : ClassesDistinct e (branchKinds x) (branchKinds y) (branchProtos x) (branchProtos y) :=
      ⟨fun k hk k' hk' => hd.1 k (by simp [branchesKinds, hk]) k' (by simp [branchesKinds, hk']),
       fun k hk k' hk' => hd.2 k (by simp [branchesProtos, hk]) k' (by simp [branchesProtos, hk'])⟩
    have hd2 : ClassesDistinct e (branchesKinds l) (branchesKinds m) (branchesProtos l) (branchesProtos m) :=
      ⟨fun k hk k' hk' => hd.1 k (by simp [branchesKinds, hk]) k' (by simp [branchesKinds, hk']),
       fun k hk k' hk' => hd.2 k (by simp [branchesProtos, hk]) k' (by simp [branchesProtos, hk'])⟩
    rcases iteRel hs hx hy hd1 i with ⟨err, h1, h2⟩ | ⟨r, R, j, h1, h2, v, V, h3, h4, o, O, h5, h6, h7⟩
    · refine .inl ⟨err, ?_, ?_⟩
      · simp only [sreturnTypes, bind, StateT.bind, h1, Except.bind]
      · simp only [returnTypes, bind, StateT.bind, h2, Except.bind]
    · rcases iteRels hs hl hm (by simpa using hlen) hd2 j with
        ⟨err, g1, g2⟩ | ⟨r', R', j', g1, g2, v', V', g3, g4, l1, l2, o', O', g5, g6, g7⟩
      · refine .inl ⟨err, ?_, ?_⟩
        · simp only [sreturnTypes, bind, StateT.bind, h1, Except.bind, g1]
        · simp only [returnTypes, bind, StateT.bind, h2, Except.bind, g2]
      · refine .inr ⟨r :: r', R :: R', j', ?_, ?_, v :: v', V :: V', ?_, ?_, by simp [l1], by simp [l2], o :: o', O :: O', ?_, ?_,
          .cons h7 g7⟩
        · simp only [sreturnTypes, bind, StateT.bind, h1, Except.bind, g1]; rfl
        · simp only [returnTypes, bind, StateT.bind, h2, Except.bind, g2]; rfl
        · simp only [spushItes, h3, ok_bind, g3]; rfl
        · simp only [pushItes, h4, ok_bind, g4]; rfl
        · simp only [scoerceBranches, h5, ok_bind, g5]; rfl
        · simp only [coerceBranches, h6, ok_bind, g6]; rfl
end
end

variable (S : Simplifier)

/-- **C38** `SMTBit.ite` denotes `Bit.ite` of what its arguments denote, exceptions included, through
tuples, protocol objects and mixed vector classes. -/
theorem C38_ite {e : Env} {s : Term} {b : Bool} {t f : SBranch} {T F : Branch} (hs : DenBit e s b)
    (ht : DenBranch e t T) (hf : DenBranch e f F)
    (hd : ClassesDistinct e (branchKinds t) (branchKinds f) (branchProtos t) (branchProtos f)) (i : Nat) :
    RelM (fun r R => DenBranch e r.1 R.1 ∧ r.2 = R.2) (sIte S s t f i) (HW.ite b T F i) := by
  rcases iteRel (S := S) hs ht hf hd i with ⟨err, h1, h2⟩ | ⟨r, R, j, h1, h2, v, V, h3, h4, o, O, h5, h6, h7⟩
  · simp only [sIte, HW.ite, bind, StateT.bind, h1, h2, Except.bind]; rfl
  · simp only [sIte, HW.ite, bind, StateT.bind, h1, h2, Except.bind, h3, h4, h5, h6, pyLift, Except.map]
    exact ⟨h7, rfl⟩

/-- **C38** `SMTBitVector.ite`. -/
theorem C38_vector_ite {e : Env} {x : SBV} {X : BVal} {t f : SBranch} {T F : Branch} (hx : Den e x X)
    (hn : 0 < x.size) (ht : DenBranch e t T) (hf : DenBranch e f F)
    (hd : ClassesDistinct e (branchKinds t) (branchKinds f) (branchProtos t) (branchProtos f)) (i : Nat) :
    RelM (fun r R => DenBranch e r.1 R.1 ∧ r.2 = R.2) (x.ite S t f i) (X.ite T F i) := by
  have h := C34_bvne S e x X (.int 0) (.int 0) hx .int hn trivial
  unfold SBV.ite BVal.ite
  cases h1 : x.bvne S (.int 0) with
  | error err =>
    rw [h1] at h
    cases h2 : X.bvne (.int 0) with
    | error err' => rw [h2] at h; simp only [bind, StateT.bind, pyLift, Except.map, Except.bind]; exact h
    | ok _ => rw [h2] at h; exact h.elim
  | ok c =>
    rw [h1] at h
    cases h2 : X.bvne (.int 0) with
    | error err' => rw [h2] at h; exact h.elim
    | ok C =>
      rw [h2] at h
      simp only [bind, StateT.bind, pyLift, Except.map, Except.bind]
      exact C38_ite S h ht hf hd i

/-- **C38** branch selection spelled out for two vectors of one class: the result denotes the selected
one. -/
theorem C38_selects {e : Env} {s : Term} {b : Bool} {x y : SBV} {X Y : BVal} (hs : DenBit e s b) (hx : Den e x X)
    (hy : Den e y Y) (hk : x.kind = y.kind) (hn : x.size = y.size) (i : Nat) :
    ∃ z, sIte S s (.bv x) (.bv y) i = .ok (.bv z, i) ∧ Den e z (if b then X else Y) := by
  obtain ⟨t, o, h1, h2, h3, h4⟩ := bv_ite (S := S) hs hx hy hn hx.1
  refine ⟨o, ?_, ?_⟩
  · simp only [sIte, sreturnType, hk, hn, and_self, if_true, spushIte, smtIte, h1]
    rw [hk, hn] at h2
    simp only [bind, StateT.bind, pure, StateT.pure, Except.pure, Except.bind, pyLift, Except.map, scoerceBranch, h2]
  · cases b
    · have : (⟨X.kind, x.size, Y.value⟩ : BVal) = Y := by
        obtain ⟨a, c, d⟩ := Y
        dsimp only
        rw [hn, ← hy.2.1, SKind.At.unique hx.1 (hk ▸ hy.1)]
      simpa [this] using h3
    · have : (⟨X.kind, x.size, X.value⟩ : BVal) = X := by
        obtain ⟨a, c, d⟩ := X
        dsimp only
        rw [← hx.2.1]
      simpa [this] using h3

example : ClassesDistinct env200 (branchKinds (.tup [.bv symX, .bit (.boolC true)]))
    (branchKinds (.tup [.bv symX, .bit (.boolC false)])) [] [] ∧
    DenBranch env200 (.tup [.bv symX, .bit (.boolC true)]) (.tup [.bv ⟨.root .bv, 8, 200⟩, .bit true]) := by
  refine ⟨⟨?_, by simp⟩, .tup (.cons (.bv ⟨rfl, rfl, 200#8, by decide, by decide⟩) (.cons (.bit rfl) .nil))⟩
  intro k hk k' hk' K _ _
  simp [branchKinds, branchesKinds] at hk hk'
  rw [hk, hk']
example : sIte noSimp (.sym ['c'] .bool) (.bv symX) (.bv ⟨.root .sint, 8, .bvC 5 8⟩) 4 =
    .ok (.bv ⟨.poly 4 (.root .bv) (.root .sint) (.sym ['c'] .bool), 8,
      .ite (.sym ['c'] .bool) (.sym ['x'] (.bv 8)) (.bvC 5 8)⟩, 5) := by rfl

/-! ## C39 -/

/-- The last pair given for the symbol `k`. -/
def lastSub (k : Name × Ty) : List ((Name × Ty) × Term) → Option Term
  | [] => none
  | p :: l => match lastSub k l with
    | some t => some t
    | none => if p.1 = k then some p.2 else none

/-- `e'` is `e` with every substituted symbol set to the value, under `e`, of what replaces it. -/
def SubstEnv (e e' : Env) (subs : List ((Name × Ty) × Term)) : Prop :=
  ∀ n τ, some (e'.get n τ) = match lastSub (n, τ) subs with
    | some t => t.eval e
    | none => some (e.get n τ)

theorem find?_reverse_lastSub (k : Name × Ty) : ∀ (l : List ((Name × Ty) × Term)),
    (l.reverse.find? fun p => p.1 == k).map (·.2) = lastSub k l
  | [] => rfl
  | p :: l => by
    have ih := find?_reverse_lastSub k l
    simp only [List.reverse_cons, List.find?_append, lastSub]
    rw [← ih]
    cases h : l.reverse.find? fun p => p.1 == k with
    | some q => simp
    | none =>
      by_cases hp : p.1 = k <;> simp [hp]

theorem eval_subst {e e' : Env} {subs : List ((Name × Ty) × Term)} (h : SubstEnv e e' subs) :
    ∀ t : Term, (t.subst (subsDict subs)).eval e = t.eval e'
  | .sym n τ => by
    have := h n τ
    simp only [Term.subst, subsDict, find?_reverse_lastSub, Term.eval]
    rw [this]
    cases lastSub (n, τ) subs <;> rfl
  | .boolC _ | .intC _ | .bvC _ _ => rfl
  | .un op t => by simp only [Term.subst, Term.eval, eval_subst h t]
  | .bin op a b => by simp only [Term.subst, Term.eval, eval_subst h a, eval_subst h b]
  | .ite c t f => by simp only [Term.subst, Term.eval, eval_subst h c, eval_subst h t, eval_subst h f]

/-- **C39** such an assignment exists whenever every symbol is replaced by a term of its sort. -/
theorem C39_assignment_exists (e : Env) (subs : List ((Name × Ty) × Term)) (h : ∀ p ∈ subs, p.2.ty? = some p.1.2) :
    ∃ e', SubstEnv e e' subs := by
  have hl : ∀ (k : Name × Ty) (t : Term), lastSub k subs = some t → t.ty? = some k.2 := by
    intro k t
    clear e
    induction subs with
    | nil => intro h; cases h
    | cons p l ih =>
      intro hq
      simp only [lastSub] at hq
      split at hq
      · rename_i t' ht'
        cases hq
        exact ih (fun p hp => h p (List.mem_cons_of_mem _ hp)) ht'
      · split at hq
        · rename_i hpk
          cases hq
          rw [h p List.mem_cons_self, hpk]
        · cases hq
  refine ⟨⟨fun n => match lastSub (n, .bool) subs with
      | some t => (match t.eval e with | some (.bool b) => b | _ => false) | none => e.bool n,
    fun n => match lastSub (n, .int) subs with
      | some t => (match t.eval e with | some (.int b) => b | _ => 0) | none => e.int n,
    fun n w => match lastSub (n, .bv w) subs with
      | some t => (match t.eval e with | some (.bv w' b) => if h : w' = w then h ▸ b else 0 | _ => 0)
      | none => e.bv n w⟩, ?_⟩
  intro n τ
  cases hs : lastSub (n, τ) subs with
  | none => cases τ <;> simp [Env.get, hs]
  | some t =>
    obtain ⟨v, hv, hty⟩ := ty_eval e (hl _ _ hs)
    dsimp only at hty
    subst hty
    cases v <;> simp [Env.get, Val.ty] at hs ⊢ <;> simp [hs, hv]

/-- **C39** vectors: the substituted vector denotes what the original denotes under the updated
assignment, in class `SMTBitVector[size]`. -/
theorem C39_vector {e e' : Env} {subs : List ((Name × Ty) × Term)} (h : SubstEnv e e' subs) {x : SBV} {X : BVal}
    (hx : Den e' x X) :
    ∃ y, x.substitute S subs = .ok y ∧ Den e y ⟨.root .bv, X.size, X.value⟩ := by
  obtain ⟨k, K, n, t, a, rfl, rfl, hkK, ht⟩ := hx.cases
  have hev : (t.subst (subsDict subs)).eval e = some (.bv n a) := by rw [eval_subst h, ht]
  obtain ⟨o, h1, h2, h3, h4⟩ := bvF_den (S := S) (k := .root .bv) (K := .root .bv) rfl hev
  exact ⟨o, h1, h4⟩

/-- **C39** bits. -/
theorem C39_bit {e e' : Env} {subs : List ((Name × Ty) × Term)} (h : SubstEnv e e' subs) {t : Term} {b : Bool}
    (ht : DenBit e' t b) : ∃ u, substBit S t subs = .ok u ∧ DenBit e u b := by
  have hev : (t.subst (subsDict subs)).eval e = some (.bool b) := by rw [eval_subst h]; exact ht
  exact ⟨_, by simp [substBit, bitF, eval_ty hev, Val.ty], S.eval _ _ _ hev⟩

/-- **C39** substitution is simultaneous: exchanging two variables exchanges their values. -/
theorem C39_swap (e : Env) (n : Nat) (p q : Name) (hpq : p ≠ q) :
    ∃ e', SubstEnv e e' [((p, .bv n), .sym q (.bv n)), ((q, .bv n), .sym p (.bv n))] ∧
      e'.bv p n = e.bv q n ∧ e'.bv q n = e.bv p n := by
  obtain ⟨e', h⟩ := C39_assignment_exists e [((p, .bv n), .sym q (.bv n)), ((q, .bv n), .sym p (.bv n))]
    (by simp [Term.ty?])
  refine ⟨e', h, ?_, ?_⟩
  · have := h p (.bv n)
    simpa [lastSub, hpq.symm, Term.eval, Env.get] using this
  · have := h q (.bv n)
    simpa [lastSub, Term.eval, Env.get] using this

example : (symX.substitute noSimp [((['x'], .bv 8), .bvC 3 8)]) = .ok ⟨.root .bv, 8, .bvC 3 8⟩ := by decide

end HW
