import Verif.Spec.MixedIte
import Verif.Props.Mixed
import Verif.Props.Z3Ite

/-!
# Property C147: `ite` with selector and branches from different families
-/

namespace HW
open Spec Mixed
open Smt (SBV SKind Term Simplifier Den DenBit node bvF bitF mkSBV mkSBit toI ok_bind)

namespace Mixed
variable {S : Simplifier} {e : Smt.Env} {z : Z3.Env}

/-- Constructing an object of the class it already has keeps it. -/
theorem castLeaf_same (l : Leaf) {c₀ : Content} (h : l.Holds e z c₀) :
    ∃ w, castLeaf S l.cls (.leaf l) = .ok w ∧ w.cls = l.cls ∧ ∀ c, l.Holds e z c → w.Holds e z c := by
  cases l with
  | cbit b => exact ⟨.cbit b, rfl, rfl, fun _ h => h⟩
  | cbv x =>
    cases c₀ with
    | bit _ => exact h.elim
    | vec n v =>
      refine ⟨.cbv x, ?_, rfl, fun _ h => h⟩
      simp only [Leaf.cls, castLeaf, mkBV_bv, ok_bind, h.1.mod_eq]; rfl
  | sbit t =>
    refine ⟨.sbit (S.run t), rfl, rfl, fun c hc => ?_⟩
    cases c with
    | bit _ => exact S.eval _ _ _ hc
    | vec _ _ => exact hc
  | sbv x =>
    refine ⟨.sbv ⟨x.kind, x.size, S.run x.term⟩, ?_, rfl, fun c hc => ?_⟩
    · simp only [Leaf.cls, castLeaf, mkSBV, Int.sub_self, lt_self_iff_false, if_false, pure_bind]; rfl
    · cases c with
      | bit _ => exact hc
      | vec n v =>
        obtain ⟨X, hX, h1, h2⟩ := hc
        obtain ⟨k, K, n, t, b, rfl, rfl, hk, ht⟩ := hX.cases
        exact ⟨_, ⟨hk, rfl, b, S.eval _ _ _ ht, rfl⟩, h1, h2⟩
  | zbit b => exact ⟨.zbit b, rfl, rfl, fun _ h => h⟩
  | zbv x =>
    cases c₀ with
    | bit _ => exact h.elim
    | vec n v =>
      obtain ⟨X, hX, -, -⟩ := h
      obtain ⟨r, n, d, rfl, rfl, hn⟩ := hX.cases
      refine ⟨.zbv ⟨r, n, ⟨n, d⟩⟩, ?_, rfl, fun _ h => h⟩
      simp only [Leaf.cls, castLeaf, Z3.mkZBV, Z3.sort_ok hn, Int.sub_self, lt_self_iff_false, if_false, if_true,
        ok_bind]
      rfl

/-- The SMT `Ite` of two vectors, in a class of their width. -/
theorem term_vec {s t f : Term} {b : Bool} {n : Nat} {a a' : BitVec n} (hs : DenBit e s b)
    (ht : t.eval e = some (.bv n a)) (hf : f.eval e = some (.bv n a')) (k : SKind) :
    node (.ite s t f) = .ok (.ite s t f) ∧ bvF S k n (.ite s t f) = .ok ⟨k, n, S.run (.ite s t f)⟩ ∧
      (S.run (.ite s t f)).eval e = some (.bv n (if b then a else a')) := by
  have h : (Term.ite s t f).eval e = some (.bv n (if b then a else a')) := by
    rw [ite_term hs ht hf rfl]; cases b <;> rfl
  exact ⟨Smt.node_ok h, by simp [bvF, Smt.eval_ty h, Smt.Val.ty], S.eval _ _ _ h⟩

theorem term_bit {s t f : Term} {b B B' : Bool} (hs : DenBit e s b) (ht : DenBit e t B) (hf : DenBit e f B') :
    node (.ite s t f) = .ok (.ite s t f) ∧ bitF S (.ite s t f) = .ok (S.run (.ite s t f)) ∧
      DenBit e (S.run (.ite s t f)) (if b then B else B') := by
  have h : (Term.ite s t f).eval e = some (.bool (if b then B else B')) := by
    rw [ite_term hs ht hf rfl]; cases b <;> rfl
  exact ⟨Smt.node_ok h, by simp [bitF, Smt.eval_ty h, Smt.Val.ty], S.eval _ _ _ h⟩

/-- The selector can read these leaves. -/
def Served (sel : Sel) (t : XBranch) : Prop := sel.family = .smt → ∀ l, IsLeaf l t → l.cls.family = .smt

/-- What happens to two leaves of a class that `determine_return_type` accepts. -/
def LeafPhase (S : Simplifier) (e : Smt.Env) (z : Z3.Env) (sel : Sel) (b : Bool) (t f : Leaf) : Prop :=
  ∀ i, ∃ c i', leafType sel t f i = .ok (c, i') ∧
    (((sel.family = .smt → t.cls.family = .smt) ∧ ∃ v w, leafIte sel t f = .ok v ∧ castLeaf S c v = .ok w ∧
        Picks e z b (.leaf t) (.leaf f) (.leaf w)) ∨
      (sel.family = .smt ∧ t.cls.family ≠ .smt ∧ leafIte sel t f = .error .attributeError))

theorem leafType_same (sel : Sel) {t f : Leaf} (h : t.cls = f.cls) (i : Nat) : leafType sel t f i = .ok (t.cls, i) := by
  unfold leafType
  rw [← h]
  cases hw : t.cls.width <;> simp [pure, StateT.pure, Except.pure]

theorem leaf_same (sel : Sel) {b : Bool} {t f : Leaf} (hs : sel.Is e b) (h : t.cls = f.cls) {c c' : Content}
    (ht : t.Holds e z c) (hf : f.Holds e z c') : LeafPhase S e z sel b t f := by
  intro i
  refine ⟨_, _, leafType_same sel h i, ?_⟩
  cases sel with
  | conc b' =>
    cases (show b' = b from hs)
    refine .inl ⟨nofun, ?_⟩
    have key : ∃ c, (if b then t else f).Holds e z c := by cases b <;> [exact ⟨_, hf⟩; exact ⟨_, ht⟩]
    have hc : (if b then t else f).cls = t.cls := by cases b <;> simp [h]
    obtain ⟨c, hc₀⟩ := key
    obtain ⟨w, h1, h2, h3⟩ := castLeaf_same (S := S) _ hc₀
    rw [hc] at h1 h2
    exact ⟨_, w, rfl, h1, .leaf (by rw [h2]) (by rw [h2, h]) h3 fun _ => h2⟩
  | smt s =>
    have hs : DenBit e s b := hs
    cases t with
    | cbit _ => exact .inr ⟨rfl, nofun, rfl⟩
    | cbv _ => exact .inr ⟨rfl, nofun, rfl⟩
    | zbit _ => exact .inr ⟨rfl, nofun, rfl⟩
    | zbv _ => exact .inr ⟨rfl, nofun, rfl⟩
    | sbit t =>
      cases f with
      | sbit f =>
        cases c with
        | vec _ _ => exact ht.elim
        | bit B =>
          cases c' with
          | vec _ _ => exact hf.elim
          | bit B' =>
            obtain ⟨h1, h2, -⟩ := term_bit (S := S) hs ht hf
            refine .inl ⟨fun _ => rfl, .term (.ite s t f), .sbit (S.run (.ite s t f)), ?_, ?_,
              .leaf rfl rfl (fun c hc => ?_) fun _ => rfl⟩
            · simp only [leafIte, Leaf.term, ok_bind, h1]; rfl
            · simp only [Leaf.cls, castLeaf, h2]; rfl
            · cases c with
              | vec _ _ => cases b <;> exact hc.elim
              | bit C =>
                cases b
                · exact (term_bit (S := S) hs ht hc).2.2
                · exact (term_bit (S := S) hs hc hf).2.2
      | _ => simp [Leaf.cls] at h
    | sbv x =>
      cases f with
      | sbv y =>
        cases c with
        | bit _ => exact ht.elim
        | vec n v =>
          cases c' with
          | bit _ => exact hf.elim
          | vec n' v' =>
            obtain ⟨X, hX, -, -⟩ := ht
            obtain ⟨Y, hY, -, -⟩ := hf
            obtain ⟨k, K, n, t, a, rfl, rfl, hk, htm⟩ := hX.cases
            obtain ⟨k', K', n', t', a', rfl, rfl, hk', htm'⟩ := hY.cases
            simp only [Leaf.cls, Cls.svec.injEq] at h
            obtain ⟨rfl, rfl⟩ := h
            obtain ⟨h1, h2, h3⟩ := term_vec (S := S) hs htm htm' k
            refine .inl ⟨fun _ => rfl, .term (.ite s t t'), .sbv ⟨k, n, S.run (.ite s t t')⟩, ?_, ?_,
              .leaf rfl rfl (fun c hc => ?_) fun _ => rfl⟩
            · simp only [leafIte, Leaf.term, ok_bind, h1]; rfl
            · simp only [Leaf.cls, castLeaf, h2]; rfl
            · cases c with
              | bit _ => cases b <;> exact hc.elim
              | vec m u =>
                cases b
                · obtain ⟨Z, ⟨z1, z2, d, z3, z4⟩, hm, hu⟩ := hc
                  rw [htm'] at z3; cases z3
                  exact ⟨Z, ⟨z1, z2, a', h3, z4⟩, hm, hu⟩
                · obtain ⟨Z, ⟨z1, z2, d, z3, z4⟩, hm, hu⟩ := hc
                  rw [htm] at z3; cases z3
                  exact ⟨Z, ⟨z1, z2, a, h3, z4⟩, hm, hu⟩
      | _ => simp [Leaf.cls] at h

theorem leaf_poly (sel : Sel) {b : Bool} {t f : Leaf} (hs : sel.Is e b) (hne : t.cls ≠ f.cls) {n : Nat}
    (h1 : t.cls.family = sel.family) (h2 : f.cls.family = sel.family) (h3 : t.cls.width = some n)
    (h4 : f.cls.width = some n) {c c' : Content} (ht : t.Holds e z c) (hf : f.Holds e z c') :
    LeafPhase S e z sel b t f := by
  intro i
  have hty : leafType sel t f i = polyVec sel t.cls f.cls i := by
    unfold leafType
    rw [h3, h4]
    simp only [hne, if_false]
  rw [hty]
  unfold polyVec
  rw [h3, h4, h1, h2]
  simp only [ne_eq, not_true, or_self, if_false]
  cases sel with
  | conc b' =>
    cases (show b' = b from hs)
    cases t with
    | cbv x =>
      cases f with
      | cbv y =>
        simp only [Leaf.cls, Cls.width, Option.some.injEq] at h3 h4
        refine ⟨_, _, rfl, .inl ⟨nofun, _, .cbv ⟨.poly i x.kind y.kind b, n, (if b then x else y).value⟩, rfl, ?_,
          .leaf rfl rfl (fun c hc => ?_) fun h => (hne h).elim⟩⟩
        · cases c with
          | bit _ => exact ht.elim
          | vec _ _ =>
            cases c' with
            | bit _ => exact hf.elim
            | vec _ _ =>
              have hx := ht.1.mod_eq
              have hy := hf.1.mod_eq
              rw [h3] at hx; rw [h4] at hy
              cases b
              · simp only [Bool.false_eq_true, if_false, castLeaf, mkBV_bv, ok_bind, h3, hy]; rfl
              · simp only [if_true, castLeaf, mkBV_bv, ok_bind, h3, hx]; rfl
        · cases b <;> cases c with
            | bit _ => exact hc.elim
            | vec m v =>
              obtain ⟨w1, w2, w3⟩ := hc
              refine ⟨?_, ?_, w3⟩
              · have := w1; unfold BVal.WF at this ⊢; simpa [h3, h4] using this
              · simp only [← w2, h3, h4]
      | _ => simp [Leaf.cls, Cls.width, Cls.family, Sel.family] at h2 h4
    | _ => simp [Leaf.cls, Cls.width, Cls.family, Sel.family] at h1 h3
  | smt s =>
    have hs : DenBit e s b := hs
    cases t with
    | sbv x =>
      cases f with
      | sbv y =>
        cases c with
        | bit _ => exact ht.elim
        | vec _ _ =>
          cases c' with
          | bit _ => exact hf.elim
          | vec _ _ =>
            obtain ⟨X, hX, -, -⟩ := ht
            obtain ⟨Y, hY, -, -⟩ := hf
            obtain ⟨k, K, m, t, a, rfl, rfl, hk, htm⟩ := hX.cases
            obtain ⟨k', K', m', t', a', rfl, rfl, hk', htm'⟩ := hY.cases
            simp only [Leaf.cls, Cls.width, Option.some.injEq] at h3 h4
            subst h3 h4
            obtain ⟨g1, g2, g3⟩ := term_vec (S := S) hs htm htm' (.poly i k k' s)
            have hat : (SKind.poly i k k' s).At e (.poly i K K' b) := ⟨K, K', b, hk, hk', hs, rfl⟩
            refine ⟨_, _, rfl, .inl ⟨fun _ => rfl, .term (.ite s t t'),
              .sbv ⟨.poly i k k' s, m', S.run (.ite s t t')⟩, ?_, ?_,
              .leaf rfl rfl (fun c hc => ?_) fun h => (hne h).elim⟩⟩
            · simp only [leafIte, Leaf.term, ok_bind, g1]; rfl
            · simp only [castLeaf, g2]; rfl
            · cases b <;> cases c with
                | bit _ => exact hc.elim
                | vec q u =>
                  obtain ⟨Z, ⟨z1, z2, d, z3, z4⟩, hm, hu⟩ := hc
                  first
                  | (rw [htm'] at z3; cases z3
                     exact ⟨⟨_, m', Z.value⟩, ⟨hat, rfl, a', g3, z4⟩, hm ▸ z2.symm, hu⟩)
                  | (rw [htm] at z3; cases z3
                     exact ⟨⟨_, m', Z.value⟩, ⟨hat, rfl, a, g3, z4⟩, hm ▸ z2.symm, hu⟩)
      | _ => simp [Leaf.cls, Cls.width, Cls.family, Sel.family] at h2 h4
    | _ => simp [Leaf.cls, Cls.width, Cls.family, Sel.family] at h1 h3

/-- The three phases on branches that fit. -/
def Phase (S : Simplifier) (e : Smt.Env) (z : Z3.Env) (sel : Sel) (b : Bool) (t f : XBranch) : Prop :=
  ∀ i, ∃ r i', xType sel t f i = .ok (r, i') ∧
    ((Served sel t ∧ ∃ v w, xPush sel t f = .ok v ∧ xCoerce S r v = .ok w ∧ Picks e z b t f w) ∨
      (¬ Served sel t ∧ xPush sel t f = .error .attributeError))

def Phases (S : Simplifier) (e : Smt.Env) (z : Z3.Env) (sel : Sel) (b : Bool) (t f : List XBranch) : Prop :=
  ∀ i, ∃ r i', xTypes sel t f i = .ok (r, i') ∧
    (((∀ x ∈ t, Served sel x) ∧ ∃ v w, xPushes sel t f = .ok v ∧ r.length = v.length ∧ xCoerces S r v = .ok w ∧
        PicksAll e z b t f w) ∨
      ((¬ ∀ x ∈ t, Served sel x) ∧ xPushes sel t f = .error .attributeError))

theorem isLeaf_leaf {l t : Leaf} (h : IsLeaf l (.leaf t)) : l = t := by cases h; rfl

theorem served_leaf {sel : Sel} {t : Leaf} : Served sel (.leaf t) ↔ (sel.family = .smt → t.cls.family = .smt) :=
  ⟨fun h hs => h hs _ .leaf, fun h hs _ hl => isLeaf_leaf hl ▸ h hs⟩

theorem served_tup {sel : Sel} {ts : List XBranch} : Served sel (.tup ts) ↔ ∀ x ∈ ts, Served sel x :=
  ⟨fun h _ hx hs l hl => h hs l (.tup hx hl), fun h hs l hl => by cases hl with | tup hx hl => exact h _ hx hs l hl⟩

theorem fitsAll_length {s : Fam} : ∀ {ts fs : List XBranch}, FitsAll s ts fs → ts.length = fs.length
  | _, _, .nil => rfl
  | _, _, .cons _ h => by simp [fitsAll_length h]

theorem phase_leaf {sel : Sel} {b : Bool} {t f : Leaf} (h : LeafPhase S e z sel b t f) :
    Phase S e z sel b (.leaf t) (.leaf f) := by
  intro i
  obtain ⟨c, i', h1, h2⟩ := h i
  refine ⟨.cls c, i', ?_, ?_⟩
  · simp only [xType, bind, StateT.bind, h1, Except.bind]; rfl
  · rcases h2 with ⟨g, v, w, h3, h4, h5⟩ | ⟨g, g', h3⟩
    · refine .inl ⟨served_leaf.2 g, v, .leaf w, h3, ?_, h5⟩
      simp only [xCoerce, h4, ok_bind]; rfl
    · exact .inr ⟨fun h => g' (served_leaf.1 h g), h3⟩

mutual
theorem phase {sel : Sel} {b : Bool} (hs : sel.Is e b) : ∀ {t f : XBranch}, Fits sel.family t f →
    t.Meaningful e z → f.Meaningful e z → Phase S e z sel b t f
  | _, _, .same h, ht, hf => by
    obtain ⟨c, hc⟩ := ht _ .leaf
    obtain ⟨c', hc'⟩ := hf _ .leaf
    exact phase_leaf (leaf_same sel hs h hc hc')
  | _, _, .poly (t := t) (f := f) h1 h2 h3 h4, ht, hf => by
    obtain ⟨c, hc⟩ := ht _ .leaf
    obtain ⟨c', hc'⟩ := hf _ .leaf
    by_cases he : t.cls = f.cls
    · exact phase_leaf (leaf_same sel hs he hc hc')
    · exact phase_leaf (leaf_poly sel hs he h1 h2 h3 h4 hc hc')
  | _, _, .tup (ts := ts) (fs := fs) h, ht, hf => by
    intro i
    have hl := fitsAll_length h
    obtain ⟨r, i', h1, h2⟩ := phases hs h (fun x hx l hl => ht l (.tup hx hl)) (fun x hx l hl => hf l (.tup hx hl)) i
    refine ⟨.tup r, i', by simp only [xType, hl, if_true, h1], ?_⟩
    rcases h2 with ⟨g, v, w, h3, h4, h5, h6⟩ | ⟨g, h3⟩
    · refine .inl ⟨served_tup.2 g, .tup v, .tup w, ?_, ?_, .tup h6⟩
      · simp only [xPush, hl, if_true, h3, ok_bind]; rfl
      · simp only [xCoerce, h4, if_true, h5, ok_bind]; rfl
    · refine .inr ⟨fun h => g (served_tup.1 h), ?_⟩
      simp only [xPush, hl, if_true, h3]; rfl
theorem phases {sel : Sel} {b : Bool} (hs : sel.Is e b) : ∀ {t f : List XBranch}, FitsAll sel.family t f →
    (∀ x ∈ t, x.Meaningful e z) → (∀ x ∈ f, x.Meaningful e z) → Phases S e z sel b t f
  | _, _, .nil, _, _ => fun i => ⟨[], i, rfl, .inl ⟨by simp, [], [], rfl, rfl, rfl, .nil⟩⟩
  | _, _, .cons (t := t) (f := f) (ts := ts) (fs := fs) h hr, ht, hf => by
    intro i
    obtain ⟨r, i1, h1, h2⟩ := phase hs h (ht _ (by simp)) (hf _ (by simp)) i
    obtain ⟨rs, i2, g1, g2⟩ := phases hs hr (fun x hx => ht x (by simp [hx])) (fun x hx => hf x (by simp [hx])) i1
    refine ⟨r :: rs, i2, ?_, ?_⟩
    · simp only [xTypes, bind, StateT.bind, h1, Except.bind, g1]; rfl
    · rcases h2 with ⟨s, v, w, h3, h4, h5⟩ | ⟨s, h3⟩
      · rcases g2 with ⟨ss, vs, ws, g3, g4, g5, g6⟩ | ⟨ss, g3⟩
        · refine .inl ⟨by simpa using ⟨s, ss⟩, v :: vs, w :: ws, ?_, by simp [g4], ?_, .cons h5 g6⟩
          · simp only [xPushes, h3, ok_bind, g3]; rfl
          · simp only [xCoerces, h4, ok_bind, g5]; rfl
        · refine .inr ⟨fun h => ss fun x hx => h x (by simp [hx]), ?_⟩
          simp only [xPushes, h3, ok_bind, g3]; rfl
      · refine .inr ⟨fun h => s (h t (by simp)), ?_⟩
        simp only [xPushes, h3]; rfl
end

theorem leaf_misfit {sel : Sel} {t f : Leaf} (h : ¬ Fits sel.family (.leaf t) (.leaf f)) (i : Nat) :
    ∃ err, leafType sel t f i = .error err ∧ err.isTypeError = true := by
  have hne : t.cls ≠ f.cls := fun he => h (.same he)
  unfold leafType
  cases ht : t.cls.width with
  | none =>
    cases hf : f.cls.width with
    | none => exact ⟨.typeError, by simp only [hne, if_false]; rfl, rfl⟩
    | some m => exact ⟨.typeError, rfl, rfl⟩
  | some n =>
    cases hf : f.cls.width with
    | none => exact ⟨.typeError, rfl, rfl⟩
    | some m =>
      simp only [hne, if_false, polyVec, ht, hf]
      by_cases hn : n = m
      · subst hn
        have : t.cls.family ≠ f.cls.family ∨ t.cls.family ≠ sel.family := by
          by_contra hc
          simp only [not_or, not_not] at hc
          exact h (.poly hc.2 (hc.1 ▸ hc.2) ht hf)
        exact ⟨.typeError, by simp only [ne_eq, not_true, if_false]; rw [if_pos this], rfl⟩
      · exact ⟨.inconsistentSize, by simp [hn], rfl⟩

theorem leaf_type_ok (sel : Sel) {t f : Leaf} (h : Fits sel.family (.leaf t) (.leaf f)) (i : Nat) :
    ∃ p, leafType sel t f i = .ok p := by
  by_cases he : t.cls = f.cls
  · exact ⟨_, leafType_same sel he i⟩
  · cases h with
    | same h => exact (he h).elim
    | poly h1 h2 h3 h4 =>
      unfold leafType
      rw [h3, h4]
      simp only [he, if_false, polyVec, h1, h2, h3, h4, ne_eq, not_true, or_self]
      cases sel <;> cases t <;> simp [Leaf.cls, Cls.width, Cls.family, Sel.family] at h1 h3 <;>
        cases f <;> simp [Leaf.cls, Cls.width, Cls.family, Sel.family] at h2 h4 <;> exact ⟨_, rfl⟩

mutual
theorem type_ok (sel : Sel) : ∀ {t f : XBranch}, Fits sel.family t f → ∀ i, ∃ p, xType sel t f i = .ok p
  | _, _, .same h, i => ⟨(.cls _, i), by simp only [xType, bind, StateT.bind, leafType_same sel h i, Except.bind]; rfl⟩
  | _, _, .poly h1 h2 h3 h4, i => by
    obtain ⟨p, hp⟩ := leaf_type_ok sel (.poly h1 h2 h3 h4) i
    exact ⟨(.cls p.1, p.2), by simp only [xType, bind, StateT.bind, hp, Except.bind]; rfl⟩
  | _, _, .tup (ts := ts) (fs := fs) h, i => by
    obtain ⟨p, hp⟩ := types_ok sel h i
    exact ⟨(.tup p.1, p.2), by simp only [xType, fitsAll_length h, if_true, hp]⟩
theorem types_ok (sel : Sel) : ∀ {t f : List XBranch}, FitsAll sel.family t f → ∀ i, ∃ p, xTypes sel t f i = .ok p
  | _, _, .nil, i => ⟨([], i), rfl⟩
  | _, _, .cons h hr, i => by
    obtain ⟨p, hp⟩ := type_ok sel h i
    obtain ⟨q, hq⟩ := types_ok sel hr p.2
    exact ⟨(p.1 :: q.1, q.2), by simp only [xTypes, bind, StateT.bind, hp, Except.bind, hq]; rfl⟩
end

mutual
theorem misfit (sel : Sel) : ∀ (t f : XBranch), ¬ Fits sel.family t f → ∀ i,
    ∃ err, xType sel t f i = .error err ∧ err.isTypeError = true
  | .leaf t, .leaf f, h, i => by
    obtain ⟨err, h1, h2⟩ := leaf_misfit h i
    exact ⟨err, by simp only [xType, bind, StateT.bind, h1, Except.bind], h2⟩
  | .tup ts, .tup fs, h, i => by
    by_cases hl : ts.length = fs.length
    · obtain ⟨err, h1, h2⟩ := misfits sel ts fs hl (fun h' => h (.tup h')) i
      exact ⟨.typeError, by simp only [xType, hl, if_true, h1, h2], rfl⟩
    · exact ⟨.typeError, by simp only [xType, hl, if_false]; rfl, rfl⟩
  | .leaf _, .tup _, _, _ => ⟨.typeError, rfl, rfl⟩
  | .leaf _, .other _, _, _ => ⟨.typeError, rfl, rfl⟩
  | .tup _, .leaf _, _, _ => ⟨.typeError, rfl, rfl⟩
  | .tup _, .other _, _, _ => ⟨.typeError, rfl, rfl⟩
  | .other _, _, _, _ => ⟨.typeError, by simp only [xType]; rfl, rfl⟩
theorem misfits (sel : Sel) : ∀ (t f : List XBranch), t.length = f.length → ¬ FitsAll sel.family t f → ∀ i,
    ∃ err, xTypes sel t f i = .error err ∧ err.isTypeError = true
  | [], [], _, h, _ => (h .nil).elim
  | [], _ :: _, hl, _, _ => by simp at hl
  | _ :: _, [], hl, _, _ => by simp at hl
  | t :: ts, f :: fs, hl, h, i => by
    by_cases h1 : ∃ err, xType sel t f i = .error err ∧ err.isTypeError = true
    · obtain ⟨err, h1, h2⟩ := h1
      exact ⟨err, by simp only [xTypes, bind, StateT.bind, h1, Except.bind], h2⟩
    · have hf : Fits sel.family t f := by
        by_contra hc
        exact h1 (misfit sel t f hc i)
      cases hx : xType sel t f i with
      | error err =>
        exfalso
        obtain ⟨err', h2⟩ := type_ok sel hf i
        rw [hx] at h2; cases h2
      | ok p =>
        obtain ⟨err, g1, g2⟩ := misfits sel ts fs (by simpa using hl) (fun h' => h (.cons hf h')) p.2
        exact ⟨err, by simp only [xTypes, bind, StateT.bind, hx, Except.bind, g1], g2⟩
end

end Mixed

variable (S : Simplifier) {e : Smt.Env} {z : Z3.Env}

/-- **C147** a concrete bit selects between any bits and vectors, symbolic ones too: the call returns exactly if the
branches have the same tuple structure and at each place two objects of one class, or two concrete vectors of one
width. -/
theorem C147_returns (b : Bool) {t f : XBranch} (ht : t.Meaningful e z) (hf : f.Meaningful e z) (i : Nat) :
    (∃ w i', xIte S (.conc b) t f i = .ok (w, i')) ↔ Fits .conc t f := by
  constructor
  · rintro ⟨w, i', h⟩
    by_contra hc
    obtain ⟨err, h1, -⟩ := misfit (.conc b) t f hc i
    simp [xIte, bind, StateT.bind, h1, Except.bind] at h
  · intro h
    obtain ⟨r, i', h1, h2⟩ := phase (S := S) (e := e) (z := z) (sel := .conc b) (b := b) rfl h ht hf i
    rcases h2 with ⟨-, v, w, h3, h4, -⟩ | ⟨hn, -⟩
    · exact ⟨w, i', by simp [xIte, bind, StateT.bind, h1, Except.bind, h3, h4, pyLift, Except.map]⟩
    · exact (hn nofun).elim

/-- **C147** what it returns is the selected branch: under every assignment the same contents at every place. -/
theorem C147_selects {b : Bool} {t f w : XBranch} {i i' : Nat} (h : xIte S (.conc b) t f i = .ok (w, i'))
    (ht : t.Meaningful e z) (hf : f.Meaningful e z) : Picks e z b t f w := by
  have hfit := (C147_returns S b ht hf i).1 ⟨w, i', h⟩
  obtain ⟨r, j, h1, h2⟩ := phase (S := S) (e := e) (z := z) (sel := .conc b) (b := b) rfl hfit ht hf i
  rcases h2 with ⟨-, v, w', h3, h4, h5⟩ | ⟨hn, -⟩
  · simp [xIte, bind, StateT.bind, h1, Except.bind, h3, h4, pyLift, Except.map] at h
    obtain ⟨rfl, -⟩ := h
    exact h5
  · exact (hn nofun).elim

/-- **C147** else a `TypeError` (of which `InconsistentSizeError` is a subclass), whatever the selector's family. -/
theorem C147_raises (sel : Sel) {t f : XBranch} (h : ¬ Fits sel.family t f) (i : Nat) :
    ∃ err, xIte S sel t f i = .error err ∧ err.isTypeError = true := by
  obtain ⟨err, h1, h2⟩ := misfit sel t f h i
  exact ⟨err, by simp only [xIte, bind, StateT.bind, h1, Except.bind], h2⟩

/-- **C147** a `SMTBit` selects between symbolic objects only: of one class, or vectors of one width. -/
theorem C147_symbolic_returns {s : Term} {b : Bool} (hs : DenBit e s b) {t f : XBranch} (ht : t.Meaningful e z)
    (hf : f.Meaningful e z) (hz : ∀ l, IsLeaf l t → l.cls.family ≠ .z3) (i : Nat) :
    (∃ w i', xIte S (.smt s) t f i = .ok (w, i')) ↔ Fits .smt t f ∧ ∀ l, IsLeaf l t → l.cls.family ≠ .conc := by
  have hk : (∀ l, IsLeaf l t → l.cls.family ≠ .conc) ↔ Served (.smt s) t := by
    refine ⟨fun h _ l hl => ?_, fun h l hl => by rw [h rfl l hl]; nofun⟩
    cases hc : l.cls.family with
    | smt => rfl
    | conc => exact (h l hl hc).elim
    | z3 => exact (hz l hl hc).elim
  rw [hk]
  constructor
  · rintro ⟨w, i', h⟩
    by_cases hc : Fits .smt t f
    · obtain ⟨r, j, h1, h2⟩ := phase (S := S) (e := e) (z := z) (sel := .smt s) (b := b) hs hc ht hf i
      rcases h2 with ⟨g, -⟩ | ⟨-, h3⟩
      · exact ⟨hc, g⟩
      · simp [xIte, bind, StateT.bind, h1, Except.bind, h3, pyLift, Except.map] at h
    · obtain ⟨err, h1, -⟩ := misfit (.smt s) t f hc i
      simp [xIte, bind, StateT.bind, h1, Except.bind] at h
  · rintro ⟨h, g⟩
    obtain ⟨r, i', h1, h2⟩ := phase (S := S) (e := e) (z := z) (sel := .smt s) (b := b) hs h ht hf i
    rcases h2 with ⟨-, v, w, h3, h4, -⟩ | ⟨hn, -⟩
    · exact ⟨w, i', by simp [xIte, bind, StateT.bind, h1, Except.bind, h3, h4, pyLift, Except.map]⟩
    · exact (hn g).elim

/-- **C147** what it returns denotes, under every assignment, the branch that the selector's value says. -/
theorem C147_symbolic_selects {s : Term} {b : Bool} (hs : DenBit e s b) {t f w : XBranch} {i i' : Nat}
    (h : xIte S (.smt s) t f i = .ok (w, i')) (ht : t.Meaningful e z) (hf : f.Meaningful e z) : Picks e z b t f w := by
  by_cases hc : Fits .smt t f
  · obtain ⟨r, j, h1, h2⟩ := phase (S := S) (e := e) (z := z) (sel := .smt s) (b := b) hs hc ht hf i
    rcases h2 with ⟨-, v, w', h3, h4, h5⟩ | ⟨-, h3⟩
    · simp [xIte, bind, StateT.bind, h1, Except.bind, h3, h4, pyLift, Except.map] at h
      obtain ⟨rfl, -⟩ := h
      exact h5
    · simp [xIte, bind, StateT.bind, h1, Except.bind, h3, pyLift, Except.map] at h
  · obtain ⟨err, h1, -⟩ := misfit (.smt s) t f hc i
    simp [xIte, bind, StateT.bind, h1, Except.bind] at h

/-- **C147** branches that fit but have concrete bits or vectors somewhere: `AttributeError`, since they have no SMT
term. -/
theorem C147_symbolic_attribute {s : Term} {b : Bool} (hs : DenBit e s b) {t f : XBranch} (h : Fits .smt t f)
    (ht : t.Meaningful e z) (hf : f.Meaningful e z) {l : Leaf} (hl : IsLeaf l t) (hc : l.cls.family = .conc) (i : Nat) :
    xIte S (.smt s) t f i = .error .attributeError := by
  obtain ⟨r, j, h1, h2⟩ := phase (S := S) (e := e) (z := z) (sel := .smt s) (b := b) hs h ht hf i
  rcases h2 with ⟨g, -⟩ | ⟨-, h3⟩
  · have := g rfl l hl
    rw [hc] at this; cases this
  · simp only [xIte, bind, StateT.bind, h1, Except.bind, h3, pyLift, Except.map]

/-- **C147** a concrete bit and symbolic vectors of different classes: `TypeError` (`InconsistentSizeError` if the widths
differ too), though either the concrete family or a symbolic selector would make a polymorphic class. -/
theorem C147_classes_refuted (b : Bool) (x y : SBV) (h : x.kind ≠ y.kind) (i : Nat) :
    xIte S (.conc b) (.leaf (.sbv x)) (.leaf (.sbv y)) i =
      .error (if x.size = y.size then .typeError else .inconsistentSize) ∧
    xIte S (.conc b) (.leaf (.zbv (zSym .bv 4 'x'))) (.leaf (.zbv (zSym .uint 4 'y'))) i = .error .typeError ∧
    (∃ w i', xIte S (.conc b) (.leaf (.cbv ⟨.root .bv, 4, 1⟩)) (.leaf (.cbv ⟨.root .uint, 4, 2⟩)) i = .ok (w, i')) ∧
    ∃ w i', xIte S (.smt (.sym ['c'] .bool)) (.leaf (.sbv ⟨.root .bv, 4, .sym ['x'] (.bv 4)⟩))
      (.leaf (.sbv ⟨.root .uint, 4, .sym ['y'] (.bv 4)⟩)) i = .ok (w, i') := by
  refine ⟨?_, rfl, ?_, ⟨_, _, rfl⟩⟩
  · have hne : ¬ (Cls.svec x.kind x.size = Cls.svec y.kind y.size) := by simp [h]
    by_cases hs : x.size = y.size
    · simp [xIte, xType, leafType, Leaf.cls, Cls.width, polyVec, Cls.family, Sel.family, bind, StateT.bind, Except.bind,
        h, hs]
    · simp [xIte, xType, leafType, Leaf.cls, Cls.width, polyVec, bind, StateT.bind, Except.bind, h, hs]
  · cases b <;> exact ⟨_, _, rfl⟩

/-! ### z3 -/

theorem Mixed.zother {e : Z3.Env} (r : Root) {n : Nat} (hn : 0 < n) (v : Int) (b : Option Bool) :
    ∃ y, Z3.mkZBV r n (.other (some v) b) = .ok y ∧ Z3.Den e y ⟨.root r, n, wrap n v⟩ := by
  have h := Z3.mkZBV_rel (e := e) r hn (o := .other (some v) b) .other trivial
  rw [mkBV_eq] at h
  exact h.ok_right

/-- **C147** `z3Bit.ite` with one z3 vector: the concrete branch becomes a vector of that class, its number `int(Y)`
wrapped to that width (so a signed one is sign-extended). -/
theorem C147_z3_one {e : Z3.Env} {c : Z3.BoolE} {C : Bool} (hc : Z3.DenBit e c C) {x : Z3.ZBV} {X Y : BVal}
    (hx : Z3.Den e x X) (hY : Y.WF) (hm : 0 < Y.size) {r' : Root} (hr : Y.kind = .root r') :
    (∃ w, zMixIte c (.z x) (.c (.bv Y)) = .ok w ∧
      Z3.Den e w ⟨.root x.root, x.size, if C then X.value else wrap x.size (intOf Y)⟩) ∧
    ∃ w, zMixIte c (.c (.bv Y)) (.z x) = .ok w ∧
      Z3.Den e w ⟨.root x.root, x.size, if C then wrap x.size (intOf Y) else X.value⟩ := by
  obtain ⟨r, n, d, rfl, rfl, hn⟩ := hx.cases
  obtain ⟨y, hy, hyd⟩ := zother (e := e) r hn (intOf Y) (some (decide (Y.value ≠ 0)))
  have hyt := hyd.attrs rfl
  have hD := Z3.Den.intro (e := e) r d hn rfl
  constructor
  · obtain ⟨w, h1, h2, -⟩ := iteF_rel hc hD hyd hyt.2
    exact ⟨w, by simp only [zMixIte, toZ3_bv hY hm hr, ok_bind, hy]; exact h1, h2⟩
  · obtain ⟨w, h1, h2, -⟩ := iteF_rel hc hyd hD hyt.2.symm
    rw [hyt.1, hyt.2] at h1
    exact ⟨w, by simp only [zMixIte, toZ3_bv hY hm hr, ok_bind, hy]; exact h1, h2⟩

/-- Width and unsigned value of a concrete object. -/
def Mixed.CVal.width : CVal → Nat
  | .bv X => X.size
  | .bit _ => 1
def Mixed.CVal.unsigned : CVal → Int
  | .bv X => X.value
  | .bit b => if b then 1 else 0
/-- A canonical vector of a predefined class, or a bit. -/
def Mixed.CVal.Ok : CVal → Prop
  | .bv X => X.WF ∧ 0 < X.size ∧ ∃ r, X.kind = .root r
  | .bit _ => True

theorem Mixed.zUnsized_den {e : Z3.Env} {o : CVal} (h : o.Ok) :
    ∃ y, zUnsized o = .ok y ∧ Z3.Den e y ⟨.root .bv, o.width, o.unsigned⟩ := by
  cases o with
  | bv X =>
    obtain ⟨hX, hn, r, hr⟩ := h
    obtain ⟨y, hy, hyd⟩ := zother (e := e) .bv hn (intOf X) (some (decide (X.value ≠ 0)))
    rw [C142_z3_value hX] at hyd
    exact ⟨y, by simp only [zUnsized, toZ3_bv hX hn hr, ok_bind]; exact hy, hyd⟩
  | bit b =>
    obtain ⟨y, hy, hyd⟩ := zother (e := e) .bv Nat.one_pos (b2i b) (some b)
    refine ⟨y, hy, ?_⟩
    cases b <;> exact hyd

/-- **C147** `z3Bit.ite` with two concrete branches: a `z3BitVector` of the larger width holding the selected one,
zero-extended (signed ones too); two bits give a vector of width 1, not a bit. -/
theorem C147_z3_both {e : Z3.Env} {c : Z3.BoolE} {C : Bool} (hc : Z3.DenBit e c C) {t f : CVal} (ht : t.Ok) (hf : f.Ok) :
    ∃ w, zMixIte c (.c t) (.c f) = .ok w ∧
      Z3.Den e w ⟨.root .bv, max t.width f.width, if C then t.unsigned else f.unsigned⟩ := by
  obtain ⟨a, ha, had⟩ := zUnsized_den (e := e) ht
  obtain ⟨b, hb, hbd⟩ := zUnsized_den (e := e) hf
  have hat := had.attrs rfl
  have hbt := hbd.attrs rfl
  simp only [zMixIte, ha, hb, ok_bind, hat.1, hat.2, hbt.2]
  generalize t.width = m at *
  generalize f.width = n at *
  rcases lt_trichotomy m n with h | h | h
  · rw [if_neg (by omega), if_pos (by omega)]
    have hz := Z3.zext_rel had ((n : Int) - m)
    rw [C17_zext had.WF, if_neg (by omega)] at hz
    obtain ⟨y, hy, hyd⟩ := hz.ok_right
    have hyt := hyd.attrs rfl
    dsimp only at hyt hyd
    have hnn : m + ((n : Int) - m).toNat = n := by omega
    rw [hnn] at hyt hyd
    obtain ⟨w, h1, h2, -⟩ := iteF_rel hc hyd hbd (by rw [hbt.2, hyt.2])
    rw [show -((m : Int) - n) = (n : Int) - m by omega, hy]
    simp only [ok_bind]
    exact ⟨w, h1, by rw [Nat.max_eq_right (by omega)]; exact h2⟩
  · subst h
    rw [if_neg (by omega), if_neg (by omega)]
    obtain ⟨w, h1, h2, -⟩ := iteF_rel hc had hbd (by rw [hbt.2, hat.2])
    rw [hat.1, hat.2] at h1
    exact ⟨w, h1, by rw [Nat.max_self]; exact h2⟩
  · rw [if_pos (by omega)]
    have hz := Z3.zext_rel hbd ((m : Int) - n)
    rw [C17_zext hbd.WF, if_neg (by omega)] at hz
    obtain ⟨y, hy, hyd⟩ := hz.ok_right
    have hyt := hyd.attrs rfl
    dsimp only at hyt hyd
    have hnn : n + ((m : Int) - n).toNat = m := by omega
    rw [hnn] at hyt hyd
    obtain ⟨w, h1, h2, -⟩ := iteF_rel hc had hyd (by rw [hat.2, hyt.2])
    rw [hat.1, hat.2] at h1
    rw [hy]
    simp only [ok_bind]
    exact ⟨w, h1, by rw [Nat.max_eq_left (by omega)]; exact h2⟩

/-- A tuple of a symbolic vector, a concrete bit and a z3 vector. -/
def mixedBranch (x : SBV) (b : Bool) (c : Char) : XBranch :=
  .tup [.leaf (.sbv x), .tup [.leaf (.cbit b), .leaf (.zbv (zSym .bv 4 c))]]

theorem mixedBranch_meaningful (b : Bool) (c : Char) : (mixedBranch symX b c).Meaningful env200 zEnv9 := by
  intro l hl
  cases hl with
  | tup hm hl =>
    simp only [List.mem_cons, List.not_mem_nil, or_false] at hm
    rcases hm with rfl | rfl
    · cases hl
      exact ⟨.vec 8 200, _, den_x, rfl, rfl⟩
    · cases hl with
      | tup hm hl =>
        simp only [List.mem_cons, List.not_mem_nil, or_false] at hm
        rcases hm with rfl | rfl <;> cases hl
        · exact ⟨.bit b, rfl⟩
        · exact ⟨.vec 4 _, _, Z3.Den.intro .bv (fun e => e.bv [c] 4) (by decide) rfl, rfl, rfl⟩

example (i : Nat) : ∃ w i', xIte noSimp (.conc false) (mixedBranch symX true 'x') (mixedBranch symX false 'y') i = .ok (w, i') :=
  (C147_returns noSimp false (mixedBranch_meaningful true 'x') (mixedBranch_meaningful false 'y') i).2
    (.tup (.cons (.same rfl) (.cons (.tup (.cons (.same rfl) (.cons (.same rfl) .nil))) .nil)))
example (i : Nat) : xIte noSimp (.smt (.sym ['c'] .bool)) (.tup [.leaf (.sbv symX), .leaf (.cbit true)])
    (.tup [.leaf (.sbv symX), .leaf (.cbit false)]) i = .error .attributeError := by
  refine C147_symbolic_attribute (e := env200) (z := zEnv9) noSimp (s := .sym ['c'] .bool) (b := false) rfl
    (.tup (.cons (.same rfl) (.cons (.same rfl) .nil))) ?_ ?_ (.tup (b := .leaf (.cbit true)) (by simp) .leaf) rfl i <;>
  · intro l hl
    cases hl with
    | tup hm hl =>
      simp only [List.mem_cons, List.not_mem_nil, or_false] at hm
      rcases hm with rfl | rfl <;> cases hl
      · exact ⟨.vec 8 200, _, den_x, rfl, rfl⟩
      · exact ⟨.bit _, rfl⟩
example : ¬ Fits .smt (.leaf (.sbv symX)) (.leaf (.cbv ⟨.root .bv, 8, 3⟩)) := by
  intro h
  cases h with
  | same h => cases h
  | poly _ h _ _ => cases h
example : ∃ w, zMixIte (fun _ => false) (.z (zSym .bv 8 'x')) (.c (.bv ⟨.root .sint, 4, 15⟩)) = .ok w ∧
    Z3.Den zEnv9 w ⟨.root .bv, 8, 255⟩ :=
  (C147_z3_one (e := zEnv9) (c := fun _ => false) (C := false) rfl (Z3.Den.intro .bv (fun e => e.bv ['x'] 8) (by decide) rfl)
    (Y := ⟨.root .sint, 4, 15⟩) (by decide) (by decide) rfl).1

end HW
