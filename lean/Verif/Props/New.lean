import Verif.Model.New
import Verif.Props.ClassHeap
import Verif.Props.AdtHierarchy

/-! # Property C117: `new` makes new types (modifiers.py:13-23) -/

namespace HW

namespace Cls.Heap

theorem newVec_one (h : Heap) (c : Nat) :
    h.newVec [c] (none, none) = .ok ({ h with classes := h.classes ++ [⟨true, [c],
      if h.size c = none then some h.classes.length else none, h.size c⟩] }, h.classes.length) := by
  simp only [newVec, sizeLoop]
  cases h.size c <;> rfl

theorem get_new {L : List Class} (k : Class) : (L ++ [k])[L.length]? = some k := by simp

end Cls.Heap

open Cls Cls.Heap in
/-- **C117** (vectors, unbound).  `new(T)` on a vector class is a class that did not exist, derives from `T` and has its size;
on an unsized class it is its own `unsized_t`. -/
theorem C117_vector {h : Heap} (c : Nat) :
    ∃ h' d, h.new c none = .ok (h', d) ∧ h.classes[d]? = none ∧ Sub h' d c ∧ h'.isVec d = true ∧ h'.size d = h.size c ∧
      (h.size c = none → h'.unsizedT d = .ok d) := by
  refine ⟨_, _, by simp only [Heap.new, newVec_one]; rfl, by simp, .step (b := c) ?_ (.refl _), ?_, ?_, ?_⟩
  · simp [Heap.bases]
  · simp [Heap.isVec]
  · simp [Heap.size]
  · intro hn; simp [Heap.unsizedT, hn]

open Cls Cls.Heap in
/-- **C117** (vectors, bound).  `new(T, n)` on an unsized vector class: a class of size `n` that did not exist, below `T` and below
`T[n]`, whose `unsized_t` is a new class below `T`.  Negative sizes raise `ValueError`, sized classes `TypeError`. -/
theorem C117_vector_bound {h : Heap} (hist : Steps init h) {c : Nat} (hc : h.Alive c) (hv : h.isVec c = true) (n : Int) :
    if n < 0 then h.new c (some (.int n)) = .error .valueError
    else if h.size c = none then
      ∃ h' d, h.new c (some (.int n)) = .ok (h', d) ∧ h.classes[d]? = none ∧ h'.size d = some n ∧
        Steps init { h' with roots := d :: h'.roots } ∧
        (∃ e, h'.getitem c (.int n) = .ok (h', e) ∧ Sub h' d e ∧ d ≠ e) ∧
        ∃ T, h'.unsizedT d = .ok T ∧ h.classes[T]? = none ∧ Sub h' T c ∧ Sub h' d T
    else h.new c (some (.int n)) = .error .typeError := by
  have hst := Step.vec (h := h) (bases := [c]) (by simpa using hc) (newVec_one h c)
  dsimp only at hst
  set A : Heap := { h with classes := h.classes ++ [⟨true, [c], if h.size c = none then some h.classes.length else none, h.size c⟩],
                           roots := h.classes.length :: h.roots } with hA
  have hsA : Steps init A := .tail hist hst
  have iA := inv_init.steps hsA
  have hal : A.Alive h.classes.length := iA.roots _ (by simp [hA])
  have hvA : A.isVec h.classes.length = true := by simp [hA, Heap.isVec]
  have hszA : A.size h.classes.length = h.size c := by simp [hA, Heap.size]
  have hnew (i : Index) : h.new c (some i) = (A.getitem h.classes.length i >>= fun p => .ok ({ p.1 with roots := h.roots }, p.2)) := by
    simp only [Heap.new, newVec_one]; rfl
  have hrej := C31_rejects hsA (n := n) hal hvA
  split
  · rename_i hneg
    rw [hnew, hrej.1 hneg]; rfl
  · rename_i hneg
    split
    · rename_i hu
      rcases getitem_cases iA hal hvA (.int n) with ⟨i, h', d, g0, g1, g2, g3, g4, g5, g6, g7, _⟩ | ⟨e, i, ei, en⟩ | ⟨e, en⟩
      · cases g0
        have hr : h'.roots = h.classes.length :: h.roots := g3.roots
        have hs1 : Steps init { h' with roots := d :: h'.roots } := .tail hsA (.getitem hal hvA g1)
        have hs2 : Steps init { h' with roots := d :: h.roots } :=
          .tail hs1 (.release (r := d :: h.roots) (by rw [hr]; intro x hx; simp at hx ⊢; rcases hx with hx | hx <;> simp [hx]))
        obtain ⟨N, hN⟩ := g3.classes
        have hTd : h.classes.length < d := by
          obtain ⟨k, hk, kv, ks, ku⟩ := g5
          exact ((g2.good d k hk).made kv n _ ks ku).2.1
        have hsub : Sub ({ h' with roots := d :: h'.roots } : Heap) h.classes.length c := by
          refine .step (b := c) ?_ (.refl _)
          show c ∈ (match h'.classes[h.classes.length]? with | some k => k.bases | none => [])
          rw [hN, hA]; dsimp only
          rw [List.getElem?_append_left (by simp), get_new]; simp
        have hvc : ({ h' with roots := d :: h'.roots } : Heap).isVec c = true := by
          have hlt := hc.1
          show (match h'.classes[c]? with | some k => k.isVec | none => false) = true
          rw [hN, hA]; dsimp only
          rw [List.getElem?_append_left (by simp; omega), List.getElem?_append_left hlt]
          exact hv
        obtain ⟨⟨e, e1, e2⟩, e3, e4⟩ := C32_monotone hsA hal hvA g1 (.refl _) (by simp) hvc hsub
        have hrr (r : List Nat) : ∀ {a b : Nat}, Sub ({ h' with roots := r } : Heap) a b → Sub ({ h' with roots := h.roots } : Heap) a b := by
          intro a b hs
          induction hs with
          | refl => exact .refl _
          | step hb _ ih => exact .step hb ih
        have hce : ({ h' with roots := h.roots } : Heap).lookup c n = some e := by
          have hlk : ({ h' with roots := d :: h'.roots } : Heap).lookup c n = h'.lookup c n := rfl
          cases hl : h'.lookup c n with
          | some e' =>
            have : ({ h' with roots := d :: h'.roots } : Heap).getitem c (.int n) = .ok ({ h' with roots := d :: h'.roots }, e') := by
              simp [getitem, getitemF, lookupIdx, Index.key?, hlk, hl]
            rw [this] at e1; cases e1
            exact hl
          | none =>
            exfalso
            have hs3 := inv_init.steps hs1
            rcases getitem_cases hs3 (c := c) (by
              refine ⟨?_, ?_⟩
              · have := hc.1; show c < h'.classes.length; rw [hN, hA]; simp; omega
              · show c ∉ h'.dead; rw [g3.dead]; exact hc.2) hvc (.int n) with ⟨i, h'', d', k0, k1, k2, k3, k4, k5, k6, _⟩ | ⟨e', _⟩ | ⟨e', _⟩
            · rw [k1] at e1; cases e1; cases k0
              rw [hlk, hl] at k6; cases k6
            · rw [e'] at e1; cases e1
            · rw [e'] at e1; cases e1
        refine ⟨{ h' with roots := h.roots }, d, by rw [hnew, g1]; rfl, by simp; omega, g5.facts.1, hs2, ⟨e, ?_, hrr _ e2, ?_⟩,
          h.classes.length, g5.facts.2.2, by simp, hrr _ hsub, hrr _ e3⟩
        · simp [getitem, getitemF, lookupIdx, Index.key?, hce]
        · rintro rfl
          obtain ⟨k, hk, _, _, ku⟩ := g5
          obtain ⟨_, k', hk', _, _, ku'⟩ := g2.lookup_made hce
          rw [hk] at hk'; cases hk'
          rw [ku] at ku'; cases ku'
          exact absurd hc.1 (by omega)
      · cases ei; omega
      · rcases en with en | ⟨_, en, _⟩ | en
        · cases en
        · cases en
        · rw [hszA, hu] at en; cases en
    · rename_i hu
      rw [hnew, hrej.2 (by omega) (by rw [hszA]; cases hs : h.size c with | none => exact absurd hs hu | some => rfl)]; rfl

open Cls Cls.Heap in
/-- **C117** (vectors).  Two calls of `new`, at any times and with any arguments, return different classes. -/
theorem C117_vector_distinct {h h1 h2 h3 : Heap} (hist : Steps init h) {c c' d d' : Nat} {b b' : Option Int} (hc : h.Alive c)
    (hv : h.isVec c = true) (he : h.new c (b.map .int) = .ok (h1, d)) (later : Steps { h1 with roots := d :: h1.roots } h2)
    (hc' : h2.Alive c') (hv' : h2.isVec c' = true) (he' : h2.new c' (b'.map .int) = .ok (h3, d')) : d ≠ d' := by
  have key : ∀ {h h1 : Heap} {c d : Nat} {b : Option Int}, Steps init h → h.Alive c → h.isVec c = true →
      h.new c (b.map .int) = .ok (h1, d) → h.classes[d]? = none ∧ d < h1.classes.length ∧ Steps init { h1 with roots := d :: h1.roots } := by
    intro h h1 c d b hist hc hv he
    cases b with
    | none =>
      have hst := Step.vec (h := h) (bases := [c]) (by simpa using hc) (newVec_one h c)
      simp only [Option.map, Heap.new, newVec_one] at he
      cases he
      exact ⟨by simp, by simp, .tail hist hst⟩
    | some n =>
      have := C117_vector_bound hist hc hv n
      simp only [Option.map] at he
      rw [he] at this
      split at this
      · cases this
      · split at this
        · obtain ⟨h', d', e1, e2, e3, e4, _⟩ := this
          cases e1
          exact ⟨e2, ((inv_init.steps e4).roots d (by simp)).1, e4⟩
        · cases this
  obtain ⟨a1, a2, a3⟩ := key hist hc hv he
  obtain ⟨M, hM⟩ := steps_classes (inv_init.steps a3) later
  have hs2 : Steps init h2 := by
    clear he he' hM hc' hv'
    induction later with
    | refl => exact a3
    | tail _ st ih => exact .tail ih st
  obtain ⟨b1, _, _⟩ := key hs2 hc' hv' he'
  rintro rfl
  rw [hM] at b1
  simp at b1
  omega

namespace Adt.Cache.Heap
variable {E : Env} {h h' : Heap}

theorem classStmt_plain {n : Name} {c t : Nat} (hi : h.Inv) (hc : h.Alive c)
    (e : h.classStmt E { fields := .types [], name := n, bases := [c] } = .ok (h', t)) :
    h'.Inv ∧ h'.Alive t ∧ t = h.classes.length ∧ Ext (fun _ => False) (fun _ => False) h h' ∧ h'.bases t = [c] ∧ h'.mt t = h.mt c := by
  obtain ⟨m, hw, ⟨hf, _⟩ | ⟨_, h1, h2, h3, h4, k, hk, ho, hb, hm⟩⟩ := classStmt_ok hi (by simpa using hc) e
  · exfalso; revert hf; cases m <;> simp [Stmt.hasFields]
  · refine ⟨h1, h4, h3, h2, by simp only [Heap.bases, hk]; exact hb, ?_⟩
    simp only [Heap.mt] at hw ⊢
    rw [hk]
    dsimp only
    rw [hm]
    simp only [winner] at hw
    split at hw
    · rename_i hle
      cases hw
      revert hle
      unfold Heap.mt
      cases hh : h.classes[c]? with
      | none => intro _; rfl
      | some k' => dsimp only; cases k'.mt <;> simp [Meta.le]
    · split at hw
      · cases hw; rfl
      · cases hw

end Adt.Cache.Heap

open Adt Adt.Cache Adt.Cache.Heap in
/-- **C117** (algebraic types).  A call of `new` that succeeds returns a class that did not exist.  `new(T)` derives from `T`;
`new(T, fields)` is bound to the fields, as `T[fields]` is, derives from `T[fields]`, and its `unbound_t` is a new class below
`T`. -/
theorem C117_adt {E : Env} {h h' : Heap} (hist : Steps E init h) {n : Name} {c d : Nat} (hc : h.Alive c) :
    (h.new E n c none = .ok (h', d) → h.classes[d]? = none ∧ Sub h' d c ∧ h'.mt d = h.mt c ∧ Steps E init (h'.hold d)) ∧
    ∀ a, (∀ x ∈ a.ids, h.Alive x) → h.new E n c (some a) = .ok (h', d) → h.classes[d]? = none ∧ h'.mt d = h.mt c ∧
      Steps E init (h'.hold d) ∧
      (∃ e, (h'.hold d).getitem E c a = .ok (h'.hold d, e) ∧ Sub h' d e ∧ h'.fields d = h'.fields e ∧ d ≠ e) ∧
      ∃ T, h'.unboundT d = .ok T ∧ h.classes[T]? = none ∧ Sub h' T c ∧ Sub h' d T := by
  obtain ⟨hi, _⟩ := inv_init.steps hist
  constructor
  · intro he
    unfold Heap.new at he
    obtain ⟨⟨h1, t⟩, e1, e2⟩ := bind_ok he
    cases e2
    obtain ⟨i1, l1, rfl, x1, b1, m1⟩ := classStmt_plain hi hc e1
    exact ⟨by simp, .step (b := c) (by rw [b1]; simp) (.refl _), m1,
      .tail hist (.stmt (by simp) (by simpa using hc) (by simp [FArg.ids]) e1)⟩
  · intro a ha he
    unfold Heap.new at he
    obtain ⟨⟨h1, t⟩, e1, e2⟩ := bind_ok he
    obtain ⟨⟨h2, d2⟩, e2, e3⟩ := bind_ok e2
    cases e3
    obtain ⟨i1, l1, ht, x1, b1, m1⟩ := classStmt_plain hi hc e1
    have hs1 : Steps E init (h1.hold t) := .tail hist (.stmt (by simp) (by simpa using hc) (by simp [FArg.ids]) e1)
    have lift (x : Nat) (hx : h.Alive x) : (h1.hold t).Alive x := by
      obtain ⟨M, hM⟩ := x1.classes
      exact ⟨by show x < h1.classes.length; rw [hM]; have := hx.1; simp; omega, by show x ∉ h1.dead; rw [x1.dead]; exact hx.2⟩
    have hs2 : Steps E init (h2.hold d) := .tail hs1 (.getitem (h := h1.hold t) l1 (fun x hx => lift x (ha x hx)) e2)
    obtain ⟨idx, g1, g2, g3, g4, g5⟩ := getitem_item (i1.hold l1) (c := t) l1 e2
    have hr : h2.roots = t :: h1.roots := g3.roots
    have hrel : Steps E (h2.hold d) ({ h2 with roots := d :: h1.roots } : Heap) :=
      .tail (.refl _) (.release (h := h2.hold d) (r := d :: h1.roots) (by
        intro x hx; simp only [Heap.hold, hr]; simp at hx ⊢; rcases hx with hx | hx <;> simp [hx]))
    have hs3 : Steps E init ({ h2 with roots := d :: h1.roots } : Heap) := .tail hs2 (.release (h := h2.hold d) (r := d :: h1.roots) (by
        intro x hx; simp only [Heap.hold, hr]; simp at hx ⊢; rcases hx with hx | hx <;> simp [hx]))
    have hsub : Sub (h1.hold t) t c := .step (b := c) (by show c ∈ h1.bases t; rw [b1]; simp) (.refl _)
    have hmt : (h1.hold t).mt c = (h1.hold t).mt t := by
      show h1.mt c = h1.mt t
      rw [m1, mt_eq, mt_eq]
      obtain ⟨M, hM⟩ := x1.classes
      rw [hM, mtOf_app hc.1]
    obtain ⟨e, k1, k2⟩ := C90_monotone hs1 l1 hsub hmt e2 hrel (by simp)
    obtain ⟨idx', f1, f2, f3, f4⟩ := item_facts hs1 l1 e2 hrel
    obtain ⟨i3, _⟩ := inv_init.steps hs3
    have hcal : ({ h2 with roots := d :: h1.roots } : Heap).Alive c := by
      obtain ⟨M, hM⟩ := g3.classes
      have := lift c hc
      exact ⟨by show c < h2.classes.length; rw [hM]; have := this.1; simp; omega, by show c ∉ h2.dead; rw [g3.dead]; exact this.2⟩
    obtain ⟨idx2, p1, p2, p3, _⟩ := item_facts hs3 hcal k1 (.refl _)
    have hmc : ({ h2 with roots := d :: h1.roots } : Heap).mt c = (h1.hold t).mt t := by
      rw [← hmt]
      show h2.mt c = h1.mt c
      rw [mt_eq, mt_eq]
      obtain ⟨M, hM⟩ := g3.classes
      rw [hM]
      exact mtOf_app (lift c hc).1
    rw [hmc, f1] at p1
    cases p1
    have hdt : t < d := by
      obtain ⟨k, hk, ho, sh⟩ := g2.shape g5
      obtain ⟨ds, ts, hb, _⟩ := sh.bases
      exact (g2.good d k hk).lt t (by rw [hb]; simp)
    have hrr : ∀ {x y : Nat}, Sub ({ h2 with roots := d :: h1.roots } : Heap) x y → Sub ({ h2 with roots := h1.roots } : Heap) x y := by
      intro x y hs
      induction hs with
      | refl => exact .refl _
      | step hb _ ih => exact .step hb ih
    have hbd : t ∈ h2.bases d := by
      obtain ⟨k, hk, ho, sh⟩ := g2.shape g5
      obtain ⟨ds, ts, hb, _⟩ := sh.bases
      simp [Heap.bases, hk, hb]
    have hbt : c ∈ h2.bases t := by
      have h1t : c ∈ h1.bases t := by rw [b1]; simp
      obtain ⟨M, hM⟩ := g3.classes
      rw [bases_eq] at h1t ⊢
      rw [hM]
      show c ∈ basesOf (h1.classes ++ M) t
      rw [basesOf_app l1.1]; exact h1t
    refine ⟨by simp; omega, ?_, hs3, ⟨e, k1, hrr k2, ?_, ?_⟩, t, f3, by simp; omega, .step hbt (.refl _),
      .step hbd (.refl _)⟩
    · rw [← m1]; exact f4
    · show h2.fields d = h2.fields e
      exact f2.trans p2.symm
    · rintro rfl
      have : Except.ok t = (Except.ok c : PyM Nat) := f3.symm.trans p3
      cases this
      have := hc.1
      omega

open Adt Adt.Cache Adt.Cache.Heap in
/-- **C117** (algebraic types).  Two calls of `new`, at any times and with any arguments, return different classes. -/
theorem C117_adt_distinct {E : Env} {h h1 h2 h3 : Heap} (hist : Steps E init h) {n n' : Name} {c c' d d' : Nat} {b b' : Option Arg}
    (hc : h.Alive c) (hb : ∀ a, b = some a → ∀ x ∈ a.ids, h.Alive x) (he : h.new E n c b = .ok (h1, d))
    (later : Steps E (h1.hold d) h2) (hc' : h2.Alive c') (hb' : ∀ a, b' = some a → ∀ x ∈ a.ids, h2.Alive x)
    (he' : h2.new E n' c' b' = .ok (h3, d')) : d ≠ d' := by
  have key : ∀ {h h1 : Heap} {n : Name} {c d : Nat} {b : Option Arg}, Steps E init h → h.Alive c →
      (∀ a, b = some a → ∀ x ∈ a.ids, h.Alive x) → h.new E n c b = .ok (h1, d) →
      h.classes[d]? = none ∧ Steps E init (h1.hold d) := by
    intro h h1 n c d b hist hc hb he
    obtain ⟨k1, k2⟩ := C117_adt (h' := h1) (d := d) (n := n) hist hc
    cases b with
    | none => obtain ⟨a1, _, _, a2⟩ := k1 he; exact ⟨a1, a2⟩
    | some a => obtain ⟨a1, _, a2, _⟩ := k2 a (hb a rfl) he; exact ⟨a1, a2⟩
  obtain ⟨a1, a2⟩ := key hist hc hb he
  obtain ⟨i1, _⟩ := inv_init.steps a2
  obtain ⟨_, M, hM⟩ := i1.steps later
  have hlt : d < h1.classes.length := (i1.roots d (by simp [Heap.hold])).1
  have hs2 : Steps E init h2 := by
    clear he he' hM hc' hb'
    rename_i i2; clear i2
    induction later with
    | refl => exact a2
    | tail _ st ih => exact .tail ih st
  obtain ⟨b1, _⟩ := key hs2 hc' hb' he'
  rintro rfl
  rw [hM] at b1
  simp [Heap.hold] at b1
  omega

/-! Two calls of `new(V, 8)`, and `new(Tuple, (A, B))` twice: the types differ. -/

example : ∃ h1 h2 h3, demoHeap.new 0 (some (.int 8)) = .ok (h1, 6) ∧ h1.size 6 = some 8 ∧
    Cls.Heap.new { h1 with roots := 6 :: h1.roots } 0 (some (.int 8)) = .ok (h2, 8) ∧ h2.size 8 = some 8 ∧
    h1.getitem 0 (.int 8) = .ok (h3, 5) := ⟨_, _, _, rfl, rfl, rfl, rfl, rfl⟩

example := C117_vector_bound demoHeap_reachable (c := 3) ⟨by decide, by decide⟩ rfl 8

example := (C117_adt (n := 3) (c := 1) Adt.Cache.demoHeap_reachable ⟨by decide, by decide⟩).2 (.items [7, 8])
  (by intro x hx; simp [Adt.Cache.Heap.Arg.ids] at hx; rcases hx with rfl | rfl <;> exact ⟨by decide, by decide⟩) rfl

end HW
