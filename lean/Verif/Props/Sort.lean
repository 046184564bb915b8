import Verif.Model.Sort
import Verif.Props.SmtPoly
import Verif.Props.Z3Ops
import Verif.Model.PyProgram

/-!
# Property C136: vectors are ordered, sorted and found in lists by value
-/

namespace HW
open Spec

/-- What a comparison says about two numbers. -/
def COp.holds : COp → Int → Int → Bool
  | .eq, a, b => decide (a = b)
  | .ne, a, b => decide (a ≠ b)
  | .ge, a, b => decide (a ≥ b)
  | .gt, a, b => decide (a > b)
  | .le, a, b => decide (a ≤ b)
  | .lt, a, b => decide (a < b)

/-- Vectors of one width and of classes with one reading: all of `SIntVector`, or none. -/
structure OneReading (n : Nat) (l : List BVal) : Prop where
  pos : 0 < n
  wf : ∀ x ∈ l, x.WF ∧ x.size = n
  cls : (∀ x ∈ l, x.kind = .root .sint) ∨ ∀ x ∈ l, ∃ r, r ≠ .sint ∧ x.kind = .root r

/-- `int(x)` for vectors of predefined classes. -/
def intOf (x : BVal) : Int := if x.kind = .root .sint then signed x.size x.value else x.value

theorem toInt_intOf {x : BVal} (hx : x.WF) (hn : 0 < x.size) {r : Root} (hr : x.kind = .root r) : x.toInt = .ok (intOf x) := by
  obtain ⟨k, n, v⟩ := x
  dsimp only at hr hn
  subst hr
  have hs := C03_as_sint hx
  dsimp only at hs
  rw [if_neg (by omega)] at hs
  rw [C03_int]
  cases r <;> first | rfl | exact hs

theorem vCmp_pair (op : COp) {x y : BVal} (hx : x.WF) (hy : y.WF) (hs : y.size = x.size) (hn : 0 < x.size) {r r' : Root}
    (hr : x.kind = .root r) (hr' : y.kind = .root r') :
    vCmp op x y = .ok (refC (signedPair r r') op x.size x.value y.value) := by
  obtain ⟨k, n, a⟩ := x
  obtain ⟨k', n', b⟩ := y
  dsimp only at hr hr' hs hn ⊢
  subst hr hr' hs
  unfold vCmp
  rw [(C25_operators r r' n' hn hx hy 0).2 op]
  rfl

/-- **C136** (one reading).  All six comparisons of two vectors of one width and one reading are those of `int(x)` and
`int(y)`. -/
theorem C136_compare {n : Nat} {l : List BVal} (hl : OneReading n l) {x y : BVal} (hx : x ∈ l) (hy : y ∈ l) :
    ∃ a b, x.toInt = .ok a ∧ y.toInt = .ok b ∧ ∀ op, vCmp op x y = .ok (op.holds a b) := by
  obtain ⟨wx, sx⟩ := hl.wf x hx
  obtain ⟨wy, sy⟩ := hl.wf y hy
  have hn := hl.pos
  have wx' : 0 ≤ x.value ∧ x.value < 2 ^ x.size := wx
  have wy' : 0 ≤ y.value ∧ y.value < 2 ^ x.size := by have : 0 ≤ y.value ∧ y.value < 2 ^ y.size := wy; rwa [sy, ← sx] at this
  rcases hl.cls with h | h
  · refine ⟨_, _, toInt_intOf wx (by omega) (h x hx), toInt_intOf wy (by omega) (h y hy), fun op => ?_⟩
    rw [vCmp_pair op wx wy (by omega) (by omega) (h x hx) (h y hy)]
    simp only [intOf, h x hx, h y hy, if_true, sx, sy]
    rw [sx] at wx' wy'
    have := signed_inj wx' wy'
    cases op <;> simp [refC, COp.holds, signedPair, this]
  · obtain ⟨r, h1, h2⟩ := h x hx
    obtain ⟨r', h3, h4⟩ := h y hy
    refine ⟨_, _, toInt_intOf wx (by omega) h2, toInt_intOf wy (by omega) h4, fun op => ?_⟩
    rw [vCmp_pair op wx wy (by omega) (by omega) h2 h4]
    have e1 : (signedPair r r') = false := by simp [signedPair, h1, h3]
    simp only [intOf, h2, h4, Kind.root.injEq, h1, h3, if_false, e1]
    cases op <;> simp [refC, COp.holds]

example : OneReading 8 [⟨.root .bv, 8, 200⟩, ⟨.root .uint, 8, 3⟩, ⟨.root .num, 8, 200⟩] :=
  ⟨by decide, by decide, .inr (by simp)⟩
example : OneReading 8 [⟨.root .sint, 8, 200⟩, ⟨.root .sint, 8, 3⟩] := ⟨by decide, by decide, .inl (by simp)⟩

/-- **C136** (two vectors).  Vectors of any two predefined classes but the pair `UIntVector`, `SIntVector`: exactly one
of `x < y`, `x == y`, `x > y` holds, `x < y` is `y > x`, `x <= y` is `y >= x` and `x < y or x == y`, and `!=` is the
opposite of `==`. -/
theorem C136_pair {x y : BVal} (hx : x.WF) (hy : y.WF) (hs : y.size = x.size) (hn : 0 < x.size) {r r' : Root}
    (hr : x.kind = .root r) (hr' : y.kind = .root r') (hp : ¬ (r = .uint ∧ r' = .sint) ∧ ¬ (r = .sint ∧ r' = .uint)) :
    ∃ lt eq gt : Bool, vCmp .lt x y = .ok lt ∧ vCmp .eq x y = .ok eq ∧ vCmp .gt x y = .ok gt ∧
      vCmp .gt y x = .ok lt ∧ vCmp .eq y x = .ok eq ∧ vCmp .lt y x = .ok gt ∧
      vCmp .le x y = .ok (lt || eq) ∧ vCmp .ge y x = .ok (lt || eq) ∧ vCmp .ge x y = .ok (gt || eq) ∧
      vCmp .le y x = .ok (gt || eq) ∧ vCmp .ne x y = .ok !eq ∧ vCmp .ne y x = .ok !eq ∧
      (lt || eq || gt) = true ∧ (lt && eq) = false ∧ (lt && gt) = false ∧ (eq && gt) = false := by
  have h1 := fun op => vCmp_pair op hx hy hs hn hr hr'
  have h2 := fun op => vCmp_pair op hy hx hs.symm (by omega) hr' hr
  have e1 : signedPair r' r = signedPair r r' := by
    cases r <;> cases r' <;> first | rfl | (exfalso; revert hp; decide)
  rw [e1] at h2
  simp only [hs] at h2
  have wx : 0 ≤ x.value ∧ x.value < 2 ^ x.size := hx
  have wy : 0 ≤ y.value ∧ y.value < 2 ^ x.size := by have : 0 ≤ y.value ∧ y.value < 2 ^ y.size := hy; rwa [hs] at this
  have hi := signed_inj wx wy
  refine ⟨_, _, _, h1 .lt, h1 .eq, h1 .gt, (h2 .gt).trans ?_, (h2 .eq).trans ?_, (h2 .lt).trans ?_, (h1 .le).trans ?_,
    (h2 .ge).trans ?_, (h1 .ge).trans ?_, (h2 .le).trans ?_, (h1 .ne).trans ?_, (h2 .ne).trans ?_, ?_⟩
  all_goals
    cases signedPair r r' <;> simp only [refC, if_true, Bool.false_eq_true, if_false, Except.ok.injEq]
  all_goals
    by_cases h3 : x.value = y.value
    · simp [h3]
    · have h4 : signed x.size x.value ≠ signed x.size y.value := fun h => h3 (hi.1 h)
      simp [h3, Ne.symm h3]
      try omega

example := C136_pair (x := ⟨.root .bv, 8, 200⟩) (y := ⟨.root .sint, 8, 5⟩) (by decide) (by decide) rfl (by decide) rfl rfl (by decide)

/-- The excluded pair: `UIntVector[8](200) > SIntVector[8](1)` and `SIntVector[8](1) > UIntVector[8](200)`. -/
theorem C136_pair_refuted : vCmp .gt ⟨.root .uint, 8, 200⟩ ⟨.root .sint, 8, 1⟩ = .ok true ∧
    vCmp .gt ⟨.root .sint, 8, 1⟩ ⟨.root .uint, 8, 200⟩ = .ok true := ⟨by decide, by decide⟩

/-- Three vectors of `BitVector` and `SIntVector` need not be ordered: `a < b < c < a`. -/
theorem C136_cycle_refuted : vCmp .lt ⟨.root .bv, 8, 200⟩ ⟨.root .sint, 8, 5⟩ = .ok true ∧
    vCmp .lt ⟨.root .sint, 8, 5⟩ ⟨.root .bv, 8, 10⟩ = .ok true ∧ vCmp .lt ⟨.root .bv, 8, 10⟩ ⟨.root .bv, 8, 200⟩ = .ok true :=
  ⟨by decide, by decide, by decide⟩

/-! ### Sorting -/

section
variable {α : Type} {cmp : COp → α → α → PyM Bool} {key : α → Int}

theorem pyInsert_ok {x : α} {l : List α} (h : ∀ y ∈ l, cmp .lt x y = .ok (decide (key x < key y)))
    (hl : l.Pairwise fun a b => key a ≤ key b) :
    ∃ l', pyInsert cmp x l = .ok l' ∧ l'.Perm (x :: l) ∧ (l'.Pairwise fun a b => key a ≤ key b) ∧
      ∀ k, l'.filter (key · = k) = l.filter (key · = k) ++ [x].filter (key · = k) := by
  induction l with
  | nil => exact ⟨_, rfl, .refl _, List.pairwise_singleton _ _, fun k => rfl⟩
  | cons y l ih =>
    obtain ⟨h1, h2⟩ := List.pairwise_cons.1 hl
    obtain ⟨l', e1, e2, e3, e4⟩ := ih (fun z hz => h z (List.mem_cons_of_mem _ hz)) h2
    unfold pyInsert
    rw [h y List.mem_cons_self]
    by_cases hc : key x < key y
    · refine ⟨x :: y :: l, by simp [hc, bind, Except.bind, pure, Except.pure], .refl _, ?_, fun k => ?_⟩
      · refine List.pairwise_cons.2 ⟨fun z hz => ?_, hl⟩
        rcases List.mem_cons.1 hz with rfl | hz
        · omega
        · have := h1 z hz; omega
      · by_cases hk : key x = k
        · have : (y :: l).filter (key · = k) = [] := by
            rw [List.filter_eq_nil_iff]
            intro z hz
            have : key y ≤ key z := by
              rcases List.mem_cons.1 hz with rfl | hz
              · exact le_refl _
              · exact h1 z hz
            simp; omega
          rw [this, List.filter_cons_of_pos (by simpa using hk), this]
          simp [hk]
        · rw [List.filter_cons_of_neg (by simpa using hk)]
          simp [hk]
    · refine ⟨y :: l', by simp [hc, e1, bind, Except.bind, pure, Except.pure], ?_, ?_, fun k => ?_⟩
      · exact (e2.cons y).trans (.swap _ _ _)
      · refine List.pairwise_cons.2 ⟨fun z hz => ?_, e3⟩
        rcases List.mem_cons.1 (e2.mem_iff.1 hz) with rfl | hz
        · omega
        · exact h1 z hz
      · by_cases hk : key y = k
        · simp only [List.filter_cons (x := y), hk, decide_true, if_true, e4, List.cons_append]
        · simp only [List.filter_cons (x := y), hk, decide_false, Bool.false_eq_true, if_false, e4]

theorem pySortFrom_ok {l acc : List α}
    (h : ∀ x ∈ acc ++ l, ∀ y ∈ acc ++ l, cmp .lt x y = .ok (decide (key x < key y)))
    (ha : acc.Pairwise fun a b => key a ≤ key b) :
    ∃ l', pySortFrom cmp acc l = .ok l' ∧ l'.Perm (acc ++ l) ∧ (l'.Pairwise fun a b => key a ≤ key b) ∧
      ∀ k, l'.filter (key · = k) = acc.filter (key · = k) ++ l.filter (key · = k) := by
  induction l generalizing acc with
  | nil => exact ⟨acc, rfl, by simp, ha, fun k => by simp⟩
  | cons x l ih =>
    obtain ⟨a', e1, e2, e3, e4⟩ := pyInsert_ok (key := key) (x := x) (fun y hy => h x (by simp) y (by simp [hy])) ha
    have hm : ∀ z, z ∈ a' ++ l ↔ z ∈ acc ++ x :: l := by
      intro z
      rw [List.mem_append, e2.mem_iff]
      simp only [List.mem_cons, List.mem_append]
      tauto
    obtain ⟨l', f1, f2, f3, f4⟩ := ih (fun x hx y hy => h x ((hm x).1 hx) y ((hm y).1 hy)) e3
    refine ⟨l', ?_, ?_, f3, fun k => ?_⟩
    · simp only [pySortFrom, e1, bind, Except.bind]; exact f1
    · exact f2.trans ((e2.append_right l).trans (List.perm_middle).symm)
    · rw [f4, e4, List.append_assoc, ← List.filter_append, List.singleton_append]

theorem filter_nil_all {l : List α} (h : ∀ k, l.filter (key · = k) = []) : l = [] := by
  cases l with
  | nil => rfl
  | cons x l =>
    have := h (key x)
    rw [List.filter_cons_of_pos (by simp)] at this
    cases this

/-- Two sorted lists with the same items in the same order for every key are the same. -/
theorem stable_unique {l l' : List α} (h : l.Pairwise fun a b => key a ≤ key b) (h' : l'.Pairwise fun a b => key a ≤ key b)
    (hf : ∀ k, l.filter (key · = k) = l'.filter (key · = k)) : l = l' := by
  induction l generalizing l' with
  | nil => exact (filter_nil_all (key := key) fun k => (hf k).symm).symm
  | cons x l ih =>
    cases l' with
    | nil => exact filter_nil_all (key := key) hf
    | cons y l' =>
      obtain ⟨h1, h2⟩ := List.pairwise_cons.1 h
      obtain ⟨h3, h4⟩ := List.pairwise_cons.1 h'
      have a1 : x ∈ (y :: l').filter (key · = key x) := by rw [← hf]; simp
      have a2 : y ∈ (x :: l).filter (key · = key y) := by rw [hf]; simp
      have b1 : key y ≤ key x := by
        rcases List.mem_cons.1 (List.mem_filter.1 a1).1 with rfl | hz
        · exact le_refl _
        · exact h3 _ hz
      have b2 : key x ≤ key y := by
        rcases List.mem_cons.1 (List.mem_filter.1 a2).1 with rfl | hz
        · exact le_refl _
        · exact h1 _ hz
      have e := hf (key x)
      rw [List.filter_cons_of_pos (by simp), List.filter_cons_of_pos (by simp; omega)] at e
      injection e with e1 e2
      subst e1
      congr 1
      refine ih h2 h4 fun k => ?_
      have := hf k
      by_cases hk : key x = k
      · rw [List.filter_cons_of_pos (by simpa using hk), List.filter_cons_of_pos (by simpa using hk)] at this
        injection this
      · rwa [List.filter_cons_of_neg (by simpa using hk), List.filter_cons_of_neg (by simpa using hk)] at this

theorem pyBest_lt {best : α} {l : List α}
    (h : ∀ x ∈ best :: l, ∀ y ∈ best :: l, cmp .lt x y = .ok (decide (key x < key y))) :
    ∃ m u v, pyBest cmp .lt best l = .ok m ∧ best :: l = u ++ m :: v ∧ (∀ x ∈ u, key m < key x) ∧ ∀ x ∈ v, key m ≤ key x := by
  induction l generalizing best with
  | nil => exact ⟨best, [], [], rfl, rfl, nofun, nofun⟩
  | cons x l ih =>
    unfold pyBest
    rw [h x (by simp) best (by simp)]
    by_cases hc : key x < key best
    · obtain ⟨m, u, v, e1, e2, e3, e4⟩ := ih (best := x) (fun a ha b hb => h a (List.mem_cons_of_mem _ ha) b (List.mem_cons_of_mem _ hb))
      refine ⟨m, best :: u, v, by simp [hc, bind, Except.bind, e1], by rw [e2]; rfl, fun z hz => ?_, e4⟩
      rcases List.mem_cons.1 hz with rfl | hz
      · have : x ∈ u ++ m :: v := e2 ▸ List.mem_cons_self
        rcases List.mem_append.1 this with hx | hx
        · have := e3 x hx; omega
        · rcases List.mem_cons.1 hx with rfl | hx
          · exact hc
          · have := e4 x hx; omega
      · exact e3 z hz
    · obtain ⟨m, u, v, e1, e2, e3, e4⟩ := ih (best := best) (fun a ha b hb => h a (by
        rcases List.mem_cons.1 ha with rfl | ha <;> simp [*]) b (by rcases List.mem_cons.1 hb with rfl | hb <;> simp [*]))
      cases u with
      | nil =>
        simp only [List.nil_append, List.cons.injEq] at e2
        obtain ⟨rfl, rfl⟩ := e2
        refine ⟨best, [], x :: l, by simp [hc, bind, Except.bind, e1], rfl, nofun, fun z hz => ?_⟩
        rcases List.mem_cons.1 hz with rfl | hz
        · omega
        · exact e4 z hz
      | cons b u =>
        simp only [List.cons_append, List.cons.injEq] at e2
        obtain ⟨rfl, rfl⟩ := e2
        refine ⟨m, best :: x :: u, v, by simp [hc, bind, Except.bind, e1], rfl, fun z hz => ?_, e4⟩
        have hb := e3 best (by simp)
        rcases List.mem_cons.1 hz with rfl | hz
        · exact hb
        · rcases List.mem_cons.1 hz with rfl | hz
          · omega
          · exact e3 z (List.mem_cons_of_mem _ hz)

/-- `max` is `min` of the reflected comparison. -/
theorem pyBest_gt (cmp : COp → α → α → PyM Bool) (best : α) (l : List α) :
    pyBest cmp .gt best l = pyBest (fun _ a b => cmp .gt a b) .lt best l := by
  induction l generalizing best with
  | nil => rfl
  | cons x l ih => simp only [pyBest, ih]

end

theorem OneReading.lt {n : Nat} {l : List BVal} (hl : OneReading n l) : ∀ x ∈ l, ∀ y ∈ l,
    vCmp .lt x y = .ok (decide (intOf x < intOf y)) ∧ vCmp .gt x y = .ok (decide (intOf x > intOf y)) := by
  intro x hx y hy
  obtain ⟨a, b, h1, h2, h3⟩ := C136_compare hl hx hy
  have hx' := hl.wf x hx
  have hy' := hl.wf y hy
  have hp := hl.pos
  have hk : ∀ z ∈ l, ∃ r, z.kind = .root r := by
    intro z hz
    rcases hl.cls with h | h
    · exact ⟨_, h z hz⟩
    · obtain ⟨r, -, h⟩ := h z hz; exact ⟨r, h⟩
  obtain ⟨r, hr⟩ := hk x hx
  obtain ⟨r', hr'⟩ := hk y hy
  cases h1.symm.trans (toInt_intOf hx'.1 (by omega) hr)
  cases h2.symm.trans (toInt_intOf hy'.1 (by omega) hr')
  exact ⟨h3 .lt, h3 .gt⟩

theorem OneReading.int {n : Nat} {l : List BVal} (hl : OneReading n l) {x : BVal} (hx : x ∈ l) : x.toInt = .ok (intOf x) := by
  have hx' := hl.wf x hx
  have hp := hl.pos
  rcases hl.cls with h | h
  · exact toInt_intOf hx'.1 (by omega) (h x hx)
  · obtain ⟨r, -, h⟩ := h x hx
    exact toInt_intOf hx'.1 (by omega) h

/-- **C136** (`sorted`).  For vectors of one width and one reading `sorted(l)` returns the items in the order of
`int(x)`, those of one value in the order they had; there is only one such list. -/
theorem C136_sorted {n : Nat} {l : List BVal} (hl : OneReading n l) : ∃ l', pySorted vCmp l = .ok l' ∧ l'.Perm l ∧
    (l'.Pairwise fun x y => ∀ a b, x.toInt = .ok a → y.toInt = .ok b → a ≤ b) ∧
    (∀ k, l'.filter (fun x => x.toInt = .ok k) = l.filter (fun x => x.toInt = .ok k)) ∧
    ∀ l'' : List BVal, l''.Perm l → (l''.Pairwise fun x y => ∀ a b, x.toInt = .ok a → y.toInt = .ok b → a ≤ b) →
      (∀ k, l''.filter (fun x => x.toInt = .ok k) = l.filter (fun x => x.toInt = .ok k)) → l'' = l' := by
  obtain ⟨l', h1, h2, h3, h4⟩ := pySortFrom_ok (cmp := vCmp) (key := intOf) (acc := []) (l := l)
    (fun x hx y hy => (hl.lt x hx y hy).1) .nil
  have hf : ∀ l1 : List BVal, l1.Perm l → ∀ k, l1.filter (fun x => x.toInt = .ok k) = l1.filter (intOf · = k) := by
    intro l1 hp k
    refine List.filter_congr fun x hx => ?_
    rw [hl.int (hp.mem_iff.1 hx)]
    simp
  have hpw : ∀ l1 : List BVal, l1.Perm l → ((l1.Pairwise fun x y => ∀ a b, x.toInt = .ok a → y.toInt = .ok b → a ≤ b) ↔
      l1.Pairwise fun x y => intOf x ≤ intOf y) := by
    intro l1 hp
    constructor
    · intro h
      refine h.imp_of_mem fun {x y} hx hy h => h _ _ (hl.int (hp.mem_iff.1 hx)) (hl.int (hp.mem_iff.1 hy))
    · intro h
      refine h.imp_of_mem fun {x y} hx hy h a b ha hb => ?_
      cases ha.symm.trans (hl.int (hp.mem_iff.1 hx))
      cases hb.symm.trans (hl.int (hp.mem_iff.1 hy))
      exact h
  refine ⟨l', h1, h2, (hpw l' h2).2 h3, fun k => ?_, fun l'' p1 p2 p3 => ?_⟩
  · rw [hf l' h2, hf l (.refl _)]; exact h4 k
  · refine stable_unique ((hpw l'' p1).1 p2) h3 fun k => ?_
    have := p3 k
    rw [hf l'' p1, hf l (.refl _)] at this
    rw [this]; exact (h4 k).symm

example : pySorted vCmp [⟨.root .sint, 8, 3⟩, ⟨.root .sint, 8, 200⟩, ⟨.root .sint, 8, 0⟩] =
    .ok [⟨.root .sint, 8, 200⟩, ⟨.root .sint, 8, 0⟩, ⟨.root .sint, 8, 3⟩] := by rfl
example : pySorted vCmp [⟨.root .num, 8, 200⟩, ⟨.root .bv, 8, 200⟩, ⟨.root .uint, 8, 3⟩] =
    .ok [⟨.root .uint, 8, 3⟩, ⟨.root .num, 8, 200⟩, ⟨.root .bv, 8, 200⟩] := by rfl

/-- **C136** (`min`, `max`).  `min(l)` is the first of the items with the least `int(x)`, `max(l)` the first of those
with the greatest. -/
theorem C136_min_max {n : Nat} {l : List BVal} (hl : OneReading n l) (hne : l ≠ []) :
    (∃ m u v, pyMin vCmp l = .ok m ∧ l = u ++ m :: v ∧ (∀ x ∈ u, intOf m < intOf x) ∧ ∀ x ∈ v, intOf m ≤ intOf x) ∧
    (∃ m u v, pyMax vCmp l = .ok m ∧ l = u ++ m :: v ∧ (∀ x ∈ u, intOf x < intOf m) ∧ ∀ x ∈ v, intOf x ≤ intOf m) ∧
    ∀ x ∈ l, x.toInt = .ok (intOf x) := by
  cases l with
  | nil => exact absurd rfl hne
  | cons x l =>
    refine ⟨?_, ?_, fun x hx => hl.int hx⟩
    · exact pyBest_lt (key := intOf) fun a ha b hb => (hl.lt a ha b hb).1
    · obtain ⟨m, u, v, e1, e2, e3, e4⟩ := pyBest_lt (cmp := fun _ a b => vCmp .gt a b) (key := fun x => -intOf x) (best := x)
        (l := l) fun a ha b hb => by
          rw [(hl.lt a ha b hb).2]
          congr 1
          rw [decide_eq_decide]
          omega
      refine ⟨m, u, v, (pyBest_gt _ _ _).trans e1, e2, fun z hz => ?_, fun z hz => ?_⟩
      · have := e3 z hz; omega
      · have := e4 z hz; omega

example : pyMin vCmp [⟨.root .sint, 8, 3⟩, ⟨.root .sint, 8, 200⟩] = .ok ⟨.root .sint, 8, 200⟩ ∧
    pyMax vCmp [⟨.root .sint, 8, 3⟩, ⟨.root .sint, 8, 200⟩] = .ok ⟨.root .sint, 8, 3⟩ := ⟨by rfl, by rfl⟩

/-! ### Searching -/

theorem vCmp_eq {x y : BVal} (hx : x.WF) (hy : y.WF) (hs : y.size = x.size) (hn : 0 < x.size) {r r' : Root}
    (hr : x.kind = .root r) (hr' : y.kind = .root r') : vCmp .eq x y = .ok (decide (x.value = y.value)) := by
  rw [vCmp_pair .eq hx hy hs hn hr hr']
  rfl

/-- **C136** (`in`, `index`, `count`).  In a list of vectors of the width of `x` and of any predefined classes, `x in l`
says whether the bits of some item are those of `x`, `l.index(x)` finds the first such item, and `l.count(x)` counts
them, whichever objects are identical. -/
theorem C136_find {x : BVal} (hx : x.WF) (hn : 0 < x.size) {r : Root} (hr : x.kind = .root r) (i : Nat) {l : List (Nat × BVal)}
    (hl : ∀ y ∈ l, y.2.WF ∧ y.2.size = x.size ∧ ∃ r, y.2.kind = .root r) (hid : ∀ y ∈ l, y.1 = i → y.2 = x) :
    pyIn vCmp (i, x) l = .ok (l.any fun y => y.2.value = x.value) ∧
    pyIndex vCmp (i, x) l = (match l.findIdx? fun y => y.2.value = x.value with
      | some k => .ok k
      | none => .error .valueError) ∧
    pyCount vCmp (i, x) l = .ok (l.countP fun y => y.2.value = x.value) := by
  have hfind : pyFind vCmp (i, x) l = .ok (l.findIdx? fun y => y.2.value = x.value) ∧
      pyCount vCmp (i, x) l = .ok (l.countP fun y => y.2.value = x.value) := by
    induction l with
    | nil => exact ⟨rfl, rfl⟩
    | cons y l ih =>
      obtain ⟨h1, h2⟩ := ih (fun z hz => hl z (List.mem_cons_of_mem _ hz)) fun z hz => hid z (List.mem_cons_of_mem _ hz)
      obtain ⟨w, s, r', hr'⟩ := hl y List.mem_cons_self
      have hc := vCmp_eq w hx s.symm (by omega) hr' hr
      by_cases hi : y.1 = i
      · have hv : y.2.value = x.value := by rw [hid y List.mem_cons_self hi]
        constructor
        · simp [pyFind, hi, List.findIdx?_cons, hv, pure, Except.pure]
        · simp [pyCount, hi, h2, hv, bind, Except.bind, pure, Except.pure]
      · by_cases hv : y.2.value = x.value
        · constructor
          · simp [pyFind, hi, hc, List.findIdx?_cons, hv, bind, Except.bind, pure, Except.pure]
          · simp [pyCount, hi, hc, h2, hv, bind, Except.bind, pure, Except.pure]
        · constructor
          · simp [pyFind, hi, hc, h1, List.findIdx?_cons, hv, bind, Except.bind, pure, Except.pure]
          · simp [pyCount, hi, hc, h2, hv, bind, Except.bind, pure, Except.pure]
  refine ⟨?_, ?_, hfind.2⟩
  · simp only [pyIn, hfind.1, bind, Except.bind, pure, Except.pure]
    rw [List.findIdx?_isSome]
  · simp only [pyIndex, hfind.1, bind, Except.bind]
    cases l.findIdx? fun y => decide (y.2.value = x.value) <;> rfl

example := C136_find (x := ⟨.root .sint, 8, 200⟩) (by decide) (by decide) rfl 7
  (l := [(1, ⟨.root .bv, 8, 3⟩), (2, ⟨.root .uint, 8, 200⟩), (7, ⟨.root .sint, 8, 200⟩)])
  (by simp; decide) (by simp)

/-- In a list with vectors of another width `in` raises: `BitVector[8](0) in [BitVector[4](0)]`. -/
theorem C136_find_widths_refuted :
    pyIn vCmp (0, ⟨.root .bv, 8, 0⟩) [(1, ⟨.root .bv, 4, 0⟩)] = .error .inconsistentSize := by decide

/-! ### The symbolic families -/

section
open Smt

/-- The comparison of two symbolic vectors is a term that denotes the comparison of their values. -/
theorem scmpVec_ok (S : Simplifier) {e : Env} {p q : SBV} {P Q : BVal} {a b : Root} (op : COp) (h1 : p.kind = .root a)
    (h2 : q.kind = .root b) (h3 : Den e p P) (h4 : Den e q Q) (h7 : 0 < p.size) (h8 : q.size = p.size) :
    ∃ t c, scmpVec S op a b p q = .ok (.sym t) ∧ vCmp op P Q = .ok c ∧ DenBit e t c := by
  have h5 : P.kind = .root a := by have := h3.1; rw [h1] at this; exact this
  have h6 : Q.kind = .root b := by have := h4.1; rw [h2] at this; exact this
  have hP : P.size = p.size := h3.2.1
  have hQ : Q.size = q.size := h4.2.1
  have hr := C75_compare_vectors S op h1 h2 h3 h4 h7 (by omega)
  have hc := vCmp_pair op h3.WF h4.WF (by omega) (by omega) h5 h6
  have hb : binC op (.bv P) (.bv Q) = .ok (.bit (refC (signedPair a b) op P.size P.value Q.value)) := by
    obtain ⟨k, n, v⟩ := P
    obtain ⟨k', n', w⟩ := Q
    dsimp only at h5 h6 hP hQ ⊢
    subst h5 h6
    obtain rfl : n' = n := by omega
    exact (C25_operators a b n' (by omega) h3.WF h4.WF 0).2 op
  rw [hb] at hr
  match hm : scmpVec S op a b p q, hr with
  | .ok (.sym t), hr => exact ⟨t, _, rfl, hc, hr⟩

/-- **C136** (pysmt).  The comparisons of two symbolic vectors of predefined classes other than the pair `SMTUIntVector`,
`SMTSIntVector` are three terms of which, under every assignment, exactly one is true; the comparison the other way
round is equivalent. -/
theorem C136_smt (S : Simplifier) {x y : SBV} {r r' : Root} (hk : x.kind = .root r) (hk' : y.kind = .root r')
    (hx : x.term.ty? = some (.bv x.size)) (hy : y.term.ty? = some (.bv y.size)) (hs : y.size = x.size) (hn : 0 < x.size)
    (hp : ¬ (r = .uint ∧ r' = .sint) ∧ ¬ (r = .sint ∧ r' = .uint)) :
    ∃ lt eq gt lt' gt', scmpVec S .lt r r' x y = .ok (.sym lt) ∧ scmpVec S .eq r r' x y = .ok (.sym eq) ∧
      scmpVec S .gt r r' x y = .ok (.sym gt) ∧ scmpVec S .lt r' r y x = .ok (.sym lt') ∧
      scmpVec S .gt r' r y x = .ok (.sym gt') ∧
      ∀ e, ∃ a b c : Bool, DenBit e lt a ∧ DenBit e eq b ∧ DenBit e gt c ∧ DenBit e gt' a ∧ DenBit e lt' c ∧
        (a || b || c) = true ∧ (a && b) = false ∧ (a && c) = false ∧ (b && c) = false := by
  have sx : x.Sorted := ⟨by rw [hk]; trivial, hx⟩
  have sy : y.Sorted := ⟨by rw [hk']; trivial, hy⟩
  have e0 : Env := ⟨fun _ => false, fun _ => 0, fun _ _ => 0⟩
  obtain ⟨X0, hX0⟩ := sx.den e0
  obtain ⟨Y0, hY0⟩ := sy.den e0
  obtain ⟨lt, _, h1, _, _⟩ := scmpVec_ok S .lt hk hk' hX0 hY0 hn hs
  obtain ⟨eq, _, h2, _, _⟩ := scmpVec_ok S .eq hk hk' hX0 hY0 hn hs
  obtain ⟨gt, _, h3, _, _⟩ := scmpVec_ok S .gt hk hk' hX0 hY0 hn hs
  obtain ⟨lt', _, h4, _, _⟩ := scmpVec_ok S .lt hk' hk hY0 hX0 (by omega) hs.symm
  obtain ⟨gt', _, h5, _, _⟩ := scmpVec_ok S .gt hk' hk hY0 hX0 (by omega) hs.symm
  refine ⟨lt, eq, gt, lt', gt', h1, h2, h3, h4, h5, fun e => ?_⟩
  obtain ⟨X, hX⟩ := sx.den e
  obtain ⟨Y, hY⟩ := sy.den e
  have kx : X.kind = .root r := by have := hX.1; rw [hk] at this; exact this
  have ky : Y.kind = .root r' := by have := hY.1; rw [hk'] at this; exact this
  have zx : X.size = x.size := hX.2.1
  have zy : Y.size = y.size := hY.2.1
  obtain ⟨_, a, k1, l1, m1⟩ := scmpVec_ok S .lt hk hk' hX hY hn hs
  obtain ⟨_, b, k2, l2, m2⟩ := scmpVec_ok S .eq hk hk' hX hY hn hs
  obtain ⟨_, c, k3, l3, m3⟩ := scmpVec_ok S .gt hk hk' hX hY hn hs
  obtain ⟨_, c', k4, l4, m4⟩ := scmpVec_ok S .lt hk' hk hY hX (by omega) hs.symm
  obtain ⟨_, a', k5, l5, m5⟩ := scmpVec_ok S .gt hk' hk hY hX (by omega) hs.symm
  cases h1.symm.trans k1
  cases h2.symm.trans k2
  cases h3.symm.trans k3
  cases h4.symm.trans k4
  cases h5.symm.trans k5
  obtain ⟨A, B, C, p1, p2, p3, p4, -, p5, -, -, -, -, -, -, q1, q2, q3, q4⟩ :=
    C136_pair hX.WF hY.WF (by omega) (by omega) kx ky hp
  cases l1.symm.trans p1
  cases l2.symm.trans p2
  cases l3.symm.trans p3
  cases l4.symm.trans p5
  cases l5.symm.trans p4
  exact ⟨_, _, _, m1, m2, m3, m5, m4, q1, q2, q3, q4⟩

example (S : Simplifier) := C136_smt S (x := ⟨.root .sint, 8, .sym ['x'] (.bv 8)⟩) (y := ⟨.root .bv, 8, .sym ['y'] (.bv 8)⟩)
  rfl rfl rfl rfl rfl (by decide) (by decide)

end

theorem zBinC_ok {e : Z3.Env} {p q : Z3.ZBV} {P Q : BVal} (op : COp) (hp : Z3.Den e p P) (hq : Z3.Den e q Q)
    (h : q.size = p.size) : ∃ t c, Z3.zBinC op (.bv p) (.bv q) = .ok t ∧ vCmp op P Q = .ok c ∧ Z3.DenBit e t c := by
  have hr := C95_compare op hp hq
  have h1 := hp.size_eq
  have h2 := hq.size_eq
  have h3 := hp.pos
  have hc := vCmp_pair op hp.WF hq.WF (by omega) (by omega) hp.1 hq.1
  have hb : binC op (.bv P) (.bv Q) = .ok (.bit (refC (signedPair p.root q.root) op P.size P.value Q.value)) := by
    have h5 := hp.1
    have h6 := hq.1
    have w1 := hp.WF
    have w2 := hq.WF
    obtain ⟨k, n, v⟩ := P
    obtain ⟨k', n', w⟩ := Q
    dsimp only at h5 h6 h1 h2 ⊢
    subst h5 h6
    obtain rfl : n' = n := by omega
    exact (C25_operators _ _ n' (by omega) w1 w2 0).2 op
  rw [hb] at hr
  match hm : Z3.zBinC op (.bv p) (.bv q), hr with
  | .ok t, hr => exact ⟨t, _, rfl, hc, hr⟩

/-- **C136** (z3).  Likewise for the three comparisons of two z3 vectors. -/
theorem C136_z3 {x y : Z3.ZBV} (hx : ∀ e, ∃ X, Z3.Den e x X) (hy : ∀ e, ∃ Y, Z3.Den e y Y) (hs : y.size = x.size)
    (hp : ¬ (x.root = .uint ∧ y.root = .sint) ∧ ¬ (x.root = .sint ∧ y.root = .uint)) :
    ∃ lt eq gt lt' gt', Z3.zBinC .lt (.bv x) (.bv y) = .ok lt ∧ Z3.zBinC .eq (.bv x) (.bv y) = .ok eq ∧
      Z3.zBinC .gt (.bv x) (.bv y) = .ok gt ∧ Z3.zBinC .lt (.bv y) (.bv x) = .ok lt' ∧
      Z3.zBinC .gt (.bv y) (.bv x) = .ok gt' ∧
      ∀ e, (lt e || eq e || gt e) = true ∧ (lt e && eq e) = false ∧ (lt e && gt e) = false ∧ (eq e && gt e) = false ∧
        gt' e = lt e ∧ lt' e = gt e := by
  have e0 : Z3.Env := ⟨fun _ => false, fun _ _ => 0⟩
  obtain ⟨X0, hX0⟩ := hx e0
  obtain ⟨Y0, hY0⟩ := hy e0
  obtain ⟨lt, _, h1, _, _⟩ := zBinC_ok .lt hX0 hY0 hs
  obtain ⟨eq, _, h2, _, _⟩ := zBinC_ok .eq hX0 hY0 hs
  obtain ⟨gt, _, h3, _, _⟩ := zBinC_ok .gt hX0 hY0 hs
  obtain ⟨lt', _, h4, _, _⟩ := zBinC_ok .lt hY0 hX0 hs.symm
  obtain ⟨gt', _, h5, _, _⟩ := zBinC_ok .gt hY0 hX0 hs.symm
  refine ⟨lt, eq, gt, lt', gt', h1, h2, h3, h4, h5, fun e => ?_⟩
  obtain ⟨X, hX⟩ := hx e
  obtain ⟨Y, hY⟩ := hy e
  have zx := hX.size_eq
  have zy := hY.size_eq
  have zp := hX.pos
  obtain ⟨_, a, k1, l1, m1⟩ := zBinC_ok .lt hX hY hs
  obtain ⟨_, b, k2, l2, m2⟩ := zBinC_ok .eq hX hY hs
  obtain ⟨_, c, k3, l3, m3⟩ := zBinC_ok .gt hX hY hs
  obtain ⟨_, c', k4, l4, m4⟩ := zBinC_ok .lt hY hX hs.symm
  obtain ⟨_, a', k5, l5, m5⟩ := zBinC_ok .gt hY hX hs.symm
  cases h1.symm.trans k1
  cases h2.symm.trans k2
  cases h3.symm.trans k3
  cases h4.symm.trans k4
  cases h5.symm.trans k5
  obtain ⟨A, B, C, p1, p2, p3, p4, -, p5, -, -, -, -, -, -, q1, q2, q3, q4⟩ :=
    C136_pair hX.WF hY.WF (by omega) (by omega) hX.1 hY.1 hp
  cases l1.symm.trans p1
  cases l2.symm.trans p2
  cases l3.symm.trans p3
  cases l4.symm.trans p5
  cases l5.symm.trans p4
  unfold Z3.DenBit at *
  rw [m1, m2, m3, m4, m5]
  exact ⟨q1, q2, q3, q4, rfl, rfl⟩

example := C136_z3 (x := ⟨.sint, 8, ⟨8, fun e => e.bv "x".toList 8⟩⟩) (y := ⟨.bv, 8, ⟨8, fun e => e.bv "y".toList 8⟩⟩)
  (fun e => ⟨⟨.root .sint, 8, _⟩, rfl, rfl, by decide, _, rfl, rfl⟩) (fun e => ⟨⟨.root .bv, 8, _⟩, rfl, rfl, by decide, _, rfl, rfl⟩)
  rfl (by decide)

/-- `bool(x cmp y)` for two vectors of z3 (C135). -/
def zCmpBool (op : COp) (x y : Z3.ZBV) : PyM Bool := do
  let b ← Z3.zBinC op (.bv x) (.bv y)
  Circuit.zTruth.bit b

/-- `bool(x cmp y)` for two vectors of pysmt, each with its predefined class; `SMTBit.__bool__` raises
(smt_bit_vector.py:168-169). -/
def sCmpBool (S : Smt.Simplifier) (op : COp) (x y : Root × Smt.SBV) : PyM Bool := do
  match ← Smt.scmpVec S op x.1 y.1 x.2 y.2 with
  | .sym t => (Circuit.sTruth S).bit t
  | .py b => return b

theorem pySortFrom_true {α : Type} {cmp : COp → α → α → PyM Bool} {acc l : List α}
    (h : ∀ x ∈ l, ∀ y ∈ acc ++ l, cmp .lt x y = .ok true) : pySortFrom cmp acc l = .ok (l.reverse ++ acc) := by
  induction l generalizing acc with
  | nil => rfl
  | cons x l ih =>
    have hi : pyInsert cmp x acc = .ok (x :: acc) := by
      cases acc with
      | nil => rfl
      | cons y acc => simp [pyInsert, h x (by simp) y (by simp), bind, Except.bind, pure, Except.pure]
    unfold pySortFrom
    rw [hi]
    refine (ih fun z hz w hw => h z (List.mem_cons_of_mem _ hz) w ?_).trans ?_
    · simp only [List.mem_append, List.mem_cons] at hw ⊢; tauto
    · simp

/-- **C136** (z3).  Whatever the values: `x in l` is `True` for every nonempty list of vectors of the width of `x`,
`l.index(x)` is 0, `l.count(x)` is `len(l)`, and `sorted(l)` is `l` reversed. -/
theorem C136_z3_refuted {e : Z3.Env} {x : Z3.ZBV} {X : BVal} (hx : Z3.Den e x X) (i : Nat) (l : List (Nat × Z3.ZBV))
    (hl : ∀ y ∈ l, y.2.size = x.size ∧ ∃ Y, Z3.Den e y.2 Y) :
    pyIn zCmpBool (i, x) l = .ok (!l.isEmpty) ∧ (l ≠ [] → pyIndex zCmpBool (i, x) l = .ok 0) ∧
    pyCount zCmpBool (i, x) l = .ok l.length ∧ pySorted zCmpBool (l.map (·.2)) = .ok (l.map (·.2)).reverse := by
  have key : ∀ op {p q : Z3.ZBV} {P Q : BVal}, Z3.Den e p P → Z3.Den e q Q → q.size = p.size → zCmpBool op p q = .ok true := by
    intro op p q P Q hp hq h
    obtain ⟨t, c, h, -, -⟩ := zBinC_ok op hp hq h
    simp only [zCmpBool, h, bind, Except.bind]
    rfl
  have hf : l ≠ [] → pyFind zCmpBool (i, x) l = .ok (some 0) := by
    intro hne
    cases l with
    | nil => exact absurd rfl hne
    | cons y l =>
      obtain ⟨h1, Y, h2⟩ := hl y List.mem_cons_self
      unfold pyFind
      rw [key .eq h2 hx h1.symm]
      split <;> rfl
  refine ⟨?_, fun hne => by simp [pyIndex, hf hne, bind, Except.bind, pure, Except.pure], ?_, ?_⟩
  · by_cases hne : l = []
    · subst hne; rfl
    · simp [pyIn, hf hne, bind, Except.bind, pure, Except.pure, hne]
  · clear hf
    induction l with
    | nil => rfl
    | cons y l ih =>
      obtain ⟨h1, Y, h2⟩ := hl y List.mem_cons_self
      have := ih fun z hz => hl z (List.mem_cons_of_mem _ hz)
      unfold pyCount
      rw [key .eq h2 hx h1.symm, this]
      split <;> rfl
  · refine (pySortFrom_true (acc := []) fun y hy z hz => ?_).trans (by simp)
    obtain ⟨y, hy', rfl⟩ := List.mem_map.1 hy
    obtain ⟨z, hz', rfl⟩ := List.mem_map.1 (by simpa only [List.nil_append] using hz)
    obtain ⟨h1, Y, h2⟩ := hl y hy'
    obtain ⟨h3, Z, h4⟩ := hl z hz'
    exact key .lt h2 h4 (by omega)

/-- **C136** (pysmt).  `x in [y, ...]` raises `TypeError` unless `y` is the object `x`; `sorted` and `min` raise from two
items on. -/
theorem C136_smt_refuted (S : Smt.Simplifier) {e : Smt.Env} {r r' : Root} {x y : Smt.SBV} {X Y : BVal} (hk : x.kind = .root r)
    (hk' : y.kind = .root r') (hx : Smt.Den e x X) (hy : Smt.Den e y Y) (hn : 0 < x.size) (hs : y.size = x.size) (i j : Nat)
    (l : List (Nat × Root × Smt.SBV)) (l' : List (Root × Smt.SBV)) :
    pyIn (sCmpBool S) (i, r, x) ((j, r', y) :: l) = (if j = i then .ok true else .error .typeError) ∧
    pySorted (sCmpBool S) ((r, x) :: (r', y) :: l') = .error .typeError ∧
    pyMin (sCmpBool S) ((r, x) :: (r', y) :: l') = .error .typeError := by
  have key : ∀ op, sCmpBool S op (r', y) (r, x) = .error .typeError := by
    intro op
    obtain ⟨t, c, h, -, -⟩ := scmpVec_ok S op hk' hk hy hx (by omega) hs.symm
    simp only [sCmpBool, h, bind, Except.bind]
    rfl
  refine ⟨?_, ?_, ?_⟩
  · simp only [pyIn, pyFind, key]
    split <;> rfl
  · simp only [pySorted, pySortFrom, pyInsert, key, bind, Except.bind]
  · simp only [pyMin, pyBest, key, bind, Except.bind]

end HW
