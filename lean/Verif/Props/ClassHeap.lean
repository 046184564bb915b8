import Verif.Lemmas.ClassHeap
import Verif.Lemmas.BV

/-! # Properties C31-C33, C71: sized vector classes -/

namespace HW

open Cls Cls.Heap Spec

theorem Cls.Heap.MadeAs.facts {h : Heap} {d u : Nat} {n : Int} (hm : MadeAs h.classes d u n) :
    h.size d = some n ∧ h.isVec d = true ∧ h.unsizedT d = .ok u := by
  obtain ⟨k, hk, kv, ks, ku⟩ := hm
  simp [Heap.size, Heap.isVec, Heap.unsizedT, hk, kv, ks, ku]

/-- **C31** (interning).  In any history `T[n]` (n a non-negative int) on a live unsized class
succeeds; the class made has size `n`, `unsized_t` is `T`; and whatever happens afterwards, as long as
the program still holds it, `T[n]` returns that same class and changes nothing. -/
theorem C31_interned {h h1 h2 : Heap} (hist : Steps init h) {T d : Nat} {idx : Index}
    (hT : h.Alive T) (hv : h.isVec T = true) (he : h.getitem T idx = .ok (h1, d))
    (later : Steps { h1 with roots := d :: h1.roots } h2) (held : d ∈ h2.roots) :
    ∃ n, idx.key? = some n ∧ 0 ≤ n ∧ h2.getitem T (.int n) = .ok (h2, d) ∧ h2.size d = some n ∧
      h2.unsizedT d = .ok T := by
  have hi := inv_init.steps hist
  rcases getitem_cases hi hT hv idx with ⟨i, h', d', g0, g1, g2, g3, g4, g5, g6, g7, _⟩ | ⟨e, _⟩ | ⟨e, _⟩
  · rw [g1] at he; cases he
    have i1 : ({ h1 with roots := d :: h1.roots } : Heap).Inv := by
      apply g2.withRoots
      intro x hx
      simp only [List.mem_cons] at hx
      rcases hx with rfl | hx
      · exact g4
      · exact g2.roots x hx
    have i2 := i1.steps later
    obtain ⟨M, hM⟩ := steps_classes i1 later
    have m2 : MadeAs h2.classes d T i := by rw [hM]; exact g5.app M
    have hTd : T < d := by
      obtain ⟨k, hk, kv, ks, ku⟩ := m2
      exact ((i2.good d k hk).made kv i T ks ku).2.1
    have hl := i2.complete d T i (i2.roots d held).2 m2 (by obtain ⟨k, hk, _⟩ := m2; exact ⟨k, hk, hTd⟩)
    refine ⟨i, g0, g7, ?_, m2.facts.1, m2.facts.2.2⟩
    simp [getitem, getitemF, lookupIdx, Index.key?, hl]
  · rw [e] at he; cases he
  · rw [e] at he; cases he

/-- **C31** (sizing succeeds on every live unsized class, apart from the MRO conflicts of `C159_refuted`). -/
theorem C31_total {h : Heap} (hist : Steps init h) {T : Nat} {n : Int} (hT : h.Alive T)
    (hv : h.isVec T = true) (hu : h.size T = none) (hn : 0 ≤ n) :
    ∃ h1 d, h.getitem T (.int n) = .ok (h1, d) ∧ h1.size d = some n ∧ h1.unsizedT d = .ok T := by
  obtain ⟨h', d, g1, g2, g3, g4, g5, g6⟩ :=
    getitem_spec (T + 1) h T n (inv_init.steps hist) (by omega) hT hv hu hn
  exact ⟨h', d, g1, g5.facts.1, g5.facts.2.2⟩

/-- **C31** (injectivity).  In any two points of one history, `T[m]` and `S[n]` are the same class only
if `T` is `S` and `m = n`. -/
theorem C31_injective {h h1 h2 h3 : Heap} (hist : Steps init h) {T S d : Nat} {m n : Int}
    (hT : h.Alive T) (hTv : h.isVec T = true) (he : h.getitem T (.int m) = .ok (h1, d))
    (later : Steps { h1 with roots := d :: h1.roots } h2)
    (hS : h2.Alive S) (hSv : h2.isVec S = true) (he' : h2.getitem S (.int n) = .ok (h3, d)) :
    T = S ∧ m = n := by
  have hi := inv_init.steps hist
  rcases getitem_cases hi hT hTv (.int m) with ⟨i, h', d', g0, g1, g2, g3, g4, g5, g6, g7, _⟩ | ⟨e, _⟩ | ⟨e, _⟩
  · rw [g1] at he; cases he
    cases g0
    have i1 : ({ h1 with roots := d :: h1.roots } : Heap).Inv := by
      apply g2.withRoots
      intro x hx
      simp only [List.mem_cons] at hx
      rcases hx with rfl | hx
      · exact g4
      · exact g2.roots x hx
    have i2 := i1.steps later
    obtain ⟨M, hM⟩ := steps_classes i1 later
    rcases getitem_cases i2 hS hSv (.int n) with ⟨i', h'', d'', k0, k1, k2, k3, k4, k5, _⟩ | ⟨e, _⟩ | ⟨e, _⟩
    · rw [k1] at he'; cases he'
      cases k0
      have m3 : MadeAs h3.classes d T m := by
        apply k3.madeAs; rw [hM]; exact g5.app M
      obtain ⟨a, ha, _, as, au⟩ := m3
      obtain ⟨b, hb, _, bs, bu⟩ := k5
      rw [ha] at hb; cases hb
      rw [as] at bs; rw [au] at bu
      cases bs; cases bu
      exact ⟨rfl, rfl⟩
    · rw [e] at he'; cases he'
    · rw [e] at he'; cases he'
  · rw [e] at he; cases he
  · rw [e] at he; cases he

/-- **C31** (rejections).  Negative sizes raise `ValueError` (also on a class already sized); a sized
class cannot be sized again. -/
theorem C31_rejects {h : Heap} (hist : Steps init h) {T : Nat} {n : Int} (hT : h.Alive T)
    (hv : h.isVec T = true) :
    (n < 0 → h.getitem T (.int n) = .error .valueError) ∧
    (0 ≤ n → (h.size T).isSome = true → h.getitem T (.int n) = .error .typeError) := by
  have hi := inv_init.steps hist
  rcases getitem_cases hi hT hv (.int n) with ⟨i, h', d', g0, g1, g2, g3, g4, g5, g6, g7, g8, _⟩ | ⟨e, i, ei, en⟩ | ⟨e, en⟩
  · cases g0
    exact ⟨fun h => by omega, fun _ h => by rw [g8] at h; cases h⟩
  · cases ei
    exact ⟨fun _ => e, fun h => by omega⟩
  · refine ⟨fun hneg => ?_, fun _ _ => e⟩
    cases hl : h.lookup T n with
    | none => simp [getitem, getitemF, lookupIdx, Index.key?, hl, hneg]
    | some d =>
      obtain ⟨_, k, hk, kv, ks, ku⟩ := hi.lookup_made hl
      have := ((hi.good d k hk).made kv n T ks ku).1
      omega

/-- A history: `class V`, `class W(V)`, `class P` (plain), `class X(W, P)`. -/
def demoHeap : Heap :=
  ⟨[⟨true, [], some 0, none⟩, ⟨true, [0], some 1, none⟩, ⟨false, [], none, none⟩, ⟨true, [1, 2], some 3, none⟩],
   [], [], [3, 2, 1, 0]⟩

theorem demoHeap_reachable : Steps init demoHeap := by
  refine .tail (.tail (.tail (.tail (.refl _)
    (Step.vec (bases := []) (t := 0) (by simp) rfl))
    (Step.vec (bases := [0]) (t := 1) (by simp [Alive, init]) rfl))
    (Step.plain (bases := []) (by simp)))
    (Step.vec (h := ⟨[⟨true, [], some 0, none⟩, ⟨true, [0], some 1, none⟩, ⟨false, [], none, none⟩], [], [], [2, 1, 0]⟩)
      (bases := [1, 2]) (t := 3) (by simp [Alive]) rfl)

example : ∃ h1, demoHeap.getitem 3 (.int 8) = .ok (h1, 6) ∧ h1.size 6 = some 8 ∧ h1.bases 6 = [3, 5] ∧
    h1.bases 5 = [1, 4] ∧ h1.getitem 0 (.int 8) = .ok (h1, 4) := ⟨_, rfl, rfl, rfl, rfl, rfl⟩

/-! ## C32 -/

theorem forall₂_left {α β : Type} {R : α → β → Prop} : ∀ {l : List α} {l' : List β}, List.Forall₂ R l l' →
    ∀ {a}, a ∈ l → ∃ b ∈ l', R a b
  | _, _, .nil, _, h => by simp at h
  | _, _, .cons h hs, a, ha => by
    simp only [List.mem_cons] at ha
    rcases ha with rfl | ha
    · exact ⟨_, by simp, h⟩
    · obtain ⟨b, hb, hr⟩ := forall₂_left hs ha
      exact ⟨b, by simp [hb], hr⟩

theorem Cls.Heap.Inv.plain_super {h : Heap} (hi : h.Inv) {c d : Nat} (hs : Sub h c d) (hc : h.isVec c = false) :
    h.isVec d = false := by
  induction hs with
  | refl => exact hc
  | @step c b d hb _ ih =>
    apply ih
    unfold Heap.bases at hb
    cases hk : h.classes[c]? with
    | none => rw [hk] at hb; simp at hb
    | some k =>
      rw [hk] at hb
      have : k.isVec = false := by simpa [Heap.isVec, hk] using hc
      exact ((hi.good c k hk).plain this).1 b hb

theorem Cls.Heap.Inv.unsized_super {h : Heap} (hi : h.Inv) {c d : Nat} (hs : Sub h c d) (hc : h.size c = none) :
    h.size d = none := by
  induction hs with
  | refl => exact hc
  | @step c b d hb _ ih =>
    apply ih
    unfold Heap.bases at hb
    cases hk : h.classes[c]? with
    | none => rw [hk] at hb; simp at hb
    | some k =>
      rw [hk] at hb
      cases hkv : k.isVec with
      | false =>
        have := ((hi.good c k hk).plain hkv).1 b hb
        unfold Heap.size
        unfold vecOf at this
        split
        · rename_i k' hk'
          rw [hk'] at this; simp at this; simp [this]
        · rfl
      | true =>
        have : k.size = none := by simpa [Heap.size, hk, hkv] using hc
        exact ((hi.good c k hk).unszd hkv this).2 b hb

theorem Cls.Heap.Inv.sized_super {h : Heap} (hi : h.Inv) {d S T : Nat} {n : Int} (hs : Sub h S T)
    (hT : h.isVec T = true) (hm : MadeAs h.classes d S n) (hd : h.Alive d) :
    ∃ e, MadeAs h.classes e T n ∧ Sub h d e ∧ h.Alive e := by
  induction hs generalizing d with
  | refl => exact ⟨d, hm, .refl _, hd⟩
  | @step S b T hb hs ih =>
    have hbv : h.isVec b = true := by
      cases hv : h.isVec b with
      | true => rfl
      | false => rw [hi.plain_super hs hv] at hT; cases hT
    have hm' := hm
    obtain ⟨k, hk, kv, ks, ku⟩ := hm'
    obtain ⟨m1, m2, m3, m4, bs, m5, m6⟩ := (hi.good d k hk).made kv n S ks ku
    have hb' : b ∈ (basesOf h.classes S).filter (vecOf h.classes) := by
      rw [List.mem_filter]; exact ⟨hb, hbv⟩
    obtain ⟨db, hdb, hmb⟩ : ∃ db ∈ bs, MadeAs h.classes db b n := by
      exact forall₂_left m6 hb'
    have hmem : db ∈ k.bases := by rw [m5]; simp [hdb]
    obtain ⟨e, e1, e2, e3⟩ := ih hT hmb ⟨hmb.lt, (hi.closed d k hk hd.2).1 db hmem⟩
    exact ⟨e, e1, .step (by simpa [Heap.bases, hk] using hmem) e2, e3⟩

/-- **C32** (monotone).  Once `S[n]` exists and is held, then for every vector class `T` that `S`
derives from, `T[n]` is (without any change of state) a superclass of `S[n]`, as are `S` and `T`. -/
theorem C32_monotone {h h1 h2 : Heap} (hist : Steps init h) {S T d : Nat} {n : Int}
    (hS : h.Alive S) (hv : h.isVec S = true) (he : h.getitem S (.int n) = .ok (h1, d))
    (later : Steps { h1 with roots := d :: h1.roots } h2) (held : d ∈ h2.roots)
    (hT : h2.isVec T = true) (hsub : Sub h2 S T) :
    (∃ e, h2.getitem T (.int n) = .ok (h2, e) ∧ Sub h2 d e) ∧ Sub h2 d S ∧ Sub h2 d T := by
  have hi := inv_init.steps hist
  rcases getitem_cases hi hS hv (.int n) with ⟨i, h', d', g0, g1, g2, g3, g4, g5, g6, g7, _⟩ | ⟨e, _⟩ | ⟨e, _⟩
  · rw [g1] at he; cases he
    cases g0
    have i1 : ({ h1 with roots := d :: h1.roots } : Heap).Inv := by
      apply g2.withRoots
      intro x hx
      simp only [List.mem_cons] at hx
      rcases hx with rfl | hx
      · exact g4
      · exact g2.roots x hx
    have i2 := i1.steps later
    obtain ⟨M, hM⟩ := steps_classes i1 later
    have m2 : MadeAs h2.classes d S n := by rw [hM]; exact g5.app M
    have hdS : S ∈ h2.bases d := by
      obtain ⟨k, hk, kv, ks, ku⟩ := m2
      obtain ⟨_, _, _, _, bs, m5, _⟩ := (i2.good d k hk).made kv n S ks ku
      simp [Heap.bases, hk, m5]
    obtain ⟨e, e1, e2, e3⟩ := i2.sized_super hsub hT m2 (i2.roots d held)
    have hTe : T < e := by
      obtain ⟨k, hk, kv, ks, ku⟩ := e1
      exact ((i2.good e k hk).made kv n T ks ku).2.1
    have hl := i2.complete e T n e3.2 e1 (by obtain ⟨k, hk, _⟩ := e1; exact ⟨k, hk, hTe⟩)
    exact ⟨⟨e, by simp [getitem, getitemF, lookupIdx, Index.key?, hl], e2⟩, .step hdS (.refl _), .step hdS hsub⟩
  · rw [e] at he; cases he
  · rw [e] at he; cases he

/-- **C32** (sizes do not mix).  In every reachable state a sized class has no differently sized
ancestor, and an unsized class has no sized ancestor at all. -/
theorem C32_no_mixing {h : Heap} (hist : Steps init h) {c d : Nat} (hsub : Sub h c d) {m : Int}
    (hd : h.size d = some m) : h.size c = some m := by
  have hi := inv_init.steps hist
  induction hsub with
  | refl => exact hd
  | @step c b d hb hs ih =>
    have hbm := ih hd
    cases hc : h.size c with
    | none =>
      have := hi.unsized_super (.step hb hs) hc
      rw [this] at hd; cases hd
    | some n =>
      unfold Heap.bases at hb
      cases hk : h.classes[c]? with
      | none => rw [hk] at hb; simp at hb
      | some k =>
        rw [hk] at hb
        have hkv : k.isVec = true := by
          by_contra hkv
          simp [Heap.size, hk, hkv] at hc
        have hks : k.size = some n := by simpa [Heap.size, hk, hkv] using hc
        rw [(hi.good c k hk).szd hkv n hks b hb m hbm]

/-- **C32** (rejection).  A class statement whose bases include two different sizes raises `TypeError`;
otherwise the size loop accepts it and the new class has the common size. -/
theorem C32_class_statement {h : Heap} {bases : List Nat} :
    ((∃ b ∈ bases, ∃ b' ∈ bases, ∃ m m', h.size b = some m ∧ h.size b' = some m' ∧ m ≠ m') →
      h.newVec bases (none, none) = .error .typeError) ∧
    ((∀ b ∈ bases, ∀ b' ∈ bases, ∀ m m', h.size b = some m → h.size b' = some m' → m = m') →
      ∃ h' t, h.newVec bases (none, none) = .ok (h', t) ∧
        (∀ b ∈ bases, ∀ m, h.size b = some m → h'.size t = some m) ∧
        ((∀ b ∈ bases, h.size b = none) → h'.size t = none ∧ h'.unsizedT t = .ok t)) := by
  have loopErr : ∀ (bs : List Nat) (s : Option Int) (e : PyErr), h.sizeLoop s bs = .error e → e = .typeError := by
    intro bs
    induction bs with
    | nil => intro s e he; simp [sizeLoop] at he
    | cons b bs ih =>
      intro s e he
      simp only [sizeLoop] at he
      split at he
      · exact ih _ _ he
      · split at he
        · exact ih _ _ he
        · split at he
          · cases he; rfl
          · exact ih _ _ he
  have loopOk : ∀ (bs : List Nat) (s : Option Int) ,
      (∀ b ∈ bs, ∀ b' ∈ bs, ∀ m m', h.size b = some m → h.size b' = some m' → m = m') →
      (∀ k, s = some k → ∀ b ∈ bs, ∀ m, h.size b = some m → m = k) → ∃ r, h.sizeLoop s bs = .ok r := by
    intro bs
    induction bs with
    | nil => intro s _ _; exact ⟨s, rfl⟩
    | cons b bs ih =>
      intro s h1 h2
      have h1' : ∀ b ∈ bs, ∀ b' ∈ bs, ∀ m m', h.size b = some m → h.size b' = some m' → m = m' :=
        fun x hx y hy => h1 x (by simp [hx]) y (by simp [hy])
      simp only [sizeLoop]
      cases hb : h.size b with
      | none => exact ih s h1' fun k hk x hx => h2 k hk x (by simp [hx])
      | some n =>
        cases s with
        | none =>
          apply ih (some n) h1'
          intro k hk x hx m hm
          cases hk
          exact (h1 b (by simp) x (by simp [hx]) n m hb hm).symm
        | some k =>
          have : k = n := (h2 k rfl b (by simp) n hb).symm
          subst this
          simp only [ne_eq, not_true, if_false]
          exact ih (some k) h1' fun k' hk' x hx => h2 k' hk' x (by simp [hx])
  constructor
  · rintro ⟨b, hb, b', hb', m, m', hm, hm', hne⟩
    cases hl : h.sizeLoop none bases with
    | error e => rw [loopErr _ _ _ hl] at hl; simp [newVec, hl, bind, Except.bind]
    | ok r =>
      obtain ⟨l1, l2, l3⟩ := sizeLoop_ok hl
      cases r with
      | none => rw [(l2 rfl).2 b hb] at hm; cases hm
      | some n => exact (hne ((l3 n rfl b hb m hm).trans (l3 n rfl b' hb' m' hm').symm)).elim
  · intro hall
    obtain ⟨r, hl⟩ := loopOk bases none hall (by simp)
    obtain ⟨l1, l2, l3⟩ := sizeLoop_ok hl
    refine ⟨_, _, by simp [newVec, hl, bind, Except.bind, pure, Except.pure]; exact ⟨rfl, rfl⟩, ?_, ?_⟩
    · intro b hb m hm
      cases r with
      | none => rw [(l2 rfl).2 b hb] at hm; cases hm
      | some n => rw [l3 n rfl b hb m hm]; simp [Heap.size]
    · intro hn
      cases r with
      | none => simp [Heap.size, Heap.unsizedT]
      | some n =>
        exfalso
        have : ∀ (bs : List Nat), (∀ b ∈ bs, h.size b = none) → h.sizeLoop none bs = .ok none := by
          intro bs
          induction bs with
          | nil => intro _; rfl
          | cons b bs ih =>
            intro hb
            simp only [sizeLoop, hb b (by simp)]
            exact ih fun x hx => hb x (by simp [hx])
        rw [this bases hn] at hl; cases hl

example : ∃ h1 h2, demoHeap.getitem 3 (.int 8) = .ok (h1, 6) ∧ h1.getitem 1 (.int 4) = .ok (h2, 8) ∧
    h2.newVec [6, 8] (none, none) = .error .typeError ∧
    (∃ h3, h2.newVec [6, 3] (none, none) = .ok (h3, 9) ∧ h3.size 9 = some 8) :=
  ⟨_, _, rfl, rfl, rfl, _, rfl, rfl⟩

/-! ## C33 -/

theorem bitLength_bounds {v : Int} (h : 0 ≤ v) :
    v < 2 ^ (max (pyBitLength v) 1) ∧ (max (pyBitLength v) 1 = 1 ∨ 2 ^ (max (pyBitLength v) 1 - 1) ≤ v) := by
  obtain ⟨m, rfl⟩ := Int.eq_ofNat_of_zero_le h
  unfold pyBitLength
  rw [Int.natAbs_natCast]
  by_cases hm : m = 0
  · simp [hm]
  · simp only [hm, if_false]
    rw [Nat.max_eq_left (by omega)]
    have h1 := Nat.lt_log2_self (n := m)
    have h2 := Nat.log2_self_le hm
    constructor
    · exact_mod_cast h1
    · right; simp only [Nat.add_sub_cancel]; exact_mod_cast h2

/-- **C33** (ints).  `T(v)` for `v ≥ 0` (also a bool, or an object whose `__int__` gives `v`) has value
`v`, class `T` at a width of at least one, and that width is the smallest possible. -/
theorem C33_int (k : Kind) {v : Int} (h : 0 ≤ v) (o : Obj)
    (ho : o = .int v ∨ (∃ b, o = .bool b ∧ v = if b then 1 else 0) ∨ ∃ tb, o = .other (some v) tb) :
    ∃ n, mkUnsized k o = .ok ⟨k, n, v⟩ ∧ 1 ≤ n ∧ ∀ m, 1 ≤ m → v < 2 ^ m → n ≤ m := by
  obtain ⟨b1, b2⟩ := bitLength_bounds h
  refine ⟨max (pyBitLength v) 1, ?_, by omega, fun m hm hlt => ?_⟩
  · have : v % 2 ^ (max (pyBitLength v) 1) = v := Int.emod_eq_of_lt h b1
    rcases ho with rfl | ⟨b, rfl, rfl⟩ | ⟨tb, rfl⟩
    · simp [mkUnsized, implicitSize, bind, Except.bind, this]
    · simp only [mkUnsized, implicitSize, bind, Except.bind, mkBV_eq]
      have e : b2i b = if b = true then 1 else 0 := by cases b <;> rfl
      simp only [Obj.denotes, e, this]
    · simp only [mkUnsized, implicitSize, bind, Except.bind, mkBV_eq, Obj.denotes, this]
  · rcases b2 with e | e
    · omega
    · by_contra hc
      have : (2 : Int) ^ m ≤ 2 ^ (max (pyBitLength v) 1 - 1) :=
        pow_le_pow_right₀ (by omega) (by omega)
      omega

/-- **C33** (vectors, Bits, sequences).  A vector keeps its width and value; a Bit gives one bit; a
sequence gives its length (at least one) and reads back element by element. -/
theorem C33_structured (k : Kind) :
    (∀ x : BVal, x.WF → mkUnsized k (.bv x) = .ok ⟨k, x.size, x.value⟩) ∧
    (∀ b, mkUnsized k (.bit b) = .ok ⟨k, 1, if b then 1 else 0⟩) ∧
    (∀ l : List Bool, ∃ y, mkUnsized k (.seq l) = .ok y ∧ y.kind = k ∧ y.size = max l.length 1 ∧
      ∀ i : Nat, i < l.length → y.getIdx (i : Int) = (.ok (l.getD i false) : PyM Bool)) := by
  refine ⟨fun x hx => ?_, fun b => ?_, fun l => ?_⟩
  · simp [mkUnsized, implicitSize, bind, Except.bind, mkBV_eq, Obj.denotes, hx.mod_eq]
  · cases b <;> simp [mkUnsized, implicitSize, bind, Except.bind, mkBV_eq, Obj.denotes]
  · have hb := ofBits_bounds l
    have hlt : ofBits l < 2 ^ (max l.length 1) :=
      lt_of_lt_of_le hb.2 (pow_le_pow_right₀ (by omega) (by omega))
    refine ⟨⟨k, max l.length 1, ofBits l⟩, ?_, rfl, rfl, fun i hi => ?_⟩
    · simp [mkUnsized, implicitSize, bind, Except.bind, mkBV_eq, Obj.denotes, Int.emod_eq_of_lt hb.1 hlt]
    · rw [getIdx_eq]
      have hp : pyIndex? (max l.length 1) (i : Int) = some i := by
        unfold pyIndex?
        have : 0 ≤ (i : Int) ∧ (i : Int) < ((max l.length 1 : Nat) : Int) := by omega
        rw [if_pos this]; simp
      dsimp only
      rw [hp]
      simp [ibit_ofBits]

/-- Negative ints are not covered: `T(-5)` has three bits `011`, in no reading `-5`. -/
example : mkUnsized (.root .sint) (.int (-5)) = .ok ⟨.root .sint, 3, 3⟩ := by decide
example : mkUnsized (.root .uint) (.int 12) = .ok ⟨.root .uint, 4, 12⟩ := by decide
example : mkUnsized (.root .bv) (.seq [true, false, true]) = .ok ⟨.root .bv, 3, 5⟩ := by decide

/-! ## C71 -/

/-- **C71** refuted: `T[8.0]` raises `TypeError` in a fresh state but returns `T[8]` once that class is
cached, so which non-int sizes are accepted depends on the history. -/
theorem C71_refuted : ¬ ∀ (h : Heap), Steps init h → ∀ T idx, h.Alive T → h.isVec T = true → (∀ n, idx ≠ .int n) →
    h.getitem T idx = .error .typeError := by
  intro hall
  let h1 : Heap := { demoHeap with
    classes := demoHeap.classes ++ [⟨true, [0], some 0, some 8⟩], cache := [((0, 8), 4)] }
  have he : demoHeap.getitem 0 (.int 8) = .ok (h1, 4) := rfl
  have hs : Steps init { h1 with roots := 4 :: h1.roots } :=
    .tail demoHeap_reachable (.getitem (by simp [Alive, demoHeap]) rfl he)
  have := hall _ hs 0 (.eqInt 8) (by simp [Alive, demoHeap, h1]) rfl (by simp)
  cases this

/-- **C71**, the part that holds: a non-int size that equals no cached size raises `TypeError`, and one
that is accepted gives the class of the int it equals, so an accepted non-int size never makes a class. -/
theorem C71_nonint_partial {h : Heap} (hist : Steps init h) {T : Nat} {idx : Index} (hidx : ∀ n, idx ≠ .int n) :
    h.getitem T idx = .error .typeError ∨
      ∃ n d, idx = .eqInt n ∧ h.getitem T idx = .ok (h, d) ∧ h.getitem T (.int n) = .ok (h, d) ∧
        h.size d = some n ∧ h.unsizedT d = .ok T := by
  have hi := inv_init.steps hist
  cases idx with
  | int n => exact (hidx n rfl).elim
  | other => left; simp [getitem, getitemF, lookupIdx, Index.key?]
  | eqInt n =>
    cases hl : h.lookup T n with
    | none => left; simp [getitem, getitemF, lookupIdx, Index.key?, hl]
    | some d =>
      right
      exact ⟨n, d, rfl, by simp [getitem, getitemF, lookupIdx, Index.key?, hl],
        by simp [getitem, getitemF, lookupIdx, Index.key?, hl], (hi.lookup_made hl).2.facts.1,
        (hi.lookup_made hl).2.facts.2.2⟩

example : demoHeap.getitem 0 (.eqInt 8) = .error .typeError := rfl

end HW
