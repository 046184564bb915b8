import Verif.Lemmas.Fp.Classes
import Verif.Props.ClassHeap

/-! # Properties C109, C110: classes of floating-point vectors -/

namespace HW
namespace FpCls
open Heap

theorem Index.enc_key {idx : Index} {n : Int} (h : idx.enc.key? = some n) : ∃ k, idx.key? = some k ∧ n = FpCls.enc k := by
  cases idx <;> cases h <;> exact ⟨_, rfl, rfl⟩

/-- **C109** (interning).  Whatever index `T[...]` accepted, the class it returned has that binding and
`unbound_t` is `T`; and whatever happens afterwards, as long as the program still holds it, `T[eb, mb, mode,
ieee]` returns that same class and changes nothing. -/
theorem C109_interned {h h1 h2 : Heap} (hist : Steps init h) {T d : Nat} {idx : Index}
    (hT : h.Alive T) (hv : h.isFp T = true) (he : h.getitem T idx = .ok (h1, d))
    (later : Steps { h1 with roots := d :: h1.roots } h2) (held : d ∈ h2.roots) :
    ∃ k, idx.key? = some k ∧ 0 < k.eb ∧ 0 < k.mb ∧ h2.getitem T (.key k) = .ok (h2, d) ∧ h2.binding d = some k ∧
      h2.unboundT d = .ok T := by
  obtain ⟨n, g0, _, g2, g3, g4⟩ := C31_interned (steps_enc hist) ((alive_enc h T).2 hT) (by rwa [isVec_enc])
    (getitem_enc he) (steps_enc later) held
  obtain ⟨k, hk, rfl⟩ := Index.enc_key g0
  have hb := binding_of_size g3
  have hp := (pos_steps (.tail hist (.getitem hT hv he)) : Pos _)
  have hp2 : h2.Pos := hp.steps later
  obtain ⟨h', e1, e2⟩ := getitem_dec (hp2.binding hb) g2
  have := Heap.enc_inj e1
  subst this
  exact ⟨k, hk, (hp2.binding hb).1, (hp2.binding hb).2, e2, hb, by rw [← unsizedT_enc]; exact g4⟩

/-- **C109** (binding succeeds on every live unbound class). -/
theorem C109_total {h : Heap} (hist : Steps init h) {T : Nat} {k : Key} (hT : h.Alive T) (hv : h.isFp T = true)
    (hu : h.binding T = none) (he : 0 < k.eb) (hm : 0 < k.mb) :
    ∃ h1 d, h.getitem T (.key k) = .ok (h1, d) ∧ h1.binding d = some k ∧ h1.unboundT d = .ok T := by
  obtain ⟨g, d, g1, g2, g3⟩ := C31_total (steps_enc hist) (n := FpCls.enc k) ((alive_enc h T).2 hT)
    (by rwa [isVec_enc]) (by rw [size_enc, hu]; rfl) (enc_nonneg k)
  obtain ⟨h1, rfl, e⟩ := getitem_dec ⟨he, hm⟩ g1
  exact ⟨h1, d, e, binding_of_size g2, by rw [← unsizedT_enc]; exact g3⟩

/-- **C109** (injectivity).  In any two points of one history, `T[i]` and `S[j]` are the same class only if `T` is
`S` and the indices are equal. -/
theorem C109_injective {h h1 h2 h3 : Heap} (hist : Steps init h) {T S d : Nat} {i j : Key}
    (hT : h.Alive T) (hTv : h.isFp T = true) (he : h.getitem T (.key i) = .ok (h1, d))
    (later : Steps { h1 with roots := d :: h1.roots } h2)
    (hS : h2.Alive S) (hSv : h2.isFp S = true) (he' : h2.getitem S (.key j) = .ok (h3, d)) :
    T = S ∧ i = j := by
  obtain ⟨e1, e2⟩ := C31_injective (steps_enc hist) ((alive_enc h T).2 hT) (by rwa [isVec_enc]) (getitem_enc he)
    (steps_enc later) ((alive_enc h2 S).2 hS) (by rwa [isVec_enc]) (getitem_enc he')
  exact ⟨e1, enc_inj.1 e2⟩

theorem lookup_facts {h : Heap} (hist : Steps init h) {T d : Nat} {k : Key} (e : h.lookup T k = some d) :
    h.binding T = none ∧ h.binding d = some k ∧ h.unboundT d = .ok T ∧ 0 < k.eb ∧ 0 < k.mb := by
  have hi := Cls.Heap.inv_init.steps (steps_enc hist)
  rw [← lookup_enc] at e
  have hm := (hi.lookup_made e).2
  have hb := binding_of_size hm.facts.1
  refine ⟨?_, hb, by rw [← unsizedT_enc]; exact hm.facts.2.2, (pos_steps hist).binding hb⟩
  obtain ⟨c, hc, cv, cs, cu⟩ := hm
  have := ((hi.good d c hc).made cv _ T cs cu).2.2.2.1
  rw [← Cls.Heap.size_eq, size_enc] at this
  cases hT : h.binding T with
  | none => rfl
  | some k => rw [hT] at this; cases this

/-- **C109** (rejections).  On a bound class every index raises `TypeError`; on an unbound one sizes that are not
positive raise `ValueError`, whatever is cached, and an index equal to no tuple of the four types `IndexError`. -/
theorem C109_rejects {h : Heap} (hist : Steps init h) {T : Nat} :
    (∀ idx, (h.binding T).isSome = true → h.getitem T idx = .error .typeError) ∧
    (∀ k : Key, h.binding T = none → (k.eb ≤ 0 ∨ k.mb ≤ 0) → h.getitem T (.key k) = .error .valueError) ∧
    (h.binding T = none → h.getitem T .other = .error .indexError) := by
  refine ⟨fun idx hb => ?_, fun k hb hk => ?_, fun hb => ?_⟩
  · have : h.lookupIdx T idx = none := by
      unfold lookupIdx
      split
      · rename_i k _
        cases hl : h.lookup T k with
        | none => rfl
        | some d => rw [(lookup_facts hist hl).1] at hb; cases hb
      · rfl
    unfold getitem getitemF
    rw [this]
    dsimp only
    rw [if_pos hb]
  · have : h.lookup T k = none := by
      cases hl : h.lookup T k with
      | none => rfl
      | some d => have := (lookup_facts hist hl).2.2.2; omega
    simp [getitem, getitemF, lookupIdx, Index.key?, this, hb, hk]
  · simp [getitem, getitemF, lookupIdx, Index.key?, hb]

/-- A history: `class F`, `class G(F)`, `class P` (plain), `class X(G, P)`. -/
def demo : Heap :=
  ⟨[⟨true, [], some 0, none⟩, ⟨true, [0], some 1, none⟩, ⟨false, [], none, none⟩, ⟨true, [1, 2], some 3, none⟩],
   [], [], [3, 2, 1, 0]⟩

theorem demo_reachable : Steps init demo := by
  refine .tail (.tail (.tail (.tail (.refl _)
    (Step.fp (bases := []) (t := 0) (by simp) rfl))
    (Step.fp (bases := [0]) (t := 1) (by simp [Alive, init]) rfl))
    (Step.plain (bases := []) (by simp)))
    (Step.fp (h := ⟨[⟨true, [], some 0, none⟩, ⟨true, [0], some 1, none⟩, ⟨false, [], none, none⟩], [], [], [2, 1, 0]⟩)
      (bases := [1, 2]) (t := 3) (by simp [Alive]) rfl)

/-- bfloat16 with ties to even. -/
def bf16 : Key := ⟨8, 7, .RNE, true⟩

example : ∃ h1, demo.getitem 3 (.key bf16) = .ok (h1, 6) ∧ h1.binding 6 = some bf16 ∧ h1.bases 6 = [3, 5] ∧
    h1.bases 5 = [1, 4] ∧ h1.getitem 0 (.key bf16) = .ok (h1, 4) ∧
    h1.getitem 6 (.key bf16) = .error .typeError ∧ h1.getitem 0 (.key ⟨8, 0, .RNE, true⟩) = .error .valueError ∧
    (∃ h2, h1.getitem 0 (.key ⟨8, 7, .RTZ, true⟩) = .ok (h2, 7)) := ⟨_, rfl, rfl, rfl, rfl, rfl, rfl, rfl, _, rfl⟩

/-- **C109** refuted for indices of other types: `F[8, 7, RNE, 1]` raises `IndexError` in a fresh state but
returns `F[8, 7, RNE, True]` once that class is cached. -/
theorem C109_types_refuted : ¬ ∀ (h : Heap), Steps init h → ∀ T idx, h.Alive T → h.isFp T = true →
    h.binding T = none → (∀ k, idx ≠ .key k) → h.getitem T idx = .error .indexError := by
  intro hall
  let h1 : Heap := { demo with
    classes := demo.classes ++ [⟨true, [0], some 0, some bf16⟩], cache := [((0, bf16), 4)] }
  have he : demo.getitem 0 (.key bf16) = .ok (h1, 4) := rfl
  have hs : Steps init { h1 with roots := 4 :: h1.roots } :=
    .tail demo_reachable (.getitem (by simp [Alive, demo]) rfl he)
  have := hall _ hs 0 (.eqKey bf16) (by simp [Alive, demo, h1]) rfl rfl (by simp)
  cases this

example : demo.getitem 0 (.eqKey bf16) = .error .indexError := rfl

/-- **C109**, the part that holds for them: on an unbound class such an index raises `IndexError`, or it is equal to
the index of a cached class and gives that one; it never makes a class. -/
theorem C109_types_partial {h : Heap} (hist : Steps init h) {T : Nat} {idx : Index} (hb : h.binding T = none)
    (hidx : ∀ k, idx ≠ .key k) : h.getitem T idx = .error .indexError ∨
      ∃ k d, idx = .eqKey k ∧ h.getitem T idx = .ok (h, d) ∧ h.getitem T (.key k) = .ok (h, d) ∧
        h.binding d = some k ∧ h.unboundT d = .ok T := by
  cases idx with
  | key k => exact (hidx k rfl).elim
  | other => left; simp [getitem, getitemF, lookupIdx, Index.key?, hb]
  | eqKey k =>
    cases hl : h.lookup T k with
    | none => left; simp [getitem, getitemF, lookupIdx, Index.key?, hl, hb]
    | some d =>
      right
      have := lookup_facts hist hl
      exact ⟨k, d, rfl, by simp [getitem, getitemF, lookupIdx, Index.key?, hl],
        by simp [getitem, getitemF, lookupIdx, Index.key?, hl], this.2.1, this.2.2.1⟩

/-! ## C110 -/

/-- **C110** (monotone).  Once `S[i]` exists and is held, then for every floating-point class `T` that `S` derives
from, `T[i]` is (without any change of state) a superclass of `S[i]`, as are `S` and `T`. -/
theorem C110_monotone {h h1 h2 : Heap} (hist : Steps init h) {S T d : Nat} {k : Key}
    (hS : h.Alive S) (hv : h.isFp S = true) (he : h.getitem S (.key k) = .ok (h1, d))
    (later : Steps { h1 with roots := d :: h1.roots } h2) (held : d ∈ h2.roots)
    (hT : h2.isFp T = true) (hsub : Sub h2 S T) :
    (∃ e, h2.getitem T (.key k) = .ok (h2, e) ∧ Sub h2 d e) ∧ Sub h2 d S ∧ Sub h2 d T := by
  obtain ⟨k', hk', p1, p2, _⟩ := C109_interned hist hS hv he later held
  cases hk'
  obtain ⟨⟨e, g1, g2⟩, g3, g4⟩ := C32_monotone (steps_enc hist) ((alive_enc h S).2 hS) (by rwa [isVec_enc])
    (getitem_enc he) (steps_enc later) held (by rwa [isVec_enc]) (sub_enc.2 hsub)
  obtain ⟨h', e1, e2⟩ := getitem_dec ⟨p1, p2⟩ g1
  have := Heap.enc_inj e1
  subst this
  exact ⟨⟨e, e2, sub_enc.1 g2⟩, sub_enc.1 g3, sub_enc.1 g4⟩

/-- **C110** (formats do not mix).  In every reachable state a class that derives from a bound class has that same
binding: no floating-point type is a subtype of one of another format, rounding mode or compliance. -/
theorem C110_no_mixing {h : Heap} (hist : Steps init h) {c d : Nat} (hsub : Sub h c d) {k : Key}
    (hd : h.binding d = some k) : h.binding c = some k :=
  binding_of_size (C32_no_mixing (steps_enc hist) (sub_enc.2 hsub) (by rw [size_enc, hd]; rfl))

/-- **C110** (rejection).  A class statement whose bases have two different bindings raises `TypeError`; otherwise
the loop over the bases accepts it and the new class has the common binding, or is its own `unbound_t`. -/
theorem C110_class_statement {h : Heap} {bases : List Nat} :
    ((∃ b ∈ bases, ∃ b' ∈ bases, ∃ k k', h.binding b = some k ∧ h.binding b' = some k' ∧ k ≠ k') →
      h.newFp bases (none, none) = .error .typeError) ∧
    ((∀ b ∈ bases, ∀ b' ∈ bases, ∀ k k', h.binding b = some k → h.binding b' = some k' → k = k') →
      ∃ h' t, h.newFp bases (none, none) = .ok (h', t) ∧
        (∀ b ∈ bases, ∀ k, h.binding b = some k → h'.binding t = some k) ∧
        ((∀ b ∈ bases, h.binding b = none) → h'.binding t = none ∧ h'.unboundT t = .ok t)) := by
  have hn := newVec_enc h bases none none
  constructor
  · rintro ⟨b, hb, b', hb', k, k', e, e', hne⟩
    have := (C32_class_statement (h := h.enc) (bases := bases)).1 ⟨b, hb, b', hb', FpCls.enc k, FpCls.enc k',
      by rw [size_enc, e]; rfl, by rw [size_enc, e']; rfl, fun x => hne (enc_inj.1 x)⟩
    rw [show (none : Option Int) = (none : Option Key).map FpCls.enc from rfl, hn] at this
    cases hr : h.newFp bases (none, none) with
    | error x => rw [hr] at this; cases this; rfl
    | ok r => rw [hr] at this; cases this
  · intro hall
    obtain ⟨g, t, g1, g2, g3⟩ := (C32_class_statement (h := h.enc) (bases := bases)).2 (by
      intro b hb b' hb' m m' e e'
      rw [size_enc] at e e'
      cases hk : h.binding b with
      | none => rw [hk] at e; cases e
      | some k =>
        cases hk' : h.binding b' with
        | none => rw [hk'] at e'; cases e'
        | some k' =>
          rw [hk] at e; rw [hk'] at e'
          cases e; cases e'
          rw [hall b hb b' hb' k k' hk hk'])
    rw [show (none : Option Int) = (none : Option Key).map FpCls.enc from rfl, hn] at g1
    cases hr : h.newFp bases (none, none) with
    | error x => rw [hr] at g1; cases g1
    | ok r =>
      obtain ⟨h', t'⟩ := r
      rw [hr] at g1
      cases g1
      refine ⟨h', _, rfl, fun b hb k hk => binding_of_size (g2 b hb _ (by rw [size_enc, hk]; rfl)), fun hb => ?_⟩
      obtain ⟨a1, a2⟩ := g3 fun b hm => by rw [size_enc, hb b hm]; rfl
      refine ⟨?_, by rw [← unsizedT_enc]; exact a2⟩
      rw [size_enc] at a1
      cases hx : h'.binding t' with
      | none => rfl
      | some k => rw [hx] at a1; cases a1

example : ∃ h1 h2, demo.getitem 3 (.key bf16) = .ok (h1, 6) ∧ h1.getitem 1 (.key ⟨8, 7, .RTZ, true⟩) = .ok (h2, 8) ∧
    h2.newFp [6, 8] (none, none) = .error .typeError ∧
    (∃ h3, h2.newFp [6, 3] (none, none) = .ok (h3, 9) ∧ h3.binding 9 = some bf16) :=
  ⟨_, _, rfl, rfl, rfl, _, rfl, rfl⟩

end FpCls
end HW
