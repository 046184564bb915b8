import Verif.Lemmas.C3Heap

/-! # C159: sizing a class and method resolution

Statements about all histories of `Model/ClassHeap.lean`, with the linearisation of `Model/C3.lean`. -/

namespace HW
open Cls Cls.Heap

namespace Cls.Spec

/-- `d` is `T[n]`, now and without making a class. -/
def Sized (h : Heap) (T : Nat) (n : Int) (d : Nat) : Prop := h.getitem T (.int n) = .ok (h, d)

/-- What an attribute lookup along an MRO finds, given what each class defines under the name. -/
def attr {α : Type} (defines : Nat → Option α) : List Nat → Option (Nat × α)
  | [] => none
  | x :: l => match defines x with
    | some a => some (x, a)
    | none => attr defines l

/-- `class T` names its bases so that no ordinary class stands between two vector classes. -/
def Tidy (h : Heap) (T : Nat) : Prop := ∀ a b c : List Nat, ∀ x y z, h.bases T = a ++ x :: b ++ y :: c → z ∈ b →
  h.isVec x = true → h.isVec y = true → h.isVec z = true

end Cls.Spec
open Cls.Spec

namespace Cls

theorem attr_filter {α : Type} {defines : Nat → Option α} {p : Nat → Bool} : ∀ {l : List Nat},
    (∀ x ∈ l, p x = false → defines x = none) → attr defines (l.filter p) = attr defines l
  | [], _ => rfl
  | x :: l, h => by
      have ih := attr_filter (l := l) fun y hy => h y (by simp [hy])
      cases hp : p x with
      | true => rw [List.filter_cons, if_pos hp, attr, attr, ih]
      | false => rw [List.filter_cons, if_neg (by simp [hp]), ih, attr, h x (by simp) hp]

/-- Splits a list at the last element with a property, if there is one. -/
theorem split_last {p : Nat → Bool} : ∀ (l : List Nat), (∀ y ∈ l, p y = false) ∨
    ∃ a y b, l = a ++ y :: b ∧ p y = true ∧ ∀ z ∈ b, p z = false
  | [] => .inl nofun
  | x :: l => by
      rcases split_last (p := p) l with h | ⟨a, y, b, rfl, h1, h2⟩
      · cases hp : p x with
        | true => exact .inr ⟨[], x, l, rfl, hp, h⟩
        | false =>
          left; intro y hy
          rcases List.mem_cons.1 hy with rfl | hy
          · exact hp
          · exact h y hy
      · exact .inr ⟨x :: a, y, b, rfl, h1, h2⟩

theorem split_first {p : Nat → Bool} : ∀ (l : List Nat), (∀ y ∈ l, p y = false) ∨
    ∃ a y b, l = a ++ y :: b ∧ p y = true ∧ ∀ z ∈ a, p z = false
  | [] => .inl nofun
  | x :: l => by
      cases hp : p x with
      | true => exact .inr ⟨[], x, l, rfl, hp, nofun⟩
      | false =>
        rcases split_first (p := p) l with h | ⟨a, y, b, rfl, h1, h2⟩
        · left; intro y hy
          rcases List.mem_cons.1 hy with rfl | hy
          · exact hp
          · exact h y hy
        · refine .inr ⟨x :: a, y, b, rfl, h1, fun z hz => ?_⟩
          rcases List.mem_cons.1 hz with rfl | hz
          · exact hp
          · exact h2 z hz

theorem Heap.grouped_of_tidy {h : Heap} {T : Nat} (ht : Tidy h T) : h.Grouped T := by
  unfold Heap.Grouped
  rcases split_first (p := h.isVec) (h.bases T) with hn | ⟨a, x, b, e, hx, ha⟩
  · exact ⟨h.bases T, [], [], by simp, hn, nofun, nofun⟩
  · rcases split_last (p := h.isVec) b with hn | ⟨b', y, c, rfl, hy, hc⟩
    · refine ⟨a, [x], b, by simpa using e, ha, fun z hz => ?_, hn⟩
      rw [List.mem_singleton.1 hz]; exact hx
    · refine ⟨a, x :: (b' ++ [y]), c, by rw [e]; simp, ha, fun z hz => ?_, hc⟩
      simp only [List.mem_cons, List.mem_append, List.not_mem_nil, or_false] at hz
      rcases hz with rfl | hz | rfl
      · exact hx
      · exact ht a b' c x y z (by rw [e]; simp) hz hx hy
      · exact hy

theorem flat_pairs {v : Nat → Bool} {s : Nat → Nat} : ∀ {l : List Nat} {y : Nat}, y ∈ l → v y = true →
    [s y, y] <:+: l.flatMap (withSized v s)
  | a :: l, y, hy, hv => by
      rw [List.flatMap_cons]
      rcases List.mem_cons.1 hy with rfl | hy
      · rw [withSized_vec hv]; exact ⟨[], l.flatMap (withSized v s), by simp⟩
      · obtain ⟨p, q, e⟩ := flat_pairs (s := s) hy hv
        exact ⟨withSized v s a ++ p, q, by rw [← e]; simp⟩

theorem Heap.lookup_sized {h : Heap} {c d : Nat} {n : Int} (e : h.lookup c n = some d) : Sized h c n d := by
  simp [Sized, getitem, getitemF, lookupIdx, Index.key?, e]

/-- What a successful `T[n]` returns. -/
theorem Heap.sized_ok {h h' : Heap} (hi : h.Inv) {T d : Nat} {n : Int} (hT : h.Alive T) (hv : h.isVec T = true)
    (he : h.sized T n = .ok (h', d)) : h'.Inv ∧ Ext T h h' ∧ h'.lookup T n = some d ∧ ∃ L, h'.mro d = some L := by
  unfold Heap.sized at he
  rcases getitem_cases hi hT hv (.int n) with ⟨i, h1, d1, hk, g1, g2, g3, g4, g5, g6, -⟩ | ⟨e, -⟩ | ⟨e, -⟩
  · cases hk
    rw [g1] at he
    simp only [bind, Except.bind] at he
    split at he
    · cases he
    · rename_i hs
      cases he
      refine ⟨g2, g3, g6, ?_⟩
      cases hm : h'.mro d with
      | none => rw [hm] at hs; simp at hs
      | some L => exact ⟨L, rfl⟩
  · rw [e] at he; cases he
  · rw [e] at he; cases he

end Cls

/-- **C159** (lookup).  Whenever `T[n]` can be made, its MRO without the sized classes in it is that of `T`.  So every
attribute that sized classes do not define themselves (they define none but `_info_`, `__module__` and `__doc__`) is
found in `T[n]` where it is found in `T`. -/
theorem C159_lookup {h h' : Heap} (hist : Steps init h) {T d : Nat} {n : Int} (hT : h.Alive T) (hv : h.isVec T = true)
    (he : h.sized T n = .ok (h', d)) :
    ∃ l L, h.mro T = some l ∧ h'.mro T = some l ∧ h'.mro d = some L ∧
      L.filter (fun x => (h'.size x).isNone) = l ∧
      ∀ (α : Type) (defines : Nat → Option α), (∀ x ∈ L, h'.size x ≠ none → defines x = none) →
        attr defines L = attr defines l := by
  have hi := inv_init.steps hist
  obtain ⟨i1, x1, l1, L, hL⟩ := sized_ok hi hT hv he
  obtain ⟨l, hl, hfl⟩ := i1.mro_erase T l1 hL
  refine ⟨l, L, by rw [← x1.mro hi hT.1]; exact hl, hl, hL, hfl, fun α defines hd => ?_⟩
  rw [← hfl, attr_filter]
  intro x hx hp
  exact hd x hx (by intro e; rw [e] at hp; cases hp)

/-- **C159** (sizing succeeds).  If `T` and the vector classes above it name their bases with no ordinary class between
two vector classes, `T[n]` exists for every `n`; its MRO is that of `T` with every vector class preceded by its sized
version, and nothing else. -/
theorem C159_sized_partial {h : Heap} (hist : Steps init h) {T : Nat} (hT : h.Alive T) (hv : h.isVec T = true)
    (hu : h.size T = none) {l : List Nat} (hl : h.mro T = some l)
    (ht : ∀ S ∈ l, h.isVec S = true → Tidy h S) {n : Int} (hn : 0 ≤ n) :
    ∃ h' d L, h.sized T n = .ok (h', d) ∧ h'.mro d = some L ∧ L.filter (fun x => (h'.size x).isNone) = l ∧
      (∀ S ∈ l, h'.isVec S = true → ∃ e, Sized h' S n e ∧ [e, S] <:+: L) ∧
      (∀ e ∈ L, h'.size e ≠ none → ∃ S ∈ l, Sized h' S n e) ∧ L.Nodup := by
  have hi := inv_init.steps hist
  obtain ⟨h', d, g1, g2, g3, g4, g5, g6⟩ := getitem_spec (T + 1) h T n hi (by omega) hT hv hu hn
  have hl' : h'.mro T = some l := by rw [g3.mro hi hT.1]; exact hl
  have hmem := (hi.mro_mem T hl).2
  have hm := g2.mro_sized T g6 hl' fun S hS hSv => by
    have hlt : S < h.classes.length := by have := (hmem S hS).2; have := hT.1; omega
    have hb : h'.bases S = h.bases S := g3.bases hlt
    have hvS : h'.isVec S = h.isVec S := g3.vec hlt
    refine grouped_of_tidy fun a b c x y z e hz hx hy => ?_
    rw [hb] at e
    have cls : ∀ w ∈ h.bases S, h'.isVec w = h.isVec w := fun w hw => g3.vec (by have := hi.bases_lt hw; omega)
    have cx := cls x (by rw [e]; simp)
    have cy := cls y (by rw [e]; simp)
    have cz := cls z (by rw [e]; simp [hz])
    rw [cz]
    exact ht S hS (by rw [← hvS]; exact hSv) a b c x y z e hz (by rw [← cx]; exact hx) (by rw [← cy]; exact hy)
  have un : ∀ S ∈ l, h'.size S = none := by
    obtain ⟨l2, e1, e2⟩ := g2.mro_erase T g6 hm
    rw [hl'] at e1; cases e1
    intro S hS
    rw [← e2] at hS
    simpa using (List.mem_filter.1 hS).2
  refine ⟨h', d, _, ?_, hm, ?_, fun S hS hSv => ?_, fun e he hs => ?_, g2.mro_nodup hm⟩
  · have g1' : h.getitem T (.int n) = .ok (h', d) := g1
    unfold Heap.sized
    rw [g1']
    simp only [bind, Except.bind, hm]
    rfl
  · obtain ⟨l2, e1, e2⟩ := g2.mro_erase T g6 hm
    rw [hl'] at e1; cases e1; exact e2
  · obtain ⟨e, he⟩ := g2.sized_all T g6 hl' S hS hSv
    refine ⟨e, lookup_sized he, ?_⟩
    have := flat_pairs (s := h'.szd n) hS hSv
    rwa [szd_eq he] at this
  · obtain ⟨S, hS, hw⟩ := List.mem_flatMap.1 he
    cases hSv : h'.isVec S with
    | false =>
      rw [withSized_plain hSv, List.mem_singleton] at hw
      subst hw
      exact absurd (un e hS) hs
    | true =>
      obtain ⟨e', he'⟩ := g2.sized_all T g6 hl' S hS hSv
      rw [withSized_vec hSv, szd_eq he'] at hw
      simp only [List.mem_cons, List.not_mem_nil, or_false] at hw
      rcases hw with rfl | rfl
      · exact ⟨S, hS, lookup_sized he'⟩
      · exact absurd (un e hS) hs

/-- **C159** (failure).  Where `T[n]` cannot be made it raises `TypeError`. -/
theorem C159_error {h : Heap} (hist : Steps init h) {T : Nat} (hT : h.Alive T) (hv : h.isVec T = true)
    (hu : h.size T = none) {n : Int} (hn : 0 ≤ n) {e : PyErr} (he : h.sized T n = .error e) : e = .typeError := by
  obtain ⟨h', d, g1, -⟩ := getitem_spec (T + 1) h T n (inv_init.steps hist) (by omega) hT hv hu hn
  have g1' : h.getitem T (.int n) = .ok (h', d) := g1
  unfold Heap.sized at he
  rw [g1'] at he
  simp only [bind, Except.bind] at he
  split at he <;> cases he
  rfl

/-- **C159** (class statements).  A class statement raises `TypeError`, or makes a class whose MRO begins with it and keeps
the order of its bases and the MROs of all of them. -/
theorem C159_class {h : Heap} (hist : Steps init h) {bases : List Nat} (hb : ∀ b ∈ bases, h.Alive b) :
    h.classStmt bases = .error .typeError ∨
      ∃ h' t l, h.classStmt bases = .ok (h', t) ∧ h'.bases t = bases ∧ h'.mro t = some (t :: l) ∧ bases.Sublist l ∧
        ∀ b ∈ bases, ∃ lb, h'.mro b = some lb ∧ lb.Sublist l := by
  unfold Heap.classStmt
  cases hs : h.sizeLoop none bases with
  | error e =>
    left
    have : ∀ (bs : List Nat) (o : Option Int), h.sizeLoop o bs = .error e → e = .typeError := by
      intro bs
      induction bs with
      | nil => intro o ho; cases ho
      | cons b bs ih =>
        intro o ho
        rw [sizeLoop] at ho
        split at ho
        · exact ih _ ho
        · split at ho
          · exact ih _ ho
          · split at ho
            · cases ho; rfl
            · exact ih _ ho
    cases this _ _ hs
    simp only [newVec, hs, bind, Except.bind]
  | ok size =>
    obtain ⟨h', t, hn, hbs⟩ : ∃ h' t, h.newVec bases (none, none) = .ok (h', t) ∧ h'.bases t = bases := by
      refine ⟨_, _, by simp only [newVec, hs, bind, Except.bind]; rfl, ?_⟩
      simp [Heap.bases]
    rw [hn]
    simp only [bind, Except.bind]
    have hi := inv_init.steps (hist.tail (Step.vec hb hn))
    cases hm : h'.mro t with
    | none => exact .inl rfl
    | some L =>
      obtain ⟨ls, r, h1, h2, rfl⟩ := hi.mro_iff.1 (show ({ h' with roots := t :: h'.roots } : Heap).mro t = some L from hm)
      have hbs' : ({ h' with roots := t :: h'.roots } : Heap).bases t = bases := hbs
      rw [hbs'] at h1 h2
      refine .inr ⟨h', t, r, rfl, hbs, hm, h2.sublist _ (by simp), fun b hb => ?_⟩
      obtain ⟨lb, hlb, e⟩ := forall₂_left h1 hb
      exact ⟨lb, e, h2.sublist _ (by simp [hlb])⟩

/-! ### The counterexample -/

namespace Cls
/-- `class V`, `class M` (ordinary), `class B(V)`, `class Z(V)`, `class A1(B)`, `class A2(Z)`, `class A(A1, A2, M, B)`,
`class D(Z, B)`, `class S(A, D)`: numbers 0 to 8. -/
def mroHeap : Heap :=
  ⟨[⟨true, [], some 0, none⟩, ⟨false, [], none, none⟩, ⟨true, [0], some 2, none⟩, ⟨true, [0], some 3, none⟩,
    ⟨true, [2], some 4, none⟩, ⟨true, [3], some 5, none⟩, ⟨true, [4, 5, 1, 2], some 6, none⟩,
    ⟨true, [3, 2], some 7, none⟩, ⟨true, [6, 7], some 8, none⟩], [], [], [8, 7, 6, 5, 4, 3, 2, 1, 0]⟩

theorem mroHeap_reachable : Steps init mroHeap := by
  refine .tail (.tail (.tail (.tail (.tail (.tail (.tail (.tail (.tail (.refl _)
    (Step.vec (bases := []) (t := 0) (by simp) rfl))
    (Step.plain (bases := []) (by simp)))
    (Step.vec (bases := [0]) (t := 2) (by simp [Alive, newPlain, init]) rfl))
    (Step.vec (bases := [0]) (t := 3) (by simp [Alive, newPlain, init]) rfl))
    (Step.vec (bases := [2]) (t := 4) (by simp [Alive, newPlain, init]) rfl))
    (Step.vec (bases := [3]) (t := 5) (by simp [Alive, newPlain, init]) rfl))
    (Step.vec (bases := [4, 5, 1, 2]) (t := 6) (by simp [Alive, newPlain, init]) rfl))
    (Step.vec (bases := [3, 2]) (t := 7) (by simp [Alive, newPlain, init]) rfl))
    (Step.vec (h := ⟨[⟨true, [], some 0, none⟩, ⟨false, [], none, none⟩, ⟨true, [0], some 2, none⟩,
        ⟨true, [0], some 3, none⟩, ⟨true, [2], some 4, none⟩, ⟨true, [3], some 5, none⟩,
        ⟨true, [4, 5, 1, 2], some 6, none⟩, ⟨true, [3, 2], some 7, none⟩], [], [], [7, 6, 5, 4, 3, 2, 1, 0]⟩)
      (bases := [6, 7]) (t := 8) (by simp [Alive]) rfl)
end Cls

/-- **C159** (refuted in general).  A class all of whose ancestors and which itself were accepted, but which cannot be
sized: `S[n]` raises `TypeError`. -/
theorem C159_refuted : ¬ ∀ (h : Heap), Steps init h → (∀ c, h.Alive c → (h.mro c).isSome = true) →
    ∀ T n, h.Alive T → h.isVec T = true → h.size T = none → 0 ≤ n → ∃ h' d, h.sized T n = .ok (h', d) := by
  intro H
  obtain ⟨h', d, e⟩ := H mroHeap mroHeap_reachable (fun c hc => by
    have all : ∀ c < 9, (mroHeap.mro c).isSome = true := by decide +kernel
    exact all c hc.1) 8 8 (by simp [Alive, mroHeap]) rfl rfl (by decide)
  have : (mroHeap.sized 8 8).toOption.isNone = true := by decide +kernel
  rw [e] at this; cases this

/-- The conflict is not one of `S`: the classes above it can all be sized. -/
example : ∀ T ∈ [0, 2, 3, 4, 5, 6, 7], (mroHeap.sized T 8).toOption.isSome = true := by decide +kernel

/-- `class X(W, P)` with `class W(V)` and an ordinary `P`: `X[8]` has the MRO `X[8], X, W[8], W, V[8], V, P`. -/
example : ∃ h1, demoHeap.sized 3 8 = .ok (h1, 6) ∧ h1.mro 6 = some [6, 3, 5, 1, 4, 0, 2] ∧
    demoHeap.mro 3 = some [3, 1, 0, 2] := ⟨_, rfl, rfl, rfl⟩

/-- The hypotheses of `C159_sized_partial` for that class. -/
example : Steps init demoHeap ∧ demoHeap.Alive 3 ∧ demoHeap.isVec 3 = true ∧ demoHeap.size 3 = none ∧
    demoHeap.mro 3 = some [3, 1, 0, 2] ∧ ∀ S ∈ [3, 1, 0, 2], demoHeap.isVec S = true → Tidy demoHeap S := by
  refine ⟨demoHeap_reachable, by simp [Alive, demoHeap], rfl, rfl, by decide +kernel, fun S hS _ a b c x y z e hz _ _ => ?_⟩
  have hb : (demoHeap.bases S).length ≤ 2 := by
    simp only [List.mem_cons, List.not_mem_nil, or_false] at hS
    rcases hS with rfl | rfl | rfl | rfl <;> decide
  have hl : (a ++ x :: b ++ y :: c).length ≤ 2 := e ▸ hb
  cases b with
  | nil => cases hz
  | cons _ _ => simp at hl; omega

/-- A method that both `V` and `P` define is found in `V`, before `P`, from `X[8]` as from `X`. -/
example : ∃ h1 d L, demoHeap.sized 3 8 = .ok (h1, d) ∧ h1.mro d = some L ∧
    attr (fun x => if x = 0 then some "bvadd of V" else if x = 2 then some "of P" else none) L =
      some (0, "bvadd of V") := ⟨_, 6, [6, 3, 5, 1, 4, 0, 2], rfl, rfl, rfl⟩

/-- `class Y(X)` of it is accepted, `class Y(W, X)` is not. -/
example : (∃ h1, demoHeap.classStmt [3] = .ok (h1, 4) ∧ h1.mro 4 = some [4, 3, 1, 0, 2]) ∧
    demoHeap.classStmt [1, 3] = .error .typeError := ⟨⟨_, rfl, rfl⟩, rfl⟩

/-- `C159_error` is about something: `S[8]`. -/
example : mroHeap.sized 8 8 = .error .typeError := by
  have : (mroHeap.sized 8 8).toOption.isNone = true := by decide +kernel
  cases h : mroHeap.sized 8 8 with
  | error e => rw [C159_error mroHeap_reachable (by simp [Alive, mroHeap]) rfl rfl (by decide) h]
  | ok r => rw [h] at this; cases this

end HW
