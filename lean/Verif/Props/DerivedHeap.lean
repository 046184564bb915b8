import Verif.Model.DerivedHeap
import Verif.Props.ClassHeap
import Verif.Props.Derived

/-! # Property C131 on the class heap: the hierarchies of programs -/

namespace HW

open Cls Cls.Heap Der

variable {h : Heap}

namespace Der

theorem forall₂_mem {α β : Type} {R : α → β → Prop} : ∀ {l : List α} {l' : List β}, List.Forall₂ R l l' →
    ∀ {b}, b ∈ l' → ∃ a ∈ l, R a b
  | _, _, .nil, _, h => by simp at h
  | _, _, .cons h hs, b, hb => by
    simp only [List.mem_cons] at hb
    rcases hb with rfl | hb
    · exact ⟨_, by simp, h⟩
    · obtain ⟨a, ha, hr⟩ := forall₂_mem hs hb
      exact ⟨a, by simp [ha], hr⟩

theorem sub_trans {a b c : Nat} (h1 : Sub h a b) (h2 : Sub h b c) : Sub h a c := by
  induction h1 with
  | refl => exact h2
  | step hb _ ih => exact .step hb (ih h2)

/-- The unsized superclasses of `U[n]` are those of `U`. -/
theorem sub_made (hi : h.Inv) {S : Nat} (hS : h.size S = none) : ∀ (d u : Nat) (n : Int),
    MadeAs h.classes d u n → (Sub h d S ↔ Sub h u S) := by
  intro d
  induction d using Nat.strong_induction_on with
  | _ d ih =>
    intro u n hm
    have hf := hm.facts
    obtain ⟨k, hk, kv, ks, ku⟩ := hm
    obtain ⟨_, _, _, _, bs, hb, hfa⟩ := (hi.good d k hk).made kv n u ks ku
    have hbs : h.bases d = u :: bs := by simp [Heap.bases, hk, hb]
    constructor
    · intro hs
      cases hs with
      | refl => rw [hf.1] at hS; cases hS
      | @step _ b _ hbm hs =>
        rw [hbs, List.mem_cons] at hbm
        rcases hbm with rfl | hbm
        · exact hs
        · obtain ⟨v, hv, hmb⟩ := forall₂_mem hfa hbm
          have hlt : b < d := (hi.good d k hk).lt b (by rw [hb]; simp [hbm])
          have := (ih b hlt v n hmb).1 hs
          exact .step (List.mem_of_mem_filter hv) this
    · intro hs
      exact .step (by rw [hbs]; simp) hs

theorem sub_ext {h' : Heap} (hi : h.Inv) {M : List Class} (hM : h'.classes = h.classes ++ M) {c d : Nat}
    (hc : c < h.classes.length) : Sub h' c d ↔ Sub h c d := by
  have hb' : ∀ {c}, c < h.classes.length → h'.bases c = h.bases c := fun hc => by
    rw [bases_eq, bases_eq, hM, basesOf_app hc]
  constructor
  · intro hs
    induction hs with
    | refl => exact .refl _
    | @step c b d hb _ ih =>
      rw [hb' hc] at hb
      exact .step hb (ih ((basesOf_lt hi.good (by rw [bases_eq] at hb; exact hb)).trans hc))
  · intro hs
    induction hs with
    | refl => exact .refl _
    | @step c b d hb _ ih =>
      have hlt := basesOf_lt hi.good (by rw [bases_eq] at hb; exact hb)
      exact .step (by rw [hb' hc]; exact hb) (ih (hlt.trans hc))

/-- What `U[n]` leaves behind. -/
theorem after_spec (hist : Steps init h) (u : HU h) (n : Nat) :
    Steps init (after h u.1 n).1 ∧ (after h u.1 n).1.Inv ∧ (∃ M, (after h u.1 n).1.classes = h.classes ++ M) ∧
      MadeAs (after h u.1 n).1.classes (after h u.1 n).2 u.1 n := by
  obtain ⟨h', d, g1, g2, g3, g4, g5, g6⟩ :=
    getitem_spec (u.1 + 1) h u.1 n (inv_init.steps hist) (by omega) u.2.1 u.2.2.1 u.2.2.2 (by omega)
  have e : after h u.1 n = ({ h' with roots := d :: h'.roots }, d) := by
    simp only [after, getitem, g1]
  have hs : Steps init ({ h' with roots := d :: h'.roots } : Heap) := .tail hist (.getitem u.2.1 u.2.2.1 g1)
  rw [e]
  exact ⟨hs, inv_init.steps hs, g3.classes, g5⟩

theorem after_sub (hist : Steps init h) (u : HU h) (n : Nat) {c d : Nat} (hc : c < h.classes.length) :
    Sub (after h u.1 n).1 c d ↔ Sub h c d := by
  obtain ⟨_, _, ⟨M, hM⟩, _⟩ := after_spec hist u n
  exact sub_ext (inv_init.steps hist) hM hc

theorem after_size (hist : Steps init h) (u : HU h) (n : Nat) {c : Nat} (hc : c < h.classes.length) :
    (after h u.1 n).1.size c = h.size c := by
  obtain ⟨_, _, ⟨M, hM⟩, _⟩ := after_spec hist u n
  rw [size_eq, size_eq, hM, sizeOf_app hc]

/-- The unsized superclasses of a class `U[n]`, made or not, are those of `U`. -/
theorem under_fresh (hist : Steps init h) (u : HU h) (n : Nat) {S : Nat} (hS : h.Alive S) (hs : h.size S = none) :
    Sub (after h u.1 n).1 (after h u.1 n).2 S ↔ Sub h u.1 S := by
  obtain ⟨_, hi, _, hm⟩ := after_spec hist u n
  rw [sub_made hi (by rw [after_size hist u n hS.1]; exact hs) _ _ _ hm, after_sub hist u n u.2.1.1]

theorem under_get (hist : Steps init h) (hc : Cached h) (u : HU h) (n : Nat) {S : Nat} (hS : h.Alive S)
    (hs : h.size S = none) : (HC.get hc u n).under S ↔ Sub h u.1 S := by
  unfold HC.get
  split
  · exact under_fresh hist u n hS hs
  · rename_i d e
    have hi := inv_init.steps hist
    exact sub_made hi hs d u.1 n (hi.lookup_made e).2

/-- A sized class is under what the class it is under is under. -/
theorem under_trans (hist : Steps init h) {c : HC h} {d S : Nat} (hd : d < h.classes.length) (h1 : c.under d)
    (h2 : Sub h d S) : c.under S := by
  cases c with
  | real c _ _ => exact sub_trans h1 h2
  | fresh u n _ => exact sub_trans h1 ((after_sub hist u n hd).2 h2)

end Der

/-- In every history the cache holds classes that are alive and sized. -/
theorem C131_cached (hist : Steps init h) : Cached h := by
  intro u n d e
  obtain ⟨ha, hm⟩ := (inv_init.steps hist).lookup_made e
  exact ⟨ha, by rw [hm.facts.1]; rfl⟩

namespace Der

theorem unsized_real {c : Nat} {hc : h.Alive c} {hcs : (h.size c).isSome = true} {u : HU h} :
    (HC.real c hc hcs).unsized = some u ↔ h.unsizedT c = .ok u.1 := by
  unfold HC.unsized
  dsimp only
  constructor
  · intro hu
    cases e : h.unsizedT c with
    | error _ => rw [e] at hu; cases hu
    | ok t =>
      rw [e] at hu
      dsimp only at hu
      split at hu
      · cases hu; rfl
      · cases hu
  · intro e
    rw [e]
    dsimp only
    rw [dif_pos u.2]; rfl

theorem real_made (hi : h.Inv) {c : Nat} (hc : h.Alive c) {m : Int} (hm : h.size c = some m) {u : Nat}
    (hut : h.unsizedT c = .ok u) : MadeAs h.classes c u m ∧ 0 ≤ m ∧ h.lookup u m = some c := by
  obtain ⟨k, hk⟩ : ∃ k, h.classes[c]? = some k := ⟨_, List.getElem?_eq_getElem hc.1⟩
  have hkv : k.isVec = true := by
    by_contra hv
    simp [Heap.size, hk, hv] at hm
  have hks : k.size = some m := by simpa [Heap.size, hk, hkv] using hm
  have hku : k.unsized = some u := by
    unfold Heap.unsizedT at hut
    rw [hk] at hut
    dsimp only at hut
    split at hut
    · cases hut; assumption
    · cases hut
  have hmade : MadeAs h.classes c u m := ⟨_, hk, hkv, hks, hku⟩
  obtain ⟨h0, hlt, _⟩ := (hi.good c _ hk).made hkv m u hks hku
  exact ⟨hmade, h0, hi.complete c u m hc.2 hmade ⟨_, hk, hlt⟩⟩

theorem size_sub (hist : Steps init h) {c d : HC h} (hcd : c.sub d) : c.size = d.size := by
  cases d with
  | real d hd hds =>
    obtain ⟨m, hm⟩ := Option.isSome_iff_exists.1 hds
    cases c with
    | real c hc hcs =>
      have := C32_no_mixing hist (c := c) (d := d) hcd hm
      simp only [HC.size, hm, this]
    | fresh u n hl =>
      obtain ⟨hist', _, _, hmade⟩ := after_spec hist u n
      have := C32_no_mixing hist' (c := (after h u.1 n).2) (d := d) hcd (by rw [after_size hist u n hd.1]; exact hm)
      rw [hmade.facts.1] at this
      cases this
      simp [HC.size, hm]
  | fresh v m hl =>
    cases c with
    | real c hc hcs => exact hcd.elim
    | fresh u n hl =>
      obtain ⟨e, he, hse⟩ := hcd
      obtain ⟨hist', hi', _, hmade⟩ := after_spec hist u n
      have := C32_no_mixing hist' hse ((hi'.lookup_made he).2.facts.1)
      rw [hmade.facts.1] at this
      simp only [HC.size]
      have := Option.some.inj this
      omega

theorem sub_under (hist : Steps init h) {c d : HC h} (hcd : c.sub d) {S : Nat} (hS : h.Alive S) (hs : h.size S = none)
    (hd : d.under S) : c.under S := by
  cases d with
  | real d hda hds => exact under_trans hist hda.1 hcd hd
  | fresh v m hl =>
    cases c with
    | real c hc hcs => exact hcd.elim
    | fresh u n hl =>
      obtain ⟨e, he, hse⟩ := hcd
      obtain ⟨_, hi', _, _⟩ := after_spec hist u n
      have h1 := (under_fresh hist v m hS hs).1 hd
      have h2 := (sub_made hi' (by rw [after_size hist u n hS.1]; exact hs) _ _ _ (hi'.lookup_made he).2).2
        ((after_sub hist u n v.2.1.1).2 h1)
      exact sub_trans hse h2

theorem size_get (hist : Steps init h) (hc : Cached h) (u : HU h) (n : Nat) : (HC.get hc u n).size = n := by
  unfold HC.get
  split
  · rfl
  · rename_i d e
    have := ((inv_init.steps hist).lookup_made e).2.facts.1
    simp [HC.size, this]

theorem unsized_get (hist : Steps init h) (hc : Cached h) (u : HU h) (n : Nat) : (HC.get hc u n).unsized = some u := by
  unfold HC.get
  split
  · rfl
  · rename_i d e
    exact unsized_real.2 ((inv_init.steps hist).lookup_made e).2.facts.2.2

theorem get_unsized (hist : Steps init h) (hcc : Cached h) {c : HC h} {u : HU h} (hu : c.unsized = some u) :
    c = HC.get hcc u c.size := by
  cases c with
  | fresh v n hl =>
    cases hu
    unfold HC.get
    split
    · rfl
    · rename_i d e; simp only [HC.size] at e; rw [hl] at e; cases e
  | real c hc hcs =>
    obtain ⟨m, hm⟩ := Option.isSome_iff_exists.1 hcs
    obtain ⟨_, h0, hlook⟩ := real_made (inv_init.steps hist) hc hm (unsized_real.1 hu)
    have hsz : (((HC.real c hc hcs).size : Nat) : Int) = m := by simp only [HC.size, hm]; simp; omega
    unfold HC.get
    split
    · rename_i e; rw [hsz, hlook] at e; cases e
    · rename_i d e
      rw [hsz, hlook] at e
      cases e; rfl

end Der

open Classical in
/-- **C131** (which hierarchies occur).  In every state a program can reach by class statements, `T[n]`, dropping
references and garbage collection, its vector classes (`S` being `SIntVector`) form a hierarchy to which the
theorems on derived classes apply. -/
theorem C131_hierarchy (hist : Steps init h) {S : Nat} (hS : h.Alive S) (hs : h.size S = none) :
    (hierOf h (C131_cached hist) S).Ok := by
  have hcc := C131_cached hist
  constructor
  · exact fun u n => size_get hist hcc u n
  · exact fun u n => unsized_get hist hcc u n
  · exact fun c u hu => get_unsized hist hcc hu
  · exact fun u n => decide_eq_true ((under_get hist hcc u n u.2.1 u.2.2.2).2 (.refl _))
  · exact fun u m n =>
      decide_eq_decide.2 ((under_get hist hcc u m hS hs).trans (under_get hist hcc u n hS hs).symm)
  · exact fun c d hcd => size_sub hist (of_decide_eq_true hcd)
  · exact fun c d hcd hd => decide_eq_true (sub_under hist (of_decide_eq_true hcd) hS hs (of_decide_eq_true hd))
  · exact fun c u n hcu hsg => decide_eq_true (under_trans hist u.2.1.1 (of_decide_eq_true hcu)
      ((under_get hist hcc u n hS hs).1 (of_decide_eq_true hsg)))

/-! ### Examples -/

/-- A history: `class V` (an abstract vector), `class S(V)` (signed), `T = S[8]`, `class Word(T)`. -/
def wordHeap : Heap :=
  ⟨[⟨true, [], some 0, none⟩, ⟨true, [0], some 1, none⟩, ⟨true, [0], some 0, some 8⟩, ⟨true, [1, 2], some 1, some 8⟩,
    ⟨true, [3], none, some 8⟩], [], [((1, 8), 3), ((0, 8), 2)], [4, 3, 1, 0]⟩

theorem wordHeap_reachable : Steps init wordHeap :=
  .tail (.tail (.tail (.tail (.refl _)
    (Step.vec (bases := []) (t := 0) (by simp) rfl))
    (Step.vec (bases := [0]) (t := 1) (by simp [Alive, init]) rfl))
    (Step.getitem (c := 1) (t := 3) (idx := .int 8) ⟨by decide, by decide⟩ rfl rfl))
    (Step.vec (h := ⟨[⟨true, [], some 0, none⟩, ⟨true, [0], some 1, none⟩, ⟨true, [0], some 0, some 8⟩,
      ⟨true, [1, 2], some 1, some 8⟩], [], [((1, 8), 3), ((0, 8), 2)], [3, 1, 0]⟩) (bases := [3]) (t := 4)
      (by simp [Alive]) rfl)

example := C131_hierarchy wordHeap_reachable (S := 1) ⟨by decide, by decide⟩ rfl

/-- `Word(200)[0:4]` raises `AttributeError` in that history. -/
example := (C131_sized_subclass_raises (H := hierOf wordHeap (C131_cached wordHeap_reachable) 1)
  (x := ⟨.real 4 ⟨by decide, by decide⟩ rfl, 200⟩) rfl).1 (.slice ⟨some 0, some 4, none⟩)

end HW
