import Verif.Spec.AdtKeys
import Verif.Lemmas.Adt.Share
import Verif.Lemmas.Adt.ValueEq
import Mathlib.Data.Fintype.Card

/-!
# Lemmas about dictionaries with ADT values as keys
-/

namespace HW.Adt

variable {W : World} {L : Leaves} {h : Store}

/-! ### Depth -/

/-- The value of an object is read in exactly `n` levels. -/
def Least (h : Store) (n : Nat) (r : Ref) : Prop := (h.read n r).isSome ∧ ∀ m < n, h.read m r = none

theorem least_of_reads {r : Ref} {v : Val} (hr : h.Reads r v) : ∃ n, Least h n r := by
  classical
  have he : ∃ n, (h.read n r).isSome := by obtain ⟨n, e⟩ := hr; exact ⟨n, by simp [e]⟩
  refine ⟨Nat.find he, Nat.find_spec he, fun m hm => ?_⟩
  have := Nat.find_min he hm
  simpa using this

theorem Least.unique {m n : Nat} {r : Ref} (h1 : Least h m r) (h2 : Least h n r) : m = n := by
  rcases Nat.lt_trichotomy m n with e | e | e
  · have := h2.2 m e; have := h1.1; simp_all
  · exact e
  · have := h1.2 n e; have := h2.1; simp_all

theorem Least.part {n : Nat} {r : Ref} (hl : Least h (n + 2) r) : ∃ t, Least h (n + 1) t := by
  obtain ⟨v, hv⟩ := Option.isSome_iff_exists.1 hl.1
  rw [read_succ, Option.bind_eq_some_iff] at hv
  obtain ⟨o, ho, hv⟩ := hv
  have hn := hl.2 (n + 1) (by omega)
  rw [read_succ, ho, Option.bind_some] at hn
  by_contra hc
  have : o.tree (h.read n) = o.tree (h.read (n + 1)) := by
    refine tree_congr fun t ht => ?_
    obtain ⟨w, hw, -⟩ := tree_part hv ht
    cases hx : h.read n t with
    | some u => rw [hw]; rw [read_mono hx] at hw; rw [hw]
    | none =>
      refine absurd ⟨t, by simp [hw], fun m hm => ?_⟩ hc
      cases hy : h.read m t with
      | none => rfl
      | some u => rw [read_le (by omega) hy] at hx; cases hx
  rw [this, hv] at hn
  cases hn

theorem Least.below {n : Nat} : ∀ {r : Ref}, Least h n r → ∀ m, 0 < m → m ≤ n → ∃ t, Least h m t := by
  induction n with
  | zero => intro r _ m h1 h2; omega
  | succ n ih =>
    intro r hl m h1 h2
    rcases Nat.lt_or_ge m (n + 1) with hm | hm
    · cases n with
      | zero => omega
      | succ n =>
        obtain ⟨t, ht⟩ := hl.part
        exact ih ht m h1 (by omega)
    · obtain rfl : m = n + 1 := by omega
      exact ⟨r, hl⟩

/-- No value is deeper than there are objects. -/
theorem Least.le {n : Nat} {r : Ref} (hl : Least h n r) : n ≤ h.length := by
  classical
  have hb : ∀ m : Fin n, ∃ t, Least h (m + 1) t := fun m => hl.below _ (by omega) (by omega)
  choose f hf using hb
  have hlt : ∀ m, f m < h.length := fun m => by
    obtain ⟨v, hv⟩ := Option.isSome_iff_exists.1 (hf m).1
    exact Store.Reads.lt ⟨_, hv⟩
  have hi : Function.Injective fun m : Fin n => (⟨f m, hlt m⟩ : Fin h.length) := by
    intro a b hab
    have hab : f a = f b := by simpa using hab
    have h1 := hf a
    rw [hab] at h1
    have := h1.unique (hf b)
    omega
  have hc := Fintype.card_le_of_injective _ hi
  simpa using hc

theorem read_whole {r : Ref} {v : Val} : h.whole r = .ok v ↔ h.Reads r v := by
  unfold Store.whole
  constructor
  · intro e
    split at e
    · rename_i w hw; cases e; exact ⟨_, hw⟩
    · cases e
  · intro hr
    obtain ⟨n, hn⟩ := least_of_reads hr
    obtain ⟨w, hw⟩ := Option.isSome_iff_exists.1 hn.1
    have := read_le hn.le hw
    rw [this]
    rw [hr.unique ⟨_, hw⟩]

theorem whole_none {r : Ref} (hn : ¬ ∃ v, h.Reads r v) : h.whole r = .error .nameError := by
  unfold Store.whole
  split
  · rename_i w hw; exact absurd ⟨w, _, hw⟩ hn
  · rfl

/-! ### Hash -/

theorem hash_cases (x : Val) : x.WT W →
    (x.Frozen ∧ ∃ n, x.hash L = .ok n) ∨ (¬ x.Frozen ∧ x.hash L = .error .typeError) := by
  induction x using Val.induct with
  | leaf T p => intro _; exact .inl ⟨fun _ _ h => (by cases h), _, rfl⟩
  | enum e i =>
    intro hw
    have hi : i < e.members.length := hw.ok
    refine .inl ⟨fun _ _ h => (by cases h), ?_⟩
    simp [Val.hash, EnumT.value, List.getElem?_eq_getElem hi]
  | tup T a vs ih =>
    intro hw
    cases a with
    | true => exact .inr ⟨fun h => h T vs .self, by simp [Val.hash]⟩
    | false =>
      have key : (∀ v ∈ vs, v.Frozen) ∧ (∃ l, Val.hashes L vs = .ok l) ∨
          (∃ v ∈ vs, ¬ v.Frozen) ∧ Val.hashes L vs = .error .typeError := by
        have ih' : ∀ v ∈ vs, (v.Frozen ∧ ∃ n, v.hash L = .ok n) ∨ (¬ v.Frozen ∧ v.hash L = .error .typeError) :=
          fun v hv => ih v hv (hw.tup hv)
        clear hw ih
        induction vs with
        | nil => exact .inl ⟨by simp, [], rfl⟩
        | cons v vs ih2 =>
          rcases ih' v (by simp) with ⟨h1, n, h2⟩ | ⟨h1, h2⟩
          · rcases ih2 fun w hw => ih' w (by simp [hw]) with ⟨h3, l, h4⟩ | ⟨⟨w, hw, h3⟩, h4⟩
            · exact .inl ⟨by simpa using ⟨h1, h3⟩, n :: l, by simp [Val.hashes, h2, h4, bind, Except.bind, pure, Except.pure]⟩
            · exact .inr ⟨⟨w, by simp [hw], h3⟩, by simp [Val.hashes, h2, h4, bind, Except.bind]⟩
          · exact .inr ⟨⟨v, by simp, h1⟩, by simp [Val.hashes, h2, bind, Except.bind]⟩
      rcases key with ⟨h1, l, h2⟩ | ⟨⟨v, hv, h1⟩, h2⟩
      · refine .inl ⟨fun T' ws hin => ?_, L.hashTuple l, by simp [Val.hash, h2, bind, Except.bind, pure, Except.pure]⟩
        cases hin with
        | tup hm hin => exact h1 _ hm _ _ hin
      · refine .inr ⟨fun hf => h1 fun T' ws hin => hf T' ws (.tup hv hin), by simp [Val.hash, h2, bind, Except.bind]⟩
  | sum T v ih =>
    intro hw
    rcases ih hw.sum with ⟨h1, n, h2⟩ | ⟨h1, h2⟩
    · refine .inl ⟨fun T' ws hin => ?_, n, by simpa [Val.hash] using h2⟩
      cases hin with
      | sum hin => exact h1 _ _ hin
    · exact .inr ⟨fun hf => h1 fun T' ws hin => hf T' ws (.sum hin), by simpa [Val.hash] using h2⟩
  | tag T i v ih =>
    intro hw
    rcases ih hw.tag with ⟨h1, n, h2⟩ | ⟨h1, h2⟩
    · refine .inl ⟨fun T' ws hin => ?_, _, by simp [Val.hash, h2, bind, Except.bind, pure, Except.pure]; rfl⟩
      cases hin with
      | tag hin => exact h1 _ _ hin
    · exact .inr ⟨fun hf => h1 fun T' ws hin => hf T' ws (.tag hin), by simp [Val.hash, h2, bind, Except.bind]⟩

theorem Unrelated.sumApart {x y : Val} (hu : Unrelated W x y) (hx : x.WT W) (hy : y.WT W) : SumApart W x y := by
  intro S v U i u h1 h2
  cases hs : W.sub U S with
  | false => rfl
  | true => exact absurd (hu _ _ h1 h2 (.inr hs)) (sum_tag_cls (hx _ h1) (hy _ h2))

/-! ### Lists of keys and values, with keys compared by an equivalence -/

section Assoc
variable {α : Type} (E : α → α → Bool)

def lookBy (D : List (α × Int)) (x : α) : Option Int := (D.find? fun p => E p.1 x).map (·.2)

variable {E} {P : α → Prop}

theorem lookBy_cons (q : α × Int) (D : List (α × Int)) (y : α) :
    lookBy E (q :: D) y = if E q.1 y then some q.2 else lookBy E D y := by
  unfold lookBy
  rw [List.find?_cons]
  cases E q.1 y <;> rfl

theorem lookBy_none {D : List (α × Int)} {x : α} (hf : D.findIdx? (fun p => E p.1 x) = none) :
    lookBy E D x = none ∧ ∀ p ∈ D, E p.1 x = false := by
  rw [List.findIdx?_eq_none_iff] at hf
  refine ⟨?_, fun p hp => by simpa using hf p hp⟩
  unfold lookBy
  rw [List.find?_eq_none.2 fun p hp => by simpa using hf p hp]
  rfl

variable (hS : ∀ x y, P x → P y → E x y = E y x)
  (hT : ∀ x y z, P x → P y → P z → E x y = true → E y z = true → E x z = true)

include hS hT in
theorem lookBy_append {D : List (α × Int)} (hD : ∀ p ∈ D, P p.1) {x : α} (hx : P x) (v : Int)
    (hn : ∀ p ∈ D, E p.1 x = false) {y : α} (hy : P y) :
    lookBy E (D ++ [(x, v)]) y = if E x y then some v else lookBy E D y := by
  induction D with
  | nil => simp [lookBy_cons]
  | cons q D ih =>
    rw [List.cons_append, lookBy_cons, lookBy_cons, ih (fun p hp => hD p (by simp [hp])) fun p hp => hn p (by simp [hp])]
    cases hq : E q.1 y with
    | false => simp
    | true =>
      cases hxy : E x y with
      | false => simp
      | true =>
        have hPq := hD q (by simp)
        have := hT q.1 y x hPq hy hx hq (by rw [hS y x hy hx]; exact hxy)
        rw [hn q (by simp)] at this
        cases this

include hS hT in
theorem lookBy_some {D : List (α × Int)} (hD : ∀ p ∈ D, P p.1) {x : α} (hx : P x) {i : Nat}
    (hf : D.findIdx? (fun p => E p.1 x) = some i) :
    lookBy E D x = D[i]?.map (·.2) ∧ lookBy E D x ≠ none ∧
    (∀ v y, P y → lookBy E (D.modify i fun p => (p.1, v)) y = if E x y then some v else lookBy E D y) ∧
    ((D.map (·.1)).Pairwise (fun a b => E a b = false) →
      ∀ y, P y → lookBy E (D.eraseIdx i) y = if E x y then none else lookBy E D y) := by
  induction D generalizing i with
  | nil => simp at hf
  | cons q D ih =>
    have hPq := hD q (by simp)
    rw [List.findIdx?_cons] at hf
    cases hq : E q.1 x with
    | true =>
      have same : ∀ y, P y → E q.1 y = E x y := by
        intro y hy
        cases h1 : E x y with
        | true => exact hT _ _ _ hPq hx hy hq h1
        | false =>
          cases h2 : E q.1 y with
          | false => rfl
          | true =>
            rw [hS _ _ hPq hx] at hq
            rw [hT _ _ _ hx hPq hy hq h2] at h1
            cases h1
      simp only [hq, if_true, Option.some.injEq] at hf
      subst hf
      refine ⟨by simp [lookBy_cons, hq], by simp [lookBy_cons, hq], fun v y hy => ?_, fun hd y hy => ?_⟩
      · rw [List.modify_zero_cons, lookBy_cons, lookBy_cons]
        dsimp only
        rw [same y hy]
        cases E x y <;> rfl
      · rw [List.eraseIdx_zero, List.tail_cons, lookBy_cons, same y hy]
        cases hxy : E x y with
        | false => simp
        | true =>
          simp only [if_true]
          unfold lookBy
          rw [List.find?_eq_none.2]
          · rfl
          · intro p hp e
            have e : E p.1 y = true := by simpa using e
            have hPp := hD p (by simp [hp])
            have h1 := (List.pairwise_cons.1 hd).1 p.1 (List.mem_map.2 ⟨p, hp, rfl⟩)
            rw [hS _ _ hPp hy] at e
            rw [hT _ _ _ hPq hy hPp ((same y hy).trans hxy) e] at h1
            cases h1
    | false =>
      simp only [hq, Bool.false_eq_true, if_false, Option.map_eq_some_iff] at hf
      obtain ⟨j, hj, rfl⟩ := hf
      obtain ⟨h1, h2, h3, h4⟩ := ih (fun p hp => hD p (by simp [hp])) hj
      have off : ∀ y, P y → E x y = true → E q.1 y = false := by
        intro y hy hxy
        cases hqy : E q.1 y with
        | false => rfl
        | true =>
          rw [hS _ _ hx hy] at hxy
          rw [hT _ _ _ hPq hy hx hqy hxy] at hq
          cases hq
      refine ⟨by rw [lookBy_cons, hq]; simpa using h1, by rw [lookBy_cons, hq]; simpa using h2, fun v y hy => ?_, fun hd y hy => ?_⟩
      · rw [List.modify_succ_cons, lookBy_cons, lookBy_cons, h3 v y hy]
        cases hxy : E x y with
        | false => simp
        | true => simp [off y hy hxy]
      · rw [List.eraseIdx_cons_succ, lookBy_cons, lookBy_cons, h4 (List.pairwise_cons.1 hd).2 y hy]
        cases hxy : E x y with
        | false => simp
        | true => simp [off y hy hxy]

end Assoc
end HW.Adt
