import Verif.Lemmas.FrozenDict
import Mathlib.Logic.Equiv.Multiset

/-! # Property C67: frozen dictionaries -/

namespace HW

open Frozen

variable {α : Type} (O : PyObj α)

namespace Frozen.Spec

/-- The pairs, read in order with later ones overriding, map `k` to `v`. -/
def Maps (l : List (α × α)) (k v : α) : Prop :=
  ∃ l1 e l2, l = l1 ++ e :: l2 ∧ O.eq e.1 k = true ∧ e.2 = v ∧ ∀ x ∈ l2, O.eq x.1 k = false

/-- Two pair lists describe the same mapping, up to `==`. -/
def SameMapping (l l' : List (α × α)) : Prop :=
  ∀ k, (∀ v, Maps O l k v → ∃ v', Maps O l' k v' ∧ O.eq v v' = true) ∧
       (∀ v', Maps O l' k v' → ∃ v, Maps O l k v ∧ O.eq v v' = true)

/-- The same items in the same order, up to `==`. -/
def SameItems (l l' : List (α × α)) : Prop :=
  List.Forall₂ (fun e e' => O.eq e.1 e'.1 = true ∧ O.eq e.2 e'.2 = true) l l'

/-- No key twice. -/
def DistinctKeys (l : List (α × α)) : Prop := l.Pairwise fun e e' => O.eq e.1 e'.1 = false

end Frozen.Spec

open Frozen.Spec

variable {O}

namespace Frozen

theorem foldl_get (l : Items α) (k v : α) : ∀ d : Items α, get O (l.foldl (fun d e => put O d e.1 e.2) d) k = some v ↔
    Maps O l k v ∨ ((∀ x ∈ l, O.eq x.1 k = false) ∧ get O d k = some v) := by
  induction l with
  | nil => intro d; simp [Maps]
  | cons e l ih =>
    intro d
    rw [List.foldl_cons, ih, get_put]
    constructor
    · rintro (⟨l1, e', l2, rfl, h1, h2, h3⟩ | ⟨h1, h2⟩)
      · exact Or.inl ⟨e :: l1, e', l2, rfl, h1, h2, h3⟩
      · split at h2
        · rename_i hk
          exact Or.inl ⟨[], e, l, rfl, hk, Option.some.inj h2, h1⟩
        · rename_i hk
          refine Or.inr ⟨fun x hx => ?_, h2⟩
          simp only [List.mem_cons] at hx
          rcases hx with rfl | hx
          · simpa using hk
          · exact h1 x hx
    · rintro (⟨l1, e', l2, hl, h1, h2, h3⟩ | ⟨h1, h2⟩)
      · cases l1 with
        | nil =>
          simp only [List.nil_append, List.cons.injEq] at hl
          obtain ⟨rfl, rfl⟩ := hl
          exact Or.inr ⟨h3, by rw [if_pos h1, h2]⟩
        | cons y l1 =>
          simp only [List.cons_append, List.cons.injEq] at hl
          obtain ⟨rfl, rfl⟩ := hl
          exact Or.inl ⟨l1, e', l2, rfl, h1, h2, h3⟩
      · exact Or.inr ⟨fun x hx => h1 x (by simp [hx]), by rw [h1 e (by simp)]; exact h2⟩

theorem get_ofPairs (l : Items α) (k v : α) : get O (ofPairs O l) k = some v ↔ Maps O l k v := by
  rw [ofPairs, foldl_get]; simp [get]

theorem sameMap_make (l l' : Items α) : sameMap O (ofPairs O l) (ofPairs O l') = true ↔ SameMapping O l l' := by
  rw [sameMap_get (ofPairs_distinct l) (ofPairs_distinct l')]
  simp only [get_ofPairs, SameMapping]

theorem put_append (d : Items α) (k v : α) (h : ∀ e ∈ d, O.eq e.1 k = false) : put O d k v = d ++ [(k, v)] := by
  induction d with
  | nil => rfl
  | cons e d ih =>
    simp only [put, h e (by simp), List.cons_append]
    rw [if_neg (by simp), ih fun x hx => h x (by simp [hx])]

theorem ofPairs_of_distinct {l : Items α} (h : DistinctKeys O l) : ofPairs O l = l := by
  have aux : ∀ (l d : Items α), DistinctKeys O (d ++ l) → l.foldl (fun d e => put O d e.1 e.2) d = d ++ l := by
    intro l
    induction l with
    | nil => intro d _; simp
    | cons e l ih =>
      intro d hd
      have h1 : ∀ x ∈ d, O.eq x.1 e.1 = false := fun x hx =>
        (List.pairwise_append.1 hd).2.2 x hx e (by simp)
      rw [List.foldl_cons, put_append d e.1 e.2 h1, ih]
      · simp
      · simpa using hd
  unfold ofPairs
  simpa using aux l [] (by simpa using h)

/-- `x == y` in terms of the two raw comparisons. -/
theorem pyEq_make (k k' : Kind) (l l' : Items α) : pyEq O (make O k l) (make O k' l') = true ↔
    if (k = .odict ∨ k = .ofdict) ∧ (k' = .odict ∨ k' = .ofdict) then SameItems O (ofPairs O l) (ofPairs O l')
    else SameMapping O l l' := by
  have hs : sameMap O (ofPairs O l') (ofPairs O l) = sameMap O (ofPairs O l) (ofPairs O l') :=
    sameMap_symm (ofPairs_distinct l') (ofPairs_distinct l)
  have ho := ordered_iff (ofPairs_distinct (O := O) l) (ofPairs_distinct l')
  cases k <;> cases k' <;>
    simp only [pyEq, make, Kind.frozen, frozenEq, Kind.isinstance, frozenRaw, rawEq, Obj.d, reduceCtorEq, and_true,
      and_false, and_self, or_true, or_false, if_true, if_false, Bool.false_eq_true, hs, sameMap_make,
      sameKeys_symm (ofPairs O l')] <;>
    exact ho

end Frozen

/-- **C67** (contents).  `FrozenDict(pairs)[k]`, and likewise `OrderedFrozenDict`: the value of the last pair with a
key equal to `k`. -/
theorem C67_lookup (l : List (α × α)) (k v : α) (kind : Kind) : get O (make O kind l).items k = some v ↔ Maps O l k v :=
  get_ofPairs l k v

/-- **C67** (`FrozenDict` equality).  Two `FrozenDict`s are equal exactly if they describe the same mapping; and then
they have the same hash. -/
theorem C67_frozen (l l' : List (α × α)) :
    (pyEq O (make O .fdict l) (make O .fdict l') = true ↔ SameMapping O l l') ∧
    (pyEq O (make O .fdict l) (make O .fdict l') = true →
      pyHash O (make O .fdict l) = pyHash O (make O .fdict l')) := by
  refine ⟨by rw [pyEq_make]; simp, fun h => ?_⟩
  rw [pyEq_make, if_neg (by simp), ← sameMap_make, sameMap_iff (ofPairs_distinct l) (ofPairs_distinct l')] at h
  obtain ⟨d, hp, hf⟩ := h
  simp only [pyHash, make, Option.some.injEq]
  rw [map_itemHash hf]
  congr 1
  exact Multiset.coe_eq_coe.2 (hp.map _)

/-- **C67** (`OrderedFrozenDict` equality).  Two `OrderedFrozenDict`s are equal exactly if they have the same items in
the same order; and then they have the same hash. -/
theorem C67_ordered {l l' : List (α × α)} (hl : DistinctKeys O l) (hl' : DistinctKeys O l') :
    (pyEq O (make O .ofdict l) (make O .ofdict l') = true ↔ SameItems O l l') ∧
    (pyEq O (make O .ofdict l) (make O .ofdict l') = true →
      pyHash O (make O .ofdict l) = pyHash O (make O .ofdict l')) := by
  have e := pyEq_make (O := O) .ofdict .ofdict l l'
  rw [if_pos (by simp), ofPairs_of_distinct hl, ofPairs_of_distinct hl'] at e
  refine ⟨e, fun h => ?_⟩
  simp only [pyHash, make, ofPairs_of_distinct hl, ofPairs_of_distinct hl', Option.some.injEq]
  rw [map_itemHash (e.1 h)]

namespace Frozen

/-- No two objects, tuples or sets that differ have the same hash. -/
structure Perfect (O : PyObj α) : Prop where
  obj : ∀ a b, O.hash a = O.hash b → O.eq a b = true
  tup : O.tupHash.Injective
  set : O.setHash.Injective

theorem itemEq_of_hash (P : Perfect O) {e e' : α × α} (h : itemHash O e = itemHash O e') : ItemEq O e e' := by
  have := P.tup h
  simp only [List.cons.injEq, and_true] at this
  exact ⟨P.obj _ _ this.1, P.obj _ _ this.2⟩

theorem forall₂_of_hash (P : Perfect O) : ∀ {d d' : Items α}, d.map (itemHash O) = d'.map (itemHash O) →
    List.Forall₂ (ItemEq O) d d'
  | [], [], _ => .nil
  | [], _ :: _, h => (by cases h)
  | _ :: _, [], h => (by cases h)
  | _ :: _, _ :: _, h => by
      rw [List.map_cons, List.map_cons, List.cons.injEq] at h
      exact .cons (itemEq_of_hash P h.1) (forall₂_of_hash P h.2)

theorem perm_of_hash : ∀ {l : List Int} {d d' : Items α}, d.map (itemHash O) = l →
    l.Perm (d'.map (itemHash O)) → ∃ d'' : Items α, d''.Perm d' ∧ d''.map (itemHash O) = d.map (itemHash O) := by
  intro l d d' hl hp
  subst hl
  induction d generalizing d' with
  | nil =>
    have : d' = [] := by simpa using hp.symm.eq_nil
    exact ⟨[], this ▸ .refl _, rfl⟩
  | cons e d ih =>
    have hm : itemHash O e ∈ d'.map (itemHash O) := hp.subset (by simp)
    obtain ⟨e', he', hh⟩ := List.mem_map.1 hm
    obtain ⟨s, t, rfl⟩ := List.append_of_mem he'
    have hp' : (d.map (itemHash O)).Perm ((s ++ t).map (itemHash O)) := by
      have h1 : ((s ++ e' :: t).map (itemHash O)).Perm (itemHash O e :: (s ++ t).map (itemHash O)) := by
        rw [← hh, ← List.map_cons]; exact List.perm_middle.map _
      exact (List.perm_cons _).1 ((hp.trans h1))
    obtain ⟨d'', h1, h2⟩ := ih hp'
    exact ⟨e' :: d'', (h1.cons _).trans List.perm_middle.symm, by rw [List.map_cons, List.map_cons, hh, h2]⟩

end Frozen

/-- **C67** (the hash sees everything).  Keys and values, and for `OrderedFrozenDict` their order, all enter the hash:
if no two different objects, tuples or sets had the same hash, dictionaries with equal hashes would be equal. -/
theorem C67_separates (P : Perfect O) (l l' : List (α × α)) :
    (pyHash O (make O .fdict l) = pyHash O (make O .fdict l') → pyEq O (make O .fdict l) (make O .fdict l') = true) ∧
    (pyHash O (make O .ofdict l) = pyHash O (make O .ofdict l') →
      pyEq O (make O .ofdict l) (make O .ofdict l') = true) := by
  constructor
  · intro h
    simp only [pyHash, make, Option.some.injEq] at h
    obtain ⟨d, hp, hm⟩ := perm_of_hash rfl (Multiset.coe_eq_coe.1 (P.set h))
    rw [pyEq_make, if_neg (by simp), ← sameMap_make, sameMap_iff (ofPairs_distinct l) (ofPairs_distinct l')]
    exact ⟨d, hp, forall₂_of_hash P hm.symm⟩
  · intro h
    simp only [pyHash, make, Option.some.injEq] at h
    rw [pyEq_make, if_pos (by simp)]
    exact forall₂_of_hash P (P.tup h)

/-- **C67** (other kinds).  Against a `FrozenDict` or a `dict`, from either side, order does not matter; an
`OrderedFrozenDict` against an `OrderedDict` compares the order.  `!=` is the opposite, and `==` is symmetric. -/
theorem C67_mixed (k k' : Kind) (l l' : List (α × α)) :
    (pyEq O (make O k l) (make O k' l') = pyEq O (make O k' l') (make O k l)) ∧
    (pyNe O (make O k l) (make O k' l') = true ↔ ¬ pyEq O (make O k l) (make O k' l') = true) ∧
    ((k = .fdict ∨ k = .dict) → (pyEq O (make O k l) (make O k' l') = true ↔ SameMapping O l l')) ∧
    (k = .ofdict → k' = .odict → DistinctKeys O l → DistinctKeys O l' →
      (pyEq O (make O k l) (make O k' l') = true ↔ SameItems O l l')) := by
  refine ⟨?_, by simp [pyNe], ?_, ?_⟩
  · rw [Bool.eq_iff_iff, pyEq_make, pyEq_make]
    have hsym : SameMapping O l l' ↔ SameMapping O l' l := by
      rw [← sameMap_make, ← sameMap_make, sameMap_symm (ofPairs_distinct l) (ofPairs_distinct l')]
    have hitm : SameItems O (ofPairs O l) (ofPairs O l') ↔ SameItems O (ofPairs O l') (ofPairs O l) := by
      constructor <;> intro h <;> refine List.Forall₂.imp ?_ h.flip <;> rintro a b ⟨h1, h2⟩ <;>
        exact ⟨O.symm _ _ h1, O.symm _ _ h2⟩
    rw [hsym, hitm]
    simp only [and_comm]
  · rintro (rfl | rfl) <;> rw [pyEq_make, if_neg (by simp)]
  · rintro rfl rfl hl hl'
    rw [pyEq_make, if_pos (by simp), ofPairs_of_distinct hl, ofPairs_of_distinct hl']

/-- **C67** (negation: mixing the kinds).  Take two items with unequal keys, in both orders.  The `FrozenDict` of them
is equal to both `OrderedFrozenDict`s, which are unequal: `==` is not transitive.  If equal objects had equal hashes,
the hash of a tuple could not depend on the order of these items. -/
theorem C67_mixed_negation {a b : α × α} (h : O.eq a.1 b.1 = false) :
    pyEq O (make O .ofdict [a, b]) (make O .fdict [a, b]) = true ∧
    pyEq O (make O .fdict [a, b]) (make O .ofdict [b, a]) = true ∧
    pyEq O (make O .ofdict [a, b]) (make O .ofdict [b, a]) = false ∧
    ((∀ k k' l l', pyEq O (make O k l) (make O k' l') = true →
        pyHash O (make O k l) = none ∨ pyHash O (make O k' l') = none ∨
        pyHash O (make O k l) = pyHash O (make O k' l')) →
      O.tupHash [itemHash O a, itemHash O b] = O.tupHash [itemHash O b, itemHash O a]) := by
  have hd : DistinctKeys O [a, b] := by simp [DistinctKeys, h]
  have hd' : DistinctKeys O [b, a] := by simp [DistinctKeys, PyObj.eq_comm b.1, h]
  have hsame : ∀ {l l' : List (α × α)}, Distinct O l → l'.Perm l → DistinctKeys O l' → SameMapping O l l' := by
    intro l l' h1 hp h2
    rw [← sameMap_make, ofPairs_of_distinct h1, ofPairs_of_distinct h2, sameMap_iff h1 h2]
    exact ⟨l, hp.symm, List.forall₂_same.2 fun e _ => ⟨O.refl _, O.refl _⟩⟩
  have e1 : pyEq O (make O .ofdict [a, b]) (make O .fdict [a, b]) = true := by
    rw [pyEq_make, if_neg (by simp)]; exact hsame hd (.refl _) hd
  have e2 : pyEq O (make O .fdict [a, b]) (make O .ofdict [b, a]) = true := by
    rw [pyEq_make, if_neg (by simp)]; exact hsame hd (.swap _ _ _) hd'
  refine ⟨e1, e2, ?_, fun hc => ?_⟩
  · rw [Bool.eq_false_iff, Ne, pyEq_make, if_pos (by simp), ofPairs_of_distinct hd, ofPairs_of_distinct hd']
    intro hf
    cases hf with
    | cons h1 _ => rw [h] at h1; cases h1.1
  · have c1 := hc _ _ _ _ e1
    have c2 := hc _ _ _ _ e2
    simp only [pyHash, make, reduceCtorEq, false_or, Option.some.injEq, ofPairs_of_distinct hd,
      ofPairs_of_distinct hd', List.map_cons, List.map_nil] at c1 c2
    rw [c1, c2]

/-! ### Examples -/

namespace Frozen

/-- Naturals as objects, with order-dependent tuple hash. -/
def natObj : PyObj Nat where
  eq a b := a == b
  hash a := a
  refl := by simp
  symm := by intro a b h; simp_all
  trans := by intro a b c h h'; simp_all
  compat := by intro a b h; simp_all
  tupHash l := l.foldl (fun s x => 10 * s + x) 1
  setHash s := s.card

/-- Naturals with hashes that never collide. -/
noncomputable def perfectObj : PyObj Nat :=
  { natObj with
    tupHash := fun l => (Encodable.encode l : Nat)
    setHash := fun s => (Encodable.encode s : Nat) }

theorem perfectObj_perfect : Perfect perfectObj where
  obj a b h := by
    have h1 : a = b := Int.ofNat_inj.1 h
    subst h1; exact perfectObj.refl _
  tup a b h := Encodable.encode_injective (Int.ofNat_inj.1 h)
  set a b h := Encodable.encode_injective (Int.ofNat_inj.1 h)

end Frozen

example : pyEq natObj (make natObj .fdict [(1, 5), (2, 6), (1, 7)]) (make natObj .fdict [(2, 6), (1, 7)]) = true ∧
    pyEq natObj (make natObj .ofdict [(1, 5), (2, 6), (1, 7)]) (make natObj .ofdict [(2, 6), (1, 7)]) = false ∧
    pyEq natObj (make natObj .ofdict [(1, 5), (2, 6), (1, 7)]) (make natObj .ofdict [(1, 7), (2, 6)]) = true ∧
    natObj.tupHash [itemHash natObj (1, 5), itemHash natObj (2, 6)] ≠
      natObj.tupHash [itemHash natObj (2, 6), itemHash natObj (1, 5)] := by decide

example : pyHash perfectObj (make perfectObj .fdict [(1, 5)]) ≠ pyHash perfectObj (make perfectObj .fdict [(1, 6)]) := fun h =>
  absurd ((C67_separates perfectObj_perfect [(1, 5)] [(1, 6)]).1 h) (by decide)

end HW
