import Verif.Lemmas.Adt.Copy
import Verif.Props.AdtShare
import Verif.Props.AdtEq

/-!
# Property C157: `copy.copy` and `copy.deepcopy`
-/

namespace HW
open Adt

variable {W : World} {L : Leaves}

/-! ### `copy.copy` -/

/-- `copy.copy(r)` of anything but a product: a new object of the same value, with the same parts; everything else stays.
Assignments to the copy leave the original alone, and the other way round. -/
theorem C157_copy {h : Store} {r : Ref} {o : Adt.Obj} {v : Val} (hr : h.Reads r v) (ho : h[r]? = some o) (hp : ¬ o.IsProduct) :
    ∃ h', h.copy r = .ok h' ∧ h'.length = h.length + 1 ∧ Extends h h' ∧ h'[h.length]? = some o ∧ h'.Reads h.length v ∧
      Val.eq W L v v = true ∧
      ∀ ops : List Op,
        ((∀ op ∈ ops, op.target = some h.length ∨ op.target = none) → (h'.run W ops).Reads r v) ∧
        ((∀ op ∈ ops, op.target = some r ∨ op.target = none) → (h'.run W ops).Reads h.length v) := by
  have hn : o.new = .ok () := (new_eq o).elim And.left fun h => absurd h.2 hp
  have hx : Extends h (h ++ [o]) := .append _ _
  have hl : (h ++ [o])[h.length]? = some o := List.getElem?_concat_length ..
  have hv : Store.Reads (h ++ [o]) h.length v := by
    obtain ⟨o', n, ho', e⟩ := hr.obj
    rw [ho] at ho'
    cases ho'
    refine ⟨n + 1, ?_⟩
    rw [read_succ, hl]
    refine (tree_congr fun t ht => ?_).trans e
    obtain ⟨w, hw, -⟩ := tree_part e ht
    have hrt : h.Reads t w := ⟨n, hw⟩
    exact read_congr fun s hs => by
      obtain ⟨w', hw', -⟩ := hs.reads hrt
      exact hx s hw'.lt
  refine ⟨h ++ [o], by simp only [Store.copy, ho, hn]; rfl, by simp, hx, hl, hv, C56_refl v, fun ops => ⟨fun ht => ?_, fun ht => ?_⟩⟩
  · refine C149_unreached (hr.ext hx) fun op hop s hs hR => ?_
    rcases ht op hop with he | he
    · rw [he] at hs
      cases hs
      obtain ⟨w, hw, -⟩ := ((reach_ext hr hx).1 hR).reads hr
      exact absurd hw.lt (lt_irrefl _)
    · rw [he] at hs; cases hs
  · refine C149_unreached hv fun op hop s hs hR => ?_
    rcases ht op hop with he | he
    · rw [he] at hs
      cases hs
      cases hR with
      | self => exact absurd hr.lt (lt_irrefl _)
      | part ho' ht hR =>
        rw [hl] at ho'
        cases ho'
        obtain ⟨w, hw, -⟩ := hr.part ho ht
        exact hr.acyclic ho ht ((reach_ext hw hx).1 hR)
    · rw [he] at hs; cases hs

/-- Neither `copy.copy` nor `copy.deepcopy` can copy a product with fields: `__new__` takes the fields. -/
theorem C157_product_refuted {h : Store} {r : Ref} {o : Adt.Obj} (ho : h[r]? = some o) (hp : o.IsProduct) :
    h.copy r = .error .typeError ∧ ∀ q, h.DeepCopy r q ↔ q = .error .typeError := by
  have hn : o.new = .error .typeError := (new_eq o).elim (fun h => absurd hp h.2) And.left
  refine ⟨by simp only [Store.copy, ho, hn]; rfl, fun q => ?_⟩
  have : deep 1 ⟨h, []⟩ r = some (.error .typeError) := by simp [deep, ho, hn]
  exact deepCopy_iff this q

/-! ### `copy.deepcopy` -/

/-- `copy.deepcopy(r)` of an object from which no product can be reached ends: all objects stay, every object reached from
`r` (and no other) has one copy, which is new, of the same class and with the copies of its parts for parts.  Different
objects have different copies: what is shared in the copy is what is shared in the original. -/
theorem C157_deepcopy {h : Store} {r : Ref} {v : Val} (hr : h.Reads r v)
    (hp : ∀ s o, Reach h r s → h[s]? = some o → ¬ o.IsProduct) :
    ∃ (h' : Store) (r' : Ref) (φ : Ref → Ref → Prop),
      (∀ q, h.DeepCopy r q ↔ q = .ok (h', r')) ∧ Extends h h' ∧ φ r r' ∧
      (∀ s s', φ s s' → h.length ≤ s' ∧ Reach h r s ∧ Reach h' r' s' ∧
        ∃ o o', h[s]? = some o ∧ h'[s']? = some o' ∧ CopyOf φ o o') ∧
      (∀ s, Reach h r s → ∃ s', φ s s') ∧ (∀ s', Reach h' r' s' → ∃ s, φ s s') ∧
      (∀ s t t', φ s t → φ s t' → t = t') ∧ ∀ s s' t, φ s t → φ s' t → s = s' := by
  obtain ⟨n, hn⟩ := hr
  have hP := deep_post hn (good_start h)
  rcases hd : deep n ⟨h, []⟩ r with _ | (e | ⟨s, r'⟩)
  · rw [hd] at hP; exact hP.elim
  · rw [hd] at hP
    obtain ⟨-, t, o, h1, h2, h3⟩ := hP
    exact absurd h3 (hp t o h1 h2)
  · rw [hd] at hP
    obtain ⟨hG, -, hr', hm⟩ := hP
    have hm : ∀ a b, s.To a b → Reach h r a := fun a b hab => (hm a b hab).resolve_left (by intro h; cases h)
    have up : ∀ a t, Reach h a t → ∀ b, s.To a b → ∃ u, s.To t u ∧ Reach s.store b u := by
      intro a t hat
      induction hat with
      | self a => exact fun b hb => ⟨b, hb, .self b⟩
      | part ho ht _ ih =>
        intro b hb
        obtain ⟨-, -, o, o', h1, -, h3, h4⟩ := hG.mem _ _ hb
        rw [ho] at h1
        cases h1
        obtain ⟨u, hu, hut⟩ := exists_right h4.parts ht
        obtain ⟨w, hw, hR⟩ := ih u hut
        exact ⟨w, hw, .part h3 hu hR⟩
    have down : ∀ b u, Reach s.store b u → ∀ a, s.To a b → ∃ t, s.To t u := by
      intro b u hbu
      induction hbu with
      | self b => exact fun a ha => ⟨a, ha⟩
      | part ho ht _ ih =>
        intro a ha
        obtain ⟨-, -, o, o', h1, -, h3, h4⟩ := hG.mem _ _ ha
        rw [ho] at h3
        cases h3
        obtain ⟨t, -, hut⟩ := exists_left h4.parts ht
        exact ih t hut
    refine ⟨s.store, r', s.To, fun q => deepCopy_iff hd q, hG.ext, hr', fun a b hab => ?_, fun a ha => ?_, fun b hb => down r' b hb r hr',
      fun a b b' h1 h2 => ?_, fun a a' b => hG.inj a a' b⟩
    · obtain ⟨h1, -, o, o', h3, -, h5, h6⟩ := hG.mem a b hab
      obtain ⟨u, hu, hR⟩ := up r a (hm a b hab) r' hr'
      have : u = b := Option.some.inj (hu.symm.trans hab)
      subst this
      exact ⟨h1, hm a u hab, hR, o, o', h3, h5, h6⟩
    · obtain ⟨u, hu, -⟩ := up r a ha r' hr'
      exact ⟨u, hu⟩
    · exact Option.some.inj (h1.symm.trans h2)

/-- If some product can be reached, `copy.deepcopy` raises `TypeError`. -/
theorem C157_deep_product_refuted {h : Store} {r : Ref} {v : Val} (hr : h.Reads r v) {s : Ref} {o : Adt.Obj} (hs : Reach h r s)
    (ho : h[s]? = some o) (hp : o.IsProduct) (q) : h.DeepCopy r q ↔ q = .error .typeError := by
  obtain ⟨n, hn⟩ := hr
  have hP := deep_post hn (good_start h)
  rcases hd : deep n ⟨h, []⟩ r with _ | (e | ⟨s', r'⟩)
  · rw [hd] at hP; exact hP.elim
  · rw [hd] at hP
    obtain ⟨rfl, -⟩ := hP
    exact deepCopy_iff hd q
  · rw [hd] at hP
    obtain ⟨hG, -, hr', -⟩ := hP
    exfalso
    have : ∀ a t, Reach h a t → ∀ b, s'.To a b → ∃ u, s'.To t u := by
      intro a t hat
      induction hat with
      | self a => exact fun b hb => ⟨b, hb⟩
      | part ho ht _ ih =>
        intro b hb
        obtain ⟨-, -, o, o', h1, -, -, h4⟩ := hG.mem _ _ hb
        rw [ho] at h1
        cases h1
        obtain ⟨u, -, hut⟩ := exists_right h4.parts ht
        exact ih u hut
    obtain ⟨u, hu⟩ := this r s hs r' hr'
    obtain ⟨-, -, o', -, h1, h2, -⟩ := hG.mem _ _ hu
    rw [ho] at h1
    cases h1
    rcases new_eq o with ⟨-, h3⟩ | ⟨h3, -⟩
    · exact h3 hp
    · rw [h3] at h2; cases h2

/-- The deep copy of a value without `Auto` members has the same value: it is equal, and hashes equally. -/
theorem C157_deep_value {h h' : Store} {r r' : Ref} {v : Val} (hr : h.Reads r v) (hq : h.DeepCopy r (.ok (h', r')))
    (ha : ∀ s o, Reach h r s → h[s]? = some o → ¬ o.IsAuto) : h'.Reads r' v ∧ Val.eq W L v v = true := by
  have hp : ∀ s o, Reach h r s → h[s]? = some o → ¬ o.IsProduct := by
    intro s o hs ho hp
    cases (C157_deep_product_refuted hr hs ho hp _).1 hq
  obtain ⟨h1, r1, φ, hd, hx, hφ, hc, -⟩ := C157_deepcopy hr hp
  cases (hd _).1 hq
  refine ⟨?_, C56_refl v⟩
  have key : ∀ n a w, h.read n a = some w → ∀ b, φ a b → h'.read n b = some w := by
    intro n
    induction n with
    | zero => intro a w e; cases e
    | succ n ih =>
      intro a w e b hab
      obtain ⟨-, hR, -, o, o', ho, ho', hco⟩ := hc a b hab
      rw [read_succ, ho] at e
      have hna := ha a o hR ho
      rw [read_succ, ho']
      simp only [Option.bind_some] at e ⊢
      cases hco with
      | leaf T p => exact e
      | enum hk => exact e
      | auto p hk => exact absurd ⟨_, _, _, rfl, hk⟩ hna
      | tup hv =>
        simp only [Obj.tree, Option.map_eq_some_iff] at e ⊢
        obtain ⟨xs, e, rfl⟩ := e
        refine ⟨xs, mapM_forall₂.2 ?_, rfl⟩
        replace e := mapM_forall₂.1 e
        clear hna ho ho'
        induction hv generalizing xs with
        | nil => cases e; exact .nil
        | cons hab _ ih2 => cases e with
          | cons h1 h2 => exact .cons (ih _ _ h1 _ hab) (ih2 _ h2)
      | sum hv =>
        simp only [Obj.tree, Option.map_eq_some_iff] at e ⊢
        obtain ⟨x, e, rfl⟩ := e
        exact ⟨x, ih _ _ e _ hv, rfl⟩
      | tag hv =>
        simp only [Obj.tree, Option.map_eq_some_iff] at e ⊢
        obtain ⟨x, e, rfl⟩ := e
        exact ⟨x, ih _ _ e _ hv, rfl⟩
  obtain ⟨n, hn⟩ := hr
  exact ⟨n, key n r v hn r' hφ⟩

/-- The deep copy and the original have no object in common: whatever is then assigned to, or changed in place, in the
objects that existed before (in the new ones), the copy (the original) keeps its value. -/
theorem C157_deep_independent {h h' : Store} {r r' : Ref} {v : Val} (hr : h.Reads r v) (hq : h.DeepCopy r (.ok (h', r'))) :
    (∀ s, s < h.length → ¬ Reach h' r' s) ∧ (∀ s w, h.Reads s w → ∀ t, Reach h' s t → t < h.length) ∧
    ∀ ops : List Op,
      ((∀ op ∈ ops, ∀ s, op.target = some s → h.length ≤ s) → ∀ s w, h.Reads s w → (h'.run W ops).Reads s w) ∧
      ((∀ op ∈ ops, ∀ s, op.target = some s → s < h.length) → ∀ w, h'.Reads r' w → (h'.run W ops).Reads r' w) := by
  have hp : ∀ s o, Reach h r s → h[s]? = some o → ¬ o.IsProduct := by
    intro s o hs ho hp
    cases (C157_deep_product_refuted hr hs ho hp _).1 hq
  obtain ⟨h1, r1, φ, hd, hx, hφ, hc, -, hdown, -⟩ := C157_deepcopy hr hp
  cases (hd _).1 hq
  have hnew : ∀ s, s < h.length → ¬ Reach h' r' s := by
    intro s hs hR
    obtain ⟨a, ha⟩ := hdown s hR
    have := (hc a s ha).1
    omega
  have hold : ∀ s w, h.Reads s w → ∀ t, Reach h' s t → t < h.length := by
    intro s w hs t ht
    obtain ⟨u, hu, -⟩ := ((reach_ext hs hx).1 ht).reads hs
    exact hu.lt
  refine ⟨hnew, hold, fun ops => ⟨fun ht s w hs => ?_, fun ht w hw => ?_⟩⟩
  · refine C149_unreached (hs.ext hx) fun op hop t hto hR => ?_
    have h1 := ht op hop t hto
    exact absurd (hold s w hs t hR) (not_lt.2 h1)
  · exact C149_unreached hw fun op hop t hto => hnew t (ht op hop t hto)

/-- The deep copy of a value that holds an enum member made with `new_instruction()` is not equal to the original: the
`Auto` object that is the member's value is copied too, and is compared by identity. -/
theorem C157_auto_refuted {h h' : Store} {r r' : Ref} {v v' : Val} (hr : h.Reads r v) (hq : h.DeepCopy r (.ok (h', r')))
    (hv : h'.Reads r' v') {s : Ref} {o : Adt.Obj} (hs : Reach h r s) (ho : h[s]? = some o) (ha : o.IsAuto) :
    Val.eq W L v v' = false := by
  have hp : ∀ s o, Reach h r s → h[s]? = some o → ¬ o.IsProduct := by
    intro s o hs ho hp
    cases (C157_deep_product_refuted hr hs ho hp _).1 hq
  obtain ⟨h1, r1, φ, hd, hx, hφ, hc, -⟩ := C157_deepcopy hr hp
  cases (hd _).1 hq
  have key : ∀ n a w, h.read n a = some w → ∀ b w', φ a b → h'.read n b = some w' → Reach h a s →
      ∀ f, Val.eqv W L f w w' = false := by
    intro n
    induction n with
    | zero => intro a w e; cases e
    | succ n ih =>
      intro a w e b w' hab e' hR f
      obtain ⟨-, -, -, q, q', hq1, hq2, hco⟩ := hc a b hab
      rw [read_succ, hq1] at e
      rw [read_succ, hq2] at e'
      simp only [Option.bind_some] at e e'
      have hR : a = s ∨ ∃ t ∈ q.parts, Reach h t s := by
        cases hR with
        | self => exact .inl rfl
        | part ho' ht hR => rw [hq1] at ho'; cases ho'; exact .inr ⟨_, ht, hR⟩
      have hself : a = s → o = q := by
        rintro rfl
        rw [ho] at hq1
        exact Option.some.inj hq1
      cases hco with
      | leaf T p =>
        rcases hR with hR | ⟨t, ht, -⟩
        · obtain ⟨_, _, _, h1, -⟩ := ha; rw [hself hR] at h1; cases h1
        · cases ht
      | enum hk =>
        rcases hR with hR | ⟨t, ht, -⟩
        · obtain ⟨_, _, k, h1, h2⟩ := ha; rw [hself hR] at h1; cases h1; exact absurd h2 (hk k)
        · cases ht
      | auto p hk =>
        cases e
        cases e'
        simp [Val.eqv]
      | tup hv =>
        simp only [Obj.tree, Option.map_eq_some_iff] at e e'
        obtain ⟨xs, e, rfl⟩ := e
        obtain ⟨ys, e', rfl⟩ := e'
        replace e := mapM_forall₂.1 e
        replace e' := mapM_forall₂.1 e'
        obtain ⟨t, ht, hRt⟩ := hR.resolve_left fun hR => by
          obtain ⟨_, _, _, h1, -⟩ := ha; rw [hself hR] at h1; cases h1
        have : ∃ (i : Nat) (x y : Val), xs[i]? = some x ∧ ys[i]? = some y ∧ ∀ f, Val.eqv W L f x y = false := by
          have ht : t ∈ _ := ht
          simp only [Obj.parts] at ht
          clear hself hq1 hq2 hR
          induction hv generalizing xs ys with
          | nil => cases ht
          | cons hab _ ih2 =>
            cases e with
            | cons e1 e2 => cases e' with
              | cons e1' e2' =>
                rcases List.mem_cons.1 ht with rfl | ht
                · exact ⟨0, _, _, rfl, rfl, ih _ _ e1 _ _ hab e1' hRt⟩
                · obtain ⟨i, x, y, h1, h2, h3⟩ := ih2 _ _ e2 e2' ht ht
                  exact ⟨i + 1, x, y, h1, h2, h3⟩
        obtain ⟨i, x, y, h1, h2, h3⟩ := this
        simp only [Val.eqv]
        split
        · rw [eqvs_false h1 h2 (h3 _)]; simp
        · rfl
      | sum hv =>
        simp only [Obj.tree, Option.map_eq_some_iff] at e e'
        obtain ⟨x, e, rfl⟩ := e
        obtain ⟨y, e', rfl⟩ := e'
        obtain ⟨t, ht, hRt⟩ := hR.resolve_left fun hR => by
          obtain ⟨_, _, _, h1, -⟩ := ha; rw [hself hR] at h1; cases h1
        simp only [Obj.parts, List.mem_singleton] at ht
        subst ht
        simp only [Val.eqv]
        split
        · exact ih _ _ e _ _ hv e' hRt _
        · rfl
      | tag hv =>
        simp only [Obj.tree, Option.map_eq_some_iff] at e e'
        obtain ⟨x, e, rfl⟩ := e
        obtain ⟨y, e', rfl⟩ := e'
        obtain ⟨t, ht, hRt⟩ := hR.resolve_left fun hR => by
          obtain ⟨_, _, _, h1, -⟩ := ha; rw [hself hR] at h1; cases h1
        simp only [Obj.parts, List.mem_singleton] at ht
        subst ht
        simp only [Val.eqv]
        split
        · simp [ih _ _ e _ _ hv e' hRt _]
        · rfl
  obtain ⟨m, hm⟩ := hr
  obtain ⟨n, hn⟩ := hv
  exact key (max m n) r v (read_le (le_max_left m n) hm) r' v' hφ (read_le (le_max_right m n) hn) hs false

/-! ### Instances -/

namespace Adt.CopyExamples

/-- A tuple `t` of a vector twice and a tuple with the same vector. -/
def shared : Store :=
  [.leaf (.leaf (.vec 0 (some 8))) 5, .tup (mkTuple (.user 0) [.leaf (.vec 0 (some 8))]) true [0],
    .tup (mkTuple (.user 0) [.leaf (.vec 0 (some 8)), mkTuple (.user 0) [.leaf (.vec 0 (some 8))]]) false [0, 1]]

/-- The copy has the same shape: its vector is shared, too. -/
example : shared.DeepCopy 2 (.ok (shared ++
    [.leaf (.leaf (.vec 0 (some 8))) 5, .tup (mkTuple (.user 0) [.leaf (.vec 0 (some 8))]) true [3],
      .tup (mkTuple (.user 0) [.leaf (.vec 0 (some 8)), mkTuple (.user 0) [.leaf (.vec 0 (some 8))]]) false [3, 4]], 5)) :=
  ⟨3, _, rfl, rfl⟩

example : ∃ v, shared.Reads 2 v := ⟨_, 3, rfl⟩

/-- A product of one vector. -/
example : Adt.Obj.IsProduct (.tup (mkProduct (.user 1) 7 0 [8] [.leaf (.vec 0 (some 8))]) false [0]) :=
  ⟨_, _, _, _, _, rfl, rfl, by decide, by decide⟩

/-- `class E(Enum): a = new_instruction()` -/
example : Adt.Obj.IsAuto (.enum ⟨0, [(1, .auto 4)]⟩ 0) := ⟨_, _, 4, rfl, rfl⟩

example : Store.DeepCopy [.enum ⟨0, [(1, .auto 4)]⟩ 0] 0 (.ok ([.enum ⟨0, [(1, .auto 4)]⟩ 0, .leaf (.enum ⟨0, [(1, .auto 4)]⟩) 1], 1)) :=
  ⟨1, _, rfl, rfl⟩

end Adt.CopyExamples

end HW
