import Verif.Model.Adt.Copy
import Verif.Spec.AdtCopy
import Verif.Lemmas.Adt.Share

/-! # Copies of ADT values -/

namespace HW.Adt

variable {h : Store}

theorem attrs_eq (o : Obj) : o.attrs = o.parts := by cases o <;> rfl

theorem new_eq (o : Obj) : o.new = .ok () ∧ ¬ o.IsProduct ∨ o.new = .error .typeError ∧ o.IsProduct := by
  cases o with
  | tup T a vs =>
    unfold Obj.new Obj.IsProduct
    cases hv : T.view with
    | none => exact .inl ⟨by simp only [hv], by rintro ⟨T', a', vs', k, fs, e, hk, -⟩; cases e; rw [hv] at hk; cases hk⟩
    | some q =>
      obtain ⟨k, fs⟩ := q
      by_cases hk : k.shape = .tuple ∨ k.names = []
      · refine .inl ⟨by simp only [hv, if_pos hk], ?_⟩
        rintro ⟨T', a', vs', k', fs', e, hk', h1, h2⟩
        cases e
        rw [hv] at hk'
        cases hk'
        exact hk.elim h1 h2
      · refine .inr ⟨by simp only [hv, if_neg hk], T, a, vs, k, fs, rfl, hv, ?_, ?_⟩
        · exact fun h => hk (.inl h)
        · exact fun h => hk (.inr h)
  | _ => exact .inl ⟨rfl, by rintro ⟨T', a', vs', k, fs, e, -⟩; cases e⟩

theorem CopyOf.mono {φ ψ : Ref → Ref → Prop} (hφ : ∀ a b, φ a b → ψ a b) {o o' : Obj} (hc : CopyOf φ o o') : CopyOf ψ o o' := by
  cases hc with
  | leaf T p => exact .leaf T p
  | enum hk => exact .enum hk
  | auto p hk => exact .auto p hk
  | tup hv => exact .tup (hv.imp hφ)
  | sum hv => exact .sum (hφ _ _ hv)
  | tag hv => exact .tag (hφ _ _ hv)

theorem CopyOf.parts {φ : Ref → Ref → Prop} {o o' : Obj} (hc : CopyOf φ o o') : List.Forall₂ φ o.parts o'.parts := by
  cases hc with
  | leaf T p => exact .nil
  | enum hk => exact .nil
  | auto p hk => exact .nil
  | tup hv => exact hv
  | sum hv => exact .cons hv .nil
  | tag hv => exact .cons hv .nil

theorem exists_right {φ : Ref → Ref → Prop} {l l' : List Ref} (hl : List.Forall₂ φ l l') {t : Ref} (ht : t ∈ l) :
    ∃ u ∈ l', φ t u := by
  induction hl with
  | nil => cases ht
  | cons h _ ih =>
    rcases List.mem_cons.1 ht with rfl | ht
    · exact ⟨_, by simp, h⟩
    · obtain ⟨u, hu, h'⟩ := ih ht
      exact ⟨u, by simp [hu], h'⟩

theorem exists_left {φ : Ref → Ref → Prop} {l l' : List Ref} (hl : List.Forall₂ φ l l') {u : Ref} (hu : u ∈ l') :
    ∃ t ∈ l, φ t u := exists_right (φ := fun a b => φ b a) hl.flip hu

theorem CopyOf.cls {φ : Ref → Ref → Prop} {o o' : Obj} (hc : CopyOf φ o o') : o'.cls = o.cls := by
  cases hc <;> rfl

theorem withParts_copy {φ : Ref → Ref → Prop} (n : Nat) {o : Obj} {rs : List Ref} (hp : List.Forall₂ φ o.parts rs) :
    CopyOf φ o (o.withParts n rs) := by
  cases o with
  | leaf T p => exact .leaf T p
  | enum e i =>
    cases hk : e.value i with
    | none =>
      simp only [Obj.withParts, hk]
      exact .enum (by simp [hk])
    | some x =>
      cases x with
      | auto k =>
        simp only [Obj.withParts, hk]
        exact .auto _ hk
      | int z =>
        simp only [Obj.withParts, hk]
        exact .enum (by simp [hk])
  | tup T a vs => exact .tup hp
  | sum T v =>
    cases hp with
    | cons h1 h2 => cases h2; exact .sum h1
  | tag T i v =>
    cases hp with
    | cons h1 h2 => cases h2; exact .tag h1

/-- `b` is the copy of `a`. -/
abbrev Copying.To (s : Copying) (a b : Ref) : Prop := s.memo.lookup a = some b

structure Good (h : Store) (s : Copying) : Prop where
  ext : Extends h s.store
  mem : ∀ a b, s.To a b → h.length ≤ b ∧ b < s.store.length ∧
    ∃ o o', h[a]? = some o ∧ o.new = .ok () ∧ s.store[b]? = some o' ∧ CopyOf s.To o o'
  inj : ∀ a a' b, s.To a b → s.To a' b → a = a'

structure Le (s s' : Copying) : Prop where
  ext : Extends s.store s'.store
  mono : ∀ a b, s.To a b → s'.To a b

theorem Le.refl (s : Copying) : Le s s := ⟨.refl _, fun _ _ h => h⟩

theorem Le.trans {s s' s'' : Copying} (h1 : Le s s') (h2 : Le s' s'') : Le s s'' :=
  ⟨h1.ext.trans h2.ext, fun a b h => h2.mono a b (h1.mono a b h)⟩

theorem To_cons {s : Copying} {l : Store} {r n a b : Ref} :
    Copying.To ⟨l, (r, n) :: s.memo⟩ a b ↔ (a = r ∧ b = n) ∨ (a ≠ r ∧ s.To a b) := by
  unfold Copying.To
  by_cases h : a = r
  · subst h
    simp [eq_comm]
  · have : (a == r) = false := by simpa using h
    simp [List.lookup_cons, this, h]

theorem Good.step {s : Copying} (hG : Good h s) {r : Ref} {o : Obj} (hr : s.memo.lookup r = none) (ho : h[r]? = some o)
    (hn : o.new = .ok ()) {rs : List Ref} (hp : List.Forall₂ s.To o.parts rs) :
    Good h ⟨s.store ++ [o.withParts s.store.length rs], (r, s.store.length) :: s.memo⟩ ∧
    Le s ⟨s.store ++ [o.withParts s.store.length rs], (r, s.store.length) :: s.memo⟩ := by
  have hne : ∀ a b, s.To a b → a ≠ r := by
    rintro a b hab rfl
    rw [Copying.To, hr] at hab
    cases hab
  have hmono : ∀ a b, s.To a b → Copying.To ⟨s.store ++ [o.withParts s.store.length rs], (r, s.store.length) :: s.memo⟩ a b :=
    fun a b hab => To_cons.2 (.inr ⟨hne a b hab, hab⟩)
  refine ⟨⟨hG.ext.trans (.append _ _), fun a b hab => ?_, fun a a' b h1 h2 => ?_⟩, ⟨.append _ _, hmono⟩⟩
  · rcases To_cons.1 hab with ⟨rfl, rfl⟩ | ⟨-, hab⟩
    · exact ⟨hG.ext.le, by simp, o, _, ho, hn, List.getElem?_concat_length .., (withParts_copy _ hp).mono hmono⟩
    · obtain ⟨h1, h2, o, o', h3, h4, h5, h6⟩ := hG.mem a b hab
      refine ⟨h1, by rw [List.length_append]; exact Nat.lt_add_right _ h2, o, o', h3, h4, ?_, h6.mono hmono⟩
      rw [List.getElem?_append_left h2]
      exact h5
  · rcases To_cons.1 h1 with ⟨e1, f1⟩ | ⟨-, k1⟩ <;> rcases To_cons.1 h2 with ⟨e2, f2⟩ | ⟨-, k2⟩
    · rw [e1, e2]
    · rw [f1] at k2; exact absurd (hG.mem _ _ k2).2.1 (lt_irrefl _)
    · rw [f2] at k1; exact absurd (hG.mem _ _ k1).2.1 (lt_irrefl _)
    · exact hG.inj _ _ _ k1 k2

/-- What is to be shown of a deep copy. -/
def Post (h : Store) (s : Copying) (r : Ref) : Option (PyM (Copying × Ref)) → Prop
  | none => False
  | some (.error e) => e = .typeError ∧ ∃ t o, Reach h r t ∧ h[t]? = some o ∧ o.IsProduct
  | some (.ok (s', r')) => Good h s' ∧ Le s s' ∧ s'.To r r' ∧ ∀ a b, s'.To a b → s.To a b ∨ Reach h r a

def PostL (h : Store) (s : Copying) (rs : List Ref) : Option (PyM (Copying × List Ref)) → Prop
  | none => False
  | some (.error e) => e = .typeError ∧ ∃ r ∈ rs, ∃ t o, Reach h r t ∧ h[t]? = some o ∧ o.IsProduct
  | some (.ok (s', rs')) => Good h s' ∧ Le s s' ∧ List.Forall₂ s'.To rs rs' ∧ ∀ a b, s'.To a b → s.To a b ∨ ∃ r ∈ rs, Reach h r a

theorem deeps_post {f : Copying → Ref → Option (PyM (Copying × Ref))} :
    ∀ {rs : List Ref}, (∀ r ∈ rs, ∀ s, Good h s → Post h s r (f s r)) → ∀ {s : Copying}, Good h s → PostL h s rs (deeps f s rs)
  | [], _, s, hG => ⟨hG, .refl s, .nil, fun _ _ h => .inl h⟩
  | r :: rs, hf, s, hG => by
    have h1 := hf r (by simp) s hG
    unfold deeps
    rcases hfr : f s r with _ | (e | ⟨s', r'⟩)
    · rw [hfr] at h1; exact h1.elim
    · rw [hfr] at h1
      exact ⟨h1.1, r, by simp, h1.2⟩
    · rw [hfr] at h1
      obtain ⟨g1, g2, g3, g4⟩ := h1
      have h2 := deeps_post (rs := rs) (fun r hr => hf r (by simp [hr])) g1
      dsimp only
      rcases hfs : deeps f s' rs with _ | (e | ⟨s'', rs'⟩)
      · rw [hfs] at h2; exact h2.elim
      · rw [hfs] at h2
        obtain ⟨h3, t, ht, h4⟩ := h2
        exact ⟨h3, t, by simp [ht], h4⟩
      · rw [hfs] at h2
        obtain ⟨k1, k2, k3, k4⟩ := h2
        refine ⟨k1, g2.trans k2, .cons (k2.mono _ _ g3) k3, fun a b hab => ?_⟩
        rcases k4 a b hab with h5 | ⟨t, ht, h5⟩
        · rcases g4 a b h5 with h6 | h6
          · exact .inl h6
          · exact .inr ⟨r, by simp, h6⟩
        · exact .inr ⟨t, by simp [ht], h5⟩

theorem deep_post : ∀ {n : Nat} {r : Ref} {v : Val}, h.read n r = some v → ∀ {s : Copying}, Good h s → Post h s r (deep n s r)
  | 0, _, _, e, _, _ => by cases e
  | n + 1, r, v, e, s, hG => by
    rw [read_succ, Option.bind_eq_some_iff] at e
    obtain ⟨o, ho, e⟩ := e
    have hr : s.store[r]? = some o := by rw [hG.ext r (List.getElem?_eq_some_iff.1 ho).1, ho]
    unfold deep
    cases hm : s.memo.lookup r with
    | some r' => exact ⟨hG, .refl s, hm, fun _ _ h => .inl h⟩
    | none =>
      simp only [hr]
      rcases new_eq o with ⟨hn, hp⟩ | ⟨hn, hp⟩
      · simp only [hn]
        have h1 := deeps_post (f := deep n) (rs := o.attrs) (fun t ht s hG => by
          rw [attrs_eq] at ht
          obtain ⟨w, hw, -⟩ := tree_part e ht
          exact deep_post hw hG) hG
        rcases hd : deeps (deep n) s o.attrs with _ | (x | ⟨s', rs⟩)
        · rw [hd] at h1; exact h1.elim
        · rw [hd] at h1
          obtain ⟨h2, t, ht, u, o', h3, h4⟩ := h1
          rw [attrs_eq] at ht
          exact ⟨h2, u, o', .part ho ht h3, h4⟩
        · rw [hd] at h1
          obtain ⟨g1, g2, g3, g4⟩ := h1
          rw [attrs_eq] at g3 g4
          have hm' : s'.memo.lookup r = none := by
            cases hm' : s'.memo.lookup r with
            | none => rfl
            | some b =>
              rcases g4 r b hm' with h5 | ⟨t, ht, h5⟩
              · rw [Copying.To, hm] at h5; cases h5
              · exact absurd h5 (Store.Reads.acyclic ⟨n + 1, by rw [read_succ, ho]; exact e⟩ ho ht)
          obtain ⟨k1, k2⟩ := g1.step hm' ho hn g3
          refine ⟨k1, g2.trans k2, To_cons.2 (.inl ⟨rfl, rfl⟩), fun a b hab => ?_⟩
          rcases To_cons.1 hab with ⟨rfl, -⟩ | ⟨-, hab⟩
          · exact .inr (.self _)
          · rcases g4 a b hab with h5 | ⟨t, ht, h5⟩
            · exact .inl h5
            · exact .inr (.part ho ht h5)
      · simp only [hn]
        exact ⟨rfl, r, o, .self r, ho, hp⟩

theorem deeps_mono {f g : Copying → Ref → Option (PyM (Copying × Ref))} (hfg : ∀ s r x, f s r = some x → g s r = some x) :
    ∀ {rs : List Ref} {s : Copying} {x}, deeps f s rs = some x → deeps g s rs = some x
  | [], _, _, e => e
  | r :: rs, s, x, e => by
    unfold deeps at e ⊢
    rcases hf : f s r with _ | (y | ⟨s', r'⟩)
    · rw [hf] at e; cases e
    · rw [hf] at e; rw [hfg _ _ _ hf]; exact e
    · rw [hf] at e
      rw [hfg _ _ _ hf]
      dsimp only at e ⊢
      rcases hd : deeps f s' rs with _ | (y | ⟨s'', rs'⟩)
      · rw [hd] at e; cases e
      · rw [hd] at e; rw [deeps_mono hfg hd]; exact e
      · rw [hd] at e; rw [deeps_mono hfg hd]; exact e

theorem deep_mono : ∀ {n : Nat} {s : Copying} {r : Ref} {x}, deep n s r = some x → deep (n + 1) s r = some x
  | 0, _, _, _, e => by cases e
  | n + 1, s, r, x, e => by
    unfold deep at e ⊢
    cases hm : s.memo.lookup r with
    | some r' => rw [hm] at e; exact e
    | none =>
      rw [hm] at e
      dsimp only at e ⊢
      cases hr : s.store[r]? with
      | none => rw [hr] at e; exact e
      | some o =>
        rw [hr] at e
        dsimp only at e ⊢
        cases hn : o.new with
        | error y => rw [hn] at e; exact e
        | ok u =>
          rw [hn] at e
          dsimp only at e ⊢
          rcases hd : deeps (deep n) s o.attrs with _ | (y | ⟨s', rs⟩)
          · rw [hd] at e; cases e
          · rw [hd] at e; rw [deeps_mono (fun _ _ _ => deep_mono) hd]; exact e
          · rw [hd] at e; rw [deeps_mono (fun _ _ _ => deep_mono) hd]; exact e

theorem deep_le {m n : Nat} (hmn : m ≤ n) {s : Copying} {r : Ref} {x} (e : deep m s r = some x) : deep n s r = some x := by
  induction hmn with
  | refl => exact e
  | step _ ih => exact deep_mono ih

theorem deepCopy_iff {n : Nat} {r : Ref} {x} (e : deep n ⟨h, []⟩ r = some x) (q : PyM (Store × Ref)) :
    h.DeepCopy r q ↔ q = x.map fun x => (x.1.store, x.2) := by
  constructor
  · rintro ⟨m, y, hy, rfl⟩
    have h1 := deep_le (le_max_left m n) hy
    have h2 := deep_le (le_max_right m n) e
    rw [h1] at h2
    cases h2
    rfl
  · rintro rfl
    exact ⟨n, x, e, rfl⟩

theorem good_start (h : Store) : Good h ⟨h, []⟩ := 
  ⟨.refl h, fun a b hab => (by cases hab), fun a a' b hab => (by cases hab)⟩

end HW.Adt
