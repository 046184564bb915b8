import Mathlib.Tactic.Common
import Verif.Model.TypedProperty

/-! # Property C118: typed properties (util.py:43-126) -/

namespace HW
open TProp

namespace Spec

/-- A property as a value: its type and functions. -/
structure Decl where
  T : Ty
  get : Option Fn
  set : Option Fn
  del : Option Fn

/-- `p.getter(f)` etc. of Python's `property`: the other two functions are kept. -/
def Decl.dec (p : Decl) (f : Fn) : Dec → Decl
  | .getter => { p with get := some f }
  | .setter => { p with set := some f }
  | .deleter => { p with del := some f }

/-- What a class body declares, read as a sequence of assignments of values: `none` if it uses an unbound name. -/
def declares (Γ : Name → Option Decl) : List Stmt → Option (Name → Option Decl)
  | [] => some Γ
  | .make n T :: ts => declares (Function.update Γ n (some ⟨T, none, none, none⟩)) ts
  | .typed n T f :: ts => declares (Function.update Γ n (some ⟨T, some f, none, none⟩)) ts
  | .apply n src f :: ts => match Γ src with
      | some p => declares (Function.update Γ n (some ⟨p.T, some f, none, none⟩)) ts
      | none => none
  | .dec n src d f :: ts => match Γ src with
      | some p => declares (Function.update Γ n (some (p.dec f d))) ts
      | none => none
  | .copy n src :: ts => match Γ src with
      | some p => declares (Function.update Γ n (some p)) ts
      | none => none

end Spec

namespace TProp
variable {docOf : Fn → Option Nat}

def Obj.decl (o : Obj) : Spec.Decl := ⟨o.T, o.fget, o.fset, o.fdel⟩

/-- The names denote the declared properties. -/
def Den (s : State) (Γ : Name → Option Spec.Decl) : Prop := ∀ n,
  match Γ n with
  | none => s.lookup n = none
  | some p => ∃ i o, s.lookup n = some i ∧ s.store[i]? = some o ∧ o.decl = p

theorem lookup_bind (s : State) (n n' : Name) (i : Nat) : (s.bind n i).lookup n' = if n = n' then some i else s.lookup n' := by
  unfold State.lookup State.bind
  by_cases h : n = n' <;> simp [h]

/-- Binding a name, the store extended. -/
theorem Den.bind {s : State} {Γ : Name → Option Spec.Decl} (h : Den s Γ) {st : List Obj} (hst : ∃ M, st = s.store ++ M) {n : Name}
    {i : Nat} {o : Obj} (ho : st[i]? = some o) : Den (State.bind { s with store := st } n i) (Function.update Γ n (some o.decl)) := by
  obtain ⟨M, rfl⟩ := hst
  intro n'
  rw [lookup_bind]
  by_cases hn : n = n'
  · subst hn
    simp only [Function.update_self, if_true]
    exact ⟨i, o, rfl, ho, rfl⟩
  · rw [Function.update_of_ne (Ne.symm hn), if_neg hn]
    have := h n'
    cases hΓ : Γ n' with
    | none => rw [hΓ] at this; exact this
    | some p =>
      rw [hΓ] at this
      obtain ⟨j, o', h1, h2, h3⟩ := this
      exact ⟨j, o', h1, by
        show (s.store ++ M)[j]? = _
        rw [List.getElem?_append_left (List.getElem?_eq_some_iff.1 h2).1]; exact h2, h3⟩

theorem call_new (st : List Obj) (o : Obj) (g w d : Option Fn) (doc : Option Nat) :
    ∃ o', call docOf (st ++ [o]) st.length g w d doc = st ++ [o'] ∧ o'.decl = ⟨o.T, g, w, d⟩ := by
  refine ⟨{ o with fget := g, fset := w, fdel := d, doc := match doc, g with
      | some d, _ => some d
      | none, some f => docOf f
      | none, none => none }, ?_, rfl⟩
  unfold call
  induction st with
  | nil => rfl
  | cons a st ih => simpa using ih

theorem decorate_new (st : List Obj) (o : Obj) (d : Dec) (f : Fn) :
    ∃ o', decorate docOf st o d f = (st ++ [o'], st.length) ∧ o'.decl = o.decl.dec f d := by
  unfold decorate new
  cases d
  · obtain ⟨o', h1, h2⟩ := call_new (docOf := docOf) st { T := o.T } (some f) o.fset o.fdel o.doc
    exact ⟨o', by simp only [h1], h2⟩
  · obtain ⟨o', h1, h2⟩ := call_new (docOf := docOf) st { T := o.T } o.fget (some f) o.fdel o.doc
    exact ⟨o', by simp only [h1], h2⟩
  · obtain ⟨o', h1, h2⟩ := call_new (docOf := docOf) st { T := o.T } o.fget o.fset (some f) o.doc
    exact ⟨o', by simp only [h1], h2⟩

theorem run_den (body : List Stmt) (hb : ∀ n src f, Stmt.apply n src f ∉ body) : ∀ {s : State} {Γ : Name → Option Spec.Decl}, Den s Γ →
    match Spec.declares Γ body with
    | some Δ => ∃ s', s.run docOf body = .ok s' ∧ Den s' Δ
    | none => s.run docOf body = .error .nameError := by
  induction body with
  | nil => intro s Γ h; exact ⟨s, rfl, h⟩
  | cons t ts ih =>
    intro s Γ h
    have ih' := fun {s Γ} => @ih (fun n src f hx => hb n src f (List.mem_cons_of_mem _ hx)) s Γ
    cases t with
    | make n T =>
      have := h.bind (st := s.store ++ [{ T := T }]) ⟨_, rfl⟩ (n := n) (i := s.store.length) (o := { T := T }) (by simp)
      exact ih' this
    | typed n T f =>
      obtain ⟨o', h1, h2⟩ := call_new (docOf := docOf) s.store { T := T } (some f) none none none
      have := h.bind (st := s.store ++ [o']) ⟨_, rfl⟩ (n := n) (i := s.store.length) (o := o') (by simp)
      rw [h2] at this
      have := ih' this
      simp only [Spec.declares, State.run, State.exec, new, h1]
      exact this
    | apply n src f => exact absurd (by simp) (hb n src f)
    | dec n src d f =>
      have hs := h src
      simp only [Spec.declares, State.run, State.exec]
      cases hΓ : Γ src with
      | none =>
        rw [hΓ] at hs
        dsimp only at hs ⊢
        rw [hs]; rfl
      | some p =>
        rw [hΓ] at hs
        obtain ⟨i, o, h1, h2, h3⟩ := hs
        obtain ⟨o', h4, h5⟩ := decorate_new (docOf := docOf) s.store o d f
        have := h.bind (st := s.store ++ [o']) ⟨_, rfl⟩ (n := n) (i := s.store.length) (o := o') (by simp)
        rw [h5, h3] at this
        have := ih' this
        simp only [h1, h2, h4]
        exact this
    | copy n src =>
      have hs := h src
      simp only [Spec.declares, State.run, State.exec]
      cases hΓ : Γ src with
      | none =>
        rw [hΓ] at hs
        dsimp only at hs ⊢
        rw [hs]; rfl
      | some p =>
        rw [hΓ] at hs
        obtain ⟨i, o, h1, h2, h3⟩ := hs
        have := h.bind (st := s.store) ⟨[], by simp⟩ (n := n) h2
        rw [h3] at this
        have := ih' this
        simp only [h1]
        exact this

theorem setName_get (st : List Obj) (i j : Nat) :
    (setName st i)[j]? = (st[j]?).map fun o => if i = j then { o with final := true } else o := by
  unfold setName
  rw [List.getElem?_modify]
  cases st[j]? with
  | none => rfl
  | some o => by_cases h : i = j <;> simp [h]

/-- Making the class marks exactly the bound attributes. -/
theorem makeClass_get (s : State) (names : List Name) : ∀ (st : List Obj) (j : Nat),
    (names.foldl s.mark st)[j]? =
      (st[j]?).map fun o => if ∃ n ∈ names, s.lookup n = some j then { o with final := true } else o := by
  induction names with
  | nil => intro st j; simp
  | cons n ns ih =>
    intro st j
    rw [List.foldl_cons, ih]
    unfold State.mark
    cases hl : s.lookup n with
    | none => simp [hl]
    | some i =>
      dsimp only
      rw [setName_get, Option.map_map]
      congr 1
      funext o
      simp only [Function.comp]
      by_cases h1 : i = j
      · subst h1
        simp [hl]
      · by_cases h2 : ∃ n ∈ ns, s.lookup n = some j
        · have : ∃ n_1 ∈ n :: ns, s.lookup n_1 = some j := by
            obtain ⟨a, b, c⟩ := h2; exact ⟨a, List.mem_cons_of_mem _ b, c⟩
          rw [if_pos h2, if_pos this, if_neg h1]
        · have : ¬ ∃ n_1 ∈ n :: ns, s.lookup n_1 = some j := by
            rintro ⟨a, b, c⟩
            rcases List.mem_cons.1 b with rfl | b
            · rw [hl] at c; exact h1 (Option.some.inj c)
            · exact h2 ⟨a, b, c⟩
          rw [if_neg h2, if_neg this, if_neg h1]

theorem lookup_mem {s : State} {n : Name} {i : Nat} (h : s.lookup n = some i) : n ∈ s.names.map (·.1) := by
  unfold State.lookup at h
  cases hf : s.names.find? (fun e => e.1 == n) with
  | none => rw [hf] at h; cases h
  | some e =>
    have h1 := List.mem_of_find?_eq_some hf
    have h2 := List.find?_some hf
    simp at h2
    exact List.mem_map.2 ⟨e, h1, h2⟩

end TProp

/-- **C118** a class body that makes typed properties with `TypedProperty(T)` and `getter`, `setter`, `deleter`, in any order and
across names, declares what it would with Python's `property`: no statement changes a property declared before.  In the
class each attribute reads as its type; on instances the last declared functions are called, assignment only with an
instance of the type.  A missing function raises `AttributeError`, also when the value is of the wrong type. -/
theorem C118_properties_partial (docOf : Fn → Option Nat) (body : List Stmt) (hb : ∀ n src f, Stmt.apply n src f ∉ body)
    (inst : Nat → Ty → Bool) :
    match Spec.declares (fun _ => none) body with
    | none => TProp.init.run docOf body = .error .nameError
    | some Γ => ∃ s, TProp.init.run docOf body = .ok s ∧ ∀ n,
        match Γ n with
        | none => s.makeClass.clsGet n = .error .attributeError
        | some p => s.makeClass.clsGet n = .ok (.type p.T) ∧
            s.makeClass.get n = p.get.elim (.error .attributeError) .ok ∧
            s.makeClass.del n = p.del.elim (.error .attributeError) .ok ∧
            ∀ v, s.makeClass.set inst n v =
              p.set.elim (.error .attributeError) fun f => if inst v p.T then .ok f else .error .typeError := by
  have := run_den (docOf := docOf) body hb (s := TProp.init) (Γ := fun _ => none) (fun n => rfl)
  cases hΓ : Spec.declares (fun _ => none) body with
  | none => rw [hΓ] at this; exact this
  | some Γ =>
    rw [hΓ] at this
    obtain ⟨s, h1, h2⟩ := this
    refine ⟨s, h1, fun n => ?_⟩
    have hn := h2 n
    have hlk : s.makeClass.lookup n = s.lookup n := rfl
    cases hp : Γ n with
    | none =>
      rw [hp] at hn
      dsimp only at hn ⊢
      simp only [State.clsGet, hlk, hn]
    | some p =>
      rw [hp] at hn
      obtain ⟨i, o, a1, a2, rfl⟩ := hn
      have hst : s.makeClass.store[i]? = some { o with final := true } := by
        unfold State.makeClass
        dsimp only
        rw [makeClass_get, a2, Option.map_some, if_pos ⟨n, lookup_mem a1, a1⟩]
      refine ⟨?_, ?_, ?_, fun v => ?_⟩
      · simp only [State.clsGet, hlk, a1, hst, if_true]; rfl
      · simp only [State.get, hlk, a1, hst]; unfold Obj.decl; cases o.fget <;> rfl
      · simp only [State.del, hlk, a1, hst]; unfold Obj.decl; cases o.fdel <;> rfl
      · simp only [State.set, hlk, a1, hst]; unfold Obj.decl; cases o.fset <;> rfl

/-- **C118** until the class is made the name is the property object, on which further decorators work. -/
theorem C118_body (docOf : Fn → Option Nat) (body : List Stmt) (hb : ∀ n src f, Stmt.apply n src f ∉ body) {s : State}
    (h : TProp.init.run docOf body = .ok s) (n src : Name) (d : Dec) (f : Fn) :
    (∃ i, s.lookup src = some i) ↔ ∃ s', TProp.init.run docOf (body ++ [.dec n src d f]) = .ok s' := by
  have hrun : ∀ (l : List Stmt) (s0 : State) (t : Stmt), s0.run docOf (l ++ [t]) = (s0.run docOf l >>= fun s => s.exec docOf t) := by
    intro l
    induction l with
    | nil =>
      intro s0 t
      show (s0.exec docOf t >>= fun s => Except.ok s) = s0.exec docOf t
      cases s0.exec docOf t <;> rfl
    | cons a l ih =>
      intro s0 t
      simp only [List.cons_append, State.run]
      cases s0.exec docOf a with
      | error e => rfl
      | ok s1 => exact ih s1 t
  rw [hrun, h]
  constructor
  · rintro ⟨i, hi⟩
    have := run_den (docOf := docOf) body hb (s := TProp.init) (Γ := fun _ => none) (fun n => rfl)
    rw [h] at this
    cases hΓ : Spec.declares (fun _ => none) body with
    | none => rw [hΓ] at this; cases this
    | some Γ =>
      rw [hΓ] at this
      obtain ⟨s', e, hd⟩ := this
      cases e
      have := hd src
      cases hs : Γ src with
      | none => rw [hs] at this; dsimp only at this; rw [hi] at this; cases this
      | some p =>
        rw [hs] at this
        obtain ⟨j, o, a1, a2, _⟩ := this
        exact ⟨_, by simp only [bind, Except.bind, State.exec, a1, a2]; rfl⟩
  · rintro ⟨s', hs'⟩
    cases hl : s.lookup src with
    | some i => exact ⟨i, rfl⟩
    | none =>
      have : State.exec docOf s (.dec n src d f) = .ok s' := hs'
      simp only [State.exec, hl] at this
      cases this

/-- **C118 refuted** for a property object used as decorator twice: `t = TypedProperty(T)`, `@t def foo`, `@t def bar` makes `foo`
and `bar` one property, whose getter is `bar`'s. -/
theorem C118_reuse_refuted (docOf : Fn → Option Nat) (T : Ty) (f g : Fn) :
    ∃ s, TProp.init.run docOf [.make 0 T, .apply 1 0 f, .apply 2 0 g] = .ok s ∧ s.makeClass.get 1 = .ok g ∧
      ∃ Γ p, Spec.declares (fun _ => none) [.make 0 T, .apply 1 0 f, .apply 2 0 g] = some Γ ∧ Γ 1 = some p ∧ p.get = some f :=
  ⟨_, rfl, rfl, _, ⟨T, some f, none, none⟩, rfl, by simp [Function.update], rfl⟩

/-! `@TypedProperty(int) def x`, `@x.setter def x`, `@x.deleter def y`. -/
example : ∃ s, TProp.init.run (fun _ => none) [.typed 0 7 10, .dec 0 0 .setter 11, .dec 1 0 .deleter 12] = .ok s ∧
    s.makeClass.clsGet 0 = .ok (.type 7) ∧ s.makeClass.get 1 = .ok 10 ∧ s.makeClass.del 1 = .ok 12 ∧
    s.makeClass.del 0 = .error .attributeError ∧ s.makeClass.set (fun v _ => v == 3) 1 4 = .error .typeError ∧
    s.clsGet 0 = .ok (.prop 1) := ⟨_, rfl, rfl, rfl, rfl, rfl, rfl, rfl⟩

example := C118_properties_partial (fun _ => none) [.typed 0 7 10, .dec 0 0 .setter 11] (by simp) (fun _ _ => true)

end HW
