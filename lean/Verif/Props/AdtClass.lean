import Verif.Lemmas.Adt.ClassSteps
import Verif.Spec.AdtClass

/-! # Property C59: ADT classes are interned by content -/

namespace HW

open Adt Adt.Cache Adt.Cache.Heap Adt.Cache.Spec

namespace Adt.Cache
namespace Heap

variable {E : Env} {h h' h1 h2 h3 : Heap}

theorem Inv.cached_later (hi : h.Inv) (later : Steps E h h2) {d : Nat} {key : Key}
    (ho : originOf h.classes d = some (.cached key)) (hd : d ∉ h2.dead) : find h2.cache key = some d := by
  obtain ⟨i2, M, hM⟩ := hi.steps later
  exact i2.complete d key hd (by rw [hM]; exact originOf_app ho M)

theorem Inv.origin_later (hi : h.Inv) (later : Steps E h h2) {d : Nat} {o : Origin}
    (ho : originOf h.classes d = some o) : originOf h2.classes d = some o := by
  obtain ⟨_, M, hM⟩ := hi.steps later
  rw [hM]; exact originOf_app ho M

/-- `T[...]` again. -/
theorem item_again (hist : Steps E init h) {T d : Nat} {a a' : Arg} {idx : Idx} (hT : h.Alive T)
    (he : h.getitem E T a = .ok (h1, d)) (later : Steps E (h1.hold d) h2) (held : d ∈ h2.roots)
    (ha : a.idx (h.mt T) = .ok idx) (ha' : a'.idx (h.mt T) = .ok idx) : h2.getitem E T a' = .ok (h2, d) := by
  obtain ⟨hi, _⟩ := inv_init.steps hist
  obtain ⟨idx', e', i1, x1, l1, r1⟩ := getitem_item hi hT he
  rw [ha] at e'; cases e'
  have i1' := i1.hold l1
  obtain ⟨i2, M, hM⟩ := i1'.steps later
  have hf := i1'.cached_later later r1 (i2.roots d held).2
  have hTlt : T < h1.classes.length := Nat.lt_of_lt_of_le hT.1 x1.len
  have hmt : h2.mt T = h.mt T := by
    rw [mt_eq, hM, mtOf_app (by exact hTlt)]
    exact x1.mt hT.1
  obtain ⟨k, hk, _, sh⟩ := i1.shape r1
  have hfree : h2.fields T = none := by
    rw [fields_eq, hM, fieldsOf_app (by exact hTlt)]
    exact sh.free
  unfold Heap.getitem getIdx
  rw [hmt, ha']
  simp only [bind, Except.bind, getitemF, hfree, hf]
  simp

theorem item_same (hist : Steps E init h) {T S d : Nat} {a a' : Arg} (hT : h.Alive T)
    (he : h.getitem E T a = .ok (h1, d)) (later : Steps E (h1.hold d) h2) (hS : h2.Alive S)
    (he' : h2.getitem E S a' = .ok (h3, d)) :
    T = S ∧ ∃ idx, a.idx (h.mt T) = .ok idx ∧ a'.idx (h.mt T) = .ok idx := by
  obtain ⟨hi, _⟩ := inv_init.steps hist
  obtain ⟨idx, e1, i1, x1, l1, r1⟩ := getitem_item hi hT he
  have i1' := i1.hold l1
  obtain ⟨i2, M, hM⟩ := i1'.steps later
  obtain ⟨idx', e2, i3, x3, l3, r3⟩ := getitem_item i2 hS he'
  have o2 := x3.origin (i1'.origin_later later r1)
  unfold ItemOf at r3
  rw [o2] at r3
  simp only [Option.some.injEq, Origin.cached.injEq, Key.item.injEq] at r3
  obtain ⟨rfl, rfl⟩ := r3
  have hTlt : T < h1.classes.length := Nat.lt_of_lt_of_le hT.1 x1.len
  have hmt : h2.mt T = h.mt T := by
    rw [mt_eq, hM, mtOf_app (by exact hTlt)]
    exact x1.mt hT.1
  rw [hmt] at e2
  exact ⟨rfl, idx, e1, e2⟩

/-- What `T[...]` is. -/
theorem item_facts (hist : Steps E init h) {T d : Nat} {a : Arg} (hT : h.Alive T)
    (he : h.getitem E T a = .ok (h1, d)) (later : Steps E (h1.hold d) h2) :
    ∃ idx, a.idx (h.mt T) = .ok idx ∧ h2.fields d = some idx.fields ∧ h2.unboundT d = .ok T ∧ h2.mt d = h.mt T := by
  obtain ⟨hi, _⟩ := inv_init.steps hist
  obtain ⟨idx, e1, i1, x1, l1, r1⟩ := getitem_item hi hT he
  have i1' := i1.hold l1
  obtain ⟨i2, M, hM⟩ := i1'.steps later
  obtain ⟨k, hk, _, sh⟩ := i2.shape (i1'.origin_later later r1)
  refine ⟨idx, e1, ?_, ?_, ?_⟩
  · simp only [Heap.fields, hk]; exact sh.fields
  · simp only [unboundT, hk, sh.unbound]
  · simp only [Heap.mt, hk]; rw [sh.mt]; exact (arg_idx e1).symm

end Heap
end Adt.Cache

/-- **C59** (tuples).  In any history, `T[A, B, ...]` on a tuple class `T` is bound to these fields in this
order and `unbound_t` is `T`; and as long as the program holds it, `T[A, B, ...]` is that same class. -/
theorem C59_tuple {E : Env} {h h1 h2 : Heap} (hist : Steps E init h) {T d : Nat} {l : List Nat} (hT : h.Alive T)
    (hm : h.mt T = .tuple) (he : h.getitem E T (.items l) = .ok (h1, d)) (later : Steps E (h1.hold d) h2) :
    h2.fields d = some (.tuple l) ∧ h2.unboundT d = .ok T ∧
      (d ∈ h2.roots → h2.getitem E T (.items l) = .ok (h2, d)) := by
  obtain ⟨idx, e1, e2, e3, _⟩ := item_facts hist hT he later
  have e1' := e1
  rw [hm] at e1'; cases e1'
  exact ⟨e2, e3, fun held => item_again hist hT he later held e1 e1⟩

/-- **C59** (sums).  `T[A, B, ...]` on a sum class is determined by the *set* of fields. -/
theorem C59_sum {E : Env} {h h1 h2 : Heap} (hist : Steps E init h) {T d : Nat} {l l' : List Nat} (hT : h.Alive T)
    (hm : h.mt T = .sum) (he : h.getitem E T (.items l) = .ok (h1, d)) (later : Steps E (h1.hold d) h2)
    (same : ∀ x, x ∈ l ↔ x ∈ l') :
    h2.fields d = some (.set l'.toFinset) ∧ h2.unboundT d = .ok T ∧
      (d ∈ h2.roots → h2.getitem E T (.items l') = .ok (h2, d)) := by
  have hl : l.toFinset = l'.toFinset := by ext x; simpa using same x
  obtain ⟨idx, e1, e2, e3, _⟩ := item_facts hist hT he later
  have e1' := e1
  rw [hm] at e1'; cases e1'
  refine ⟨by rw [e2, ← hl]; rfl, e3, fun held => item_again hist hT he later held e1 ?_⟩
  rw [hm, hl]; rfl

/-- **C59** (anonymous products).  `T[{a: A, ...}]` is determined by the ordered named fields. -/
theorem C59_anonymous {E : Env} {h h1 h2 : Heap} (hist : Steps E init h) {T d : Nat} {l : List (Name × Nat)}
    (hT : h.Alive T) (hm : h.mt T = .anon) (he : h.getitem E T (.mapping l) = .ok (h1, d))
    (later : Steps E (h1.hold d) h2) :
    h2.fields d = some (.tuple (l.map (·.2))) ∧ h2.unboundT d = .ok T ∧
      (d ∈ h2.roots → h2.getitem E T (.mapping l) = .ok (h2, d)) := by
  obtain ⟨idx, e1, e2, e3, _⟩ := item_facts hist hT he later
  have e1' := e1
  rw [hm] at e1'; cases e1'
  exact ⟨e2, e3, fun held => item_again hist hT he later held e1 e1⟩

/-- **C59** (different keys, different classes).  If `T[...]` and, at any later point, `S[...]` are the same
class, then `T` is `S` and the arguments agree: as tuples for a tuple class, as sets for a sum class, as ordered
mappings for an anonymous product. -/
theorem C59_getitem_injective {E : Env} {h h1 h2 h3 : Heap} (hist : Steps E init h) {T S d : Nat} {a a' : Arg}
    (hT : h.Alive T) (he : h.getitem E T a = .ok (h1, d)) (later : Steps E (h1.hold d) h2) (hS : h2.Alive S)
    (he' : h2.getitem E S a' = .ok (h3, d)) :
    T = S ∧ (h.mt T = .tuple → ∃ l, a = .items l ∧ a' = .items l) ∧
      (h.mt T = .sum → ∃ l l', a = .items l ∧ a' = .items l' ∧ ∀ x, x ∈ l ↔ x ∈ l') ∧
      (h.mt T = .anon → ∃ l, a = .mapping l ∧ a' = .mapping l) := by
  obtain ⟨e, idx, e1, e2⟩ := item_same hist hT he later hS he'
  refine ⟨e, fun hm => ?_, fun hm => ?_, fun hm => ?_⟩
  · rw [hm] at e1 e2
    cases a <;> cases a' <;> simp only [Arg.idx, Except.ok.injEq, reduceCtorEq] at e1 e2
    subst e1
    cases e2
    exact ⟨_, rfl, rfl⟩
  · rw [hm] at e1 e2
    cases a <;> cases a' <;> simp only [Arg.idx, Except.ok.injEq, reduceCtorEq] at e1 e2
    rename_i l l'
    subst e1
    refine ⟨l, l', rfl, rfl, fun x => ?_⟩
    simp only [Idx.set.injEq] at e2
    rw [← List.mem_toFinset, ← e2, List.mem_toFinset]
  · rw [hm] at e1 e2
    cases a <;> cases a' <;> simp only [Arg.idx, Except.ok.injEq, reduceCtorEq] at e1 e2
    subst e1
    cases e2
    exact ⟨_, rfl, rfl⟩

/-! ## Class statements -/

namespace Adt.Cache
namespace Heap

variable {E : Env} {h h' h1 h2 h3 : Heap}

theorem nsIdx_iff (s s' : Stmt) : nsIdx s.body = nsIdx s'.body ↔ ∀ n v, Assigns s n v ↔ Assigns s' n v := by
  have key : ∀ (t : Stmt) (n : Name) (v : Nat), (n, v) ∈ nsIdx t.body ↔ Assigns t n v := by
    intro t n v
    simp only [nsIdx, List.mem_toFinset, List.mem_map, List.mem_filter, Assigns, Prod.mk.injEq, Bool.not_eq_true',
      and_assoc]
  constructor
  · intro e n v
    rw [← key, ← key, e]
  · intro e
    ext ⟨n, v⟩
    rw [key, key, e]

theorem key_iff {m : Meta} {s s' : Stmt} (hf : s.hasFields m = true) (hf' : s'.hasFields m = true) :
    s.key m = s'.key m ↔ SameDecl m s s' := by
  simp only [Stmt.key, Key.attr.injEq, SameDecl, nsIdx_iff]
  have : fieldsIdx m s.fields = fieldsIdx m s'.fields ↔
      if m = .product then SameFields s.fields s'.fields else SameFieldSet s.fields s'.fields := by
    unfold Stmt.hasFields at hf hf'
    cases m <;> simp at hf hf' ⊢ <;> cases hs : s.fields <;> cases hs' : s'.fields <;>
      simp [hs, hs'] at hf hf' <;> simp [fieldsIdx, SameFields, SameFieldSet, Finset.ext_iff]
  rw [this]
  tauto

theorem winner_congr {bs : List Nat} (hb : ∀ b ∈ bs, h.mt b = h'.mt b) : ∀ w, h.winner w bs = h'.winner w bs := by
  induction bs with
  | nil => intro w; rfl
  | cons b bs ih =>
    intro w
    have e := hb b (by simp)
    have ih := ih fun b' hb' => hb b' (by simp [hb'])
    simp only [winner, e, ih]

/-- The metaclass of a statement stays. -/
theorem winner_later (hi : h.Inv) (later : Steps E h h2) {bs : List Nat} (hal : ∀ b ∈ bs, b < h.classes.length)
    (w : Meta) : h2.winner w bs = h.winner w bs := by
  obtain ⟨_, M, hM⟩ := hi.steps later
  exact winner_congr (fun b hb => by rw [mt_eq, mt_eq, hM, mtOf_app (hal b hb)]) w

theorem stmt_made {s : Stmt} {d : Nat} {m : Meta} (hi : h.Inv) (hal : ∀ b ∈ s.bases, h.Alive b)
    (hm : h.winner .plain s.bases = .ok m) (hf : s.hasFields m = true) (he : h.classStmt E s = .ok (h1, d)) :
    Made h h1 m s d := by
  obtain ⟨m', e, ⟨_, hmade⟩ | ⟨hf', _⟩⟩ := classStmt_ok hi hal he
  · rw [hm] at e; cases e; exact hmade
  · rw [hm] at e; cases e; rw [hf] at hf'; cases hf'

theorem Made.origin {s : Stmt} {d : Nat} {m : Meta} (hm : Made h h1 m s d) :
    originOf h1.classes d = some (if s.cache then .cached (s.key m) else .stmt) := by
  obtain ⟨k, s', hk, _, _, _, ho⟩ := hm.shape
  simp only [originOf, hk, ho]

end Heap
end Adt.Cache

/-- **C59** (products, tagged unions, enums).  In any history, a class statement (`cache=True`) with fields
returns a class; as long as the program holds it, any statement that declares the same - name, bases, attributes,
and fields, in order for a product and in any order otherwise - returns that class and makes nothing. -/
theorem C59_class {E : Env} {h h1 h2 : Heap} (hist : Steps E init h) {s s' : Stmt} {d : Nat} {m : Meta}
    (hal : ∀ b ∈ s.bases, h.Alive b) (hm : h.winner .plain s.bases = .ok m) (hf : s.hasFields m = true)
    (hc : s.cache = true) (he : h.classStmt E s = .ok (h1, d)) (later : Steps E (h1.hold d) h2)
    (held : d ∈ h2.roots) (hf' : s'.hasFields m = true) (hc' : s'.cache = true) (same : SameDecl m s s') :
    h2.classStmt E s' = .ok (h2, d) := by
  obtain ⟨hi, _⟩ := inv_init.steps hist
  have made := stmt_made hi hal hm hf he
  have i1' := made.inv.hold made.alive
  obtain ⟨i2, M, hM⟩ := i1'.steps later
  have ho := made.origin
  rw [if_pos hc] at ho
  have hfd := i1'.cached_later later ho (i2.roots d held).2
  have hlt : ∀ b ∈ s.bases, b < (h1.hold d).classes.length := fun b hb => Nat.lt_of_lt_of_le (hal b hb).1 made.ext.len
  have hw : h2.winner .plain s'.bases = .ok m := by
    rw [← same.2.1, winner_later i1' later hlt, ← hm]
    exact winner_congr (fun b hb => by
      show mtOf h1.classes b = mtOf h.classes b
      exact made.ext.mt (hal b hb).1) _
  rw [(key_iff hf hf').2 same] at hfd
  simp only [classStmt, hw, bind, Except.bind, hf', if_true, attrNew, hc', hfd]

/-- **C59** (`from_fields`).  `cls.from_fields(name, fields)` is the class that the statement
`class name(cls): fields` makes, when the body of the statement has no other attributes than dunders. -/
theorem C59_from_fields {E : Env} {h h1 h2 : Heap} (hist : Steps E init h) {c d : Nat} {n : Name} {f : FArg}
    {body : List Attr} (hc : h.Alive c) (hu : h.fields c = none) (hf : FArg.fits (h.mt c) f = true)
    (hne : f ≠ .types [] ∧ f ≠ .vals []) (hb : ∀ a ∈ body, a.dunder = true)
    (he : h.classStmt E { fields := f, name := n, bases := [c], body := body } = .ok (h1, d))
    (later : Steps E (h1.hold d) h2) (held : d ∈ h2.roots) :
    h2.fromFieldsCall E c n f true = .ok (h2, d) := by
  obtain ⟨hi, _⟩ := inv_init.steps hist
  have hm : h.winner .plain [c] = .ok (h.mt c) := by
    simp only [winner]
    split
    · rename_i e; rw [Meta.le_plain e]
    · simp [show (h.mt c).le .plain = true by cases h.mt c <;> rfl]
  have hff : ∀ b : List Attr, ({ fields := f, name := n, bases := [c], body := b } : Stmt).hasFields (h.mt c) = true := by
    intro b
    unfold Stmt.hasFields
    obtain ⟨n1, n2⟩ := hne
    unfold FArg.fits at hf
    split at hf
    · rename_i l e; rw [e]; simp only [Bool.not_eq_true', List.isEmpty_eq_false_iff]; rintro rfl; exact n1 rfl
    · rename_i l e; rw [e]; simp only [Bool.not_eq_true', List.isEmpty_eq_false_iff]; rintro rfl; exact n1 rfl
    · rename_i l e; rw [e]; simp only [Bool.not_eq_true', List.isEmpty_eq_false_iff]; rintro rfl; exact n2 rfl
    · cases hf
  have hal : ∀ b ∈ [c], h.Alive b := by simpa using hc
  have key := C59_class (s' := { fields := f, name := n, bases := [c] }) hist hal hm (hff _) rfl he later held (hff _) rfl
    ⟨rfl, rfl, fun n v => ⟨fun ⟨a, ha, hd, _⟩ => (by rw [hb a ha] at hd; cases hd), fun ⟨a, ha, _⟩ => (by cases ha)⟩,
      by split
         · rfl
         · cases f <;> simp [SameFieldSet]⟩
  have made := stmt_made hi hal hm (hff _) he
  obtain ⟨_, M, hM⟩ := (made.inv.hold made.alive).steps later
  have hlt : c < h1.classes.length := Nat.lt_of_lt_of_le hc.1 made.ext.len
  have h2m : h2.mt c = h.mt c := by
    rw [mt_eq, hM, mtOf_app (by exact hlt)]; exact made.ext.mt hc.1
  have h2f : h2.fields c = none := by
    rw [fields_eq, hM, fieldsOf_app (by exact hlt), ← hu]; exact made.ext.fields hc.1
  simp only [fromFieldsCall, h2m, hf, h2f]
  exact key

/-- **C59** (`from_fields`, which classes).  Products and tagged unions take types, enums take members; there the call
is the class statement.  The other metaclasses have no `from_fields`. -/
theorem C59_from_fields_kinds (E : Env) (h : Heap) (c : Nat) (n : Name) (cache : Bool) (hu : h.fields c = none) :
    (∀ l, h.mt c = .product ∨ h.mt c = .tagged → h.fromFieldsCall E c n (.types l) cache =
      h.classStmt E { fields := .types l, name := n, bases := [c], cache := cache }) ∧
    (∀ l, h.mt c = .enum → h.fromFieldsCall E c n (.vals l) cache =
      h.classStmt E { fields := .vals l, name := n, bases := [c], cache := cache }) ∧
    (∀ f, h.mt c ∉ [.product, .tagged, .enum] → h.fromFieldsCall E c n f cache = .error .attributeError) := by
  refine ⟨fun l hm => ?_, fun l hm => ?_, fun f hm => ?_⟩
  · rcases hm with hm | hm <;> simp [fromFieldsCall, hm, hu, FArg.fits]
  · simp [fromFieldsCall, hm, hu, FArg.fits]
  · have : FArg.fits (h.mt c) f = false := by
      cases hc : h.mt c <;> simp [hc] at hm <;> cases f <;> rfl
    simp [fromFieldsCall, this]

example : init.mt enumC = .enum ∧ init.fields enumC = none := by decide

/-- **C59** (`T[...]` of a class with fields) does not make a class: a set of types that is no alternative of a sum is a
missing key, anything else is a `TypeError`. -/
theorem C59_bound_item (E : Env) (h : Heap) (c : Nat) (idx : Idx) (hb : (h.fields c).isSome = true) :
    h.getIdx E c idx = .error (match idx with | .set _ => .keyError | _ => .typeError) := by
  simp only [getIdx, getitemF, hb, if_true]
  cases idx <;> rfl

/-- **C59** (different declarations, different classes). -/
theorem C59_class_injective {E : Env} {h h1 h2 h3 : Heap} (hist : Steps E init h) {s s' : Stmt} {d : Nat} {m m' : Meta}
    (hal : ∀ b ∈ s.bases, h.Alive b) (hm : h.winner .plain s.bases = .ok m) (hf : s.hasFields m = true)
    (hc : s.cache = true) (he : h.classStmt E s = .ok (h1, d)) (later : Steps E (h1.hold d) h2)
    (hal' : ∀ b ∈ s'.bases, h2.Alive b) (hm' : h2.winner .plain s'.bases = .ok m') (hf' : s'.hasFields m' = true)
    (hc' : s'.cache = true) (he' : h2.classStmt E s' = .ok (h3, d)) : m = m' ∧ SameDecl m s s' := by
  obtain ⟨hi, _⟩ := inv_init.steps hist
  have made := stmt_made hi hal hm hf he
  have i1' := made.inv.hold made.alive
  obtain ⟨i2, M, hM⟩ := i1'.steps later
  have ho := made.origin
  rw [if_pos hc] at ho
  have made' := stmt_made i2 hal' hm' hf' he'
  have ho' := made'.origin
  rw [if_pos hc', made'.ext.origin (i1'.origin_later later ho)] at ho'
  simp only [Option.some.injEq, Origin.cached.injEq] at ho'
  have e := key_meta hf hf' ho'
  subst e
  exact ⟨rfl, (key_iff hf hf').1 ho'⟩

/-- **C59** (a getitem class is never a class statement's class). -/
theorem C59_kinds_apart {E : Env} {h h1 h2 h3 : Heap} (hist : Steps E init h) {s : Stmt} {d T : Nat} {m : Meta} {a : Arg}
    (hal : ∀ b ∈ s.bases, h.Alive b) (hm : h.winner .plain s.bases = .ok m) (hf : s.hasFields m = true)
    (he : h.classStmt E s = .ok (h1, d)) (later : Steps E (h1.hold d) h2)
    (hT : h2.Alive T) : h2.getitem E T a ≠ .ok (h3, d) := by
  intro he'
  obtain ⟨hi, _⟩ := inv_init.steps hist
  have made := stmt_made hi hal hm hf he
  have i1' := made.inv.hold made.alive
  obtain ⟨i2, M, hM⟩ := i1'.steps later
  obtain ⟨idx, _, _, x3, _, r3⟩ := getitem_item i2 hT he'
  unfold ItemOf at r3
  rw [x3.origin (i1'.origin_later later made.origin)] at r3
  split at r3
  · simp [Stmt.key] at r3
  · cases r3

/-- **C59** (`cache=False`).  The class is new - no class made before is it - and no later class statement
or getitem returns it. -/
theorem C59_uncached {E : Env} {h h1 h2 : Heap} (hist : Steps E init h) {s : Stmt} {d : Nat} {m : Meta}
    (hal : ∀ b ∈ s.bases, h.Alive b) (hm : h.winner .plain s.bases = .ok m) (hf : s.hasFields m = true)
    (hc : s.cache = false) (he : h.classStmt E s = .ok (h1, d)) (later : Steps E (h1.hold d) h2) :
    ¬ d < h.classes.length ∧
      (∀ s' m' h3 e, (∀ b ∈ s'.bases, h2.Alive b) → h2.winner .plain s'.bases = .ok m' → s'.hasFields m' = true →
        h2.classStmt E s' = .ok (h3, e) → e ≠ d) ∧
      (∀ T a h3 e, h2.Alive T → h2.getitem E T a = .ok (h3, e) → e ≠ d) := by
  obtain ⟨hi, _⟩ := inv_init.steps hist
  have made := stmt_made hi hal hm hf he
  have i1' := made.inv.hold made.alive
  obtain ⟨i2, M, hM⟩ := i1'.steps later
  refine ⟨by have := made.fresh hc; omega, fun s' m' h3 e hal' hm' hf' he' hed => ?_, fun T a h3 e hT he' hed => ?_⟩
  · subst hed
    have made' := stmt_made i2 hal' hm' hf' he'
    have ho := made.origin
    rw [hc] at ho
    cases hc' : s'.cache with
    | true =>
      have ho' := made'.origin
      rw [if_pos hc', made'.ext.origin (i1'.origin_later later ho)] at ho'
      cases ho'
    | false =>
      have := made'.fresh hc'
      have hd := originOf_lt (i1'.origin_later later ho)
      omega
  · subst hed
    exact C59_kinds_apart hist hal hm hf he later hT he'

/-- **C59** (what a `Product` or `TaggedUnion` is bound to, and how it was declared). -/
theorem C59_fields {E : Env} {h h1 : Heap} (hist : Steps E init h) {s : Stmt} {d : Nat} {l : List (Name × Nat)}
    (hal : ∀ b ∈ s.bases, h.Alive b) (hl : s.fields = .types l) (hne : l ≠ [])
    (he : h.classStmt E s = .ok (h1, d)) :
    (h.winner .plain s.bases = .ok .product → h1.fields d = some (.tuple (l.map (·.2)))) ∧
    (h.winner .plain s.bases = .ok .tagged → h1.fields d = some (.set (l.map (·.2)).toFinset)) := by
  obtain ⟨hi, _⟩ := inv_init.steps hist
  have aux : ∀ m, m = .product ∨ m = .tagged → h.winner .plain s.bases = .ok m →
      ∃ s' : Stmt, SameDecl m s s' ∧ s'.hasFields m = true ∧ ∃ bm idx, s'.base m = some (bm, idx) ∧ h1.fields d = some idx.fields := by
    intro m hpt hm
    have hf : s.hasFields m = true := by
      rcases hpt with rfl | rfl <;> simp [Stmt.hasFields, hl, hne]
    have made := stmt_made hi hal hm hf he
    obtain ⟨k, s', hk, sh, hkey, _, _⟩ := made.shape
    have hf' : s'.hasFields m = true := by
      simp only [Stmt.key, Key.attr.injEq] at hkey
      have := hkey.1
      rcases hpt with rfl | rfl <;> rw [hl] at this <;> cases hs : s'.fields <;>
        simp [hs, fieldsIdx] at this <;> simp [Stmt.hasFields, hs]
      · rw [this]; exact hne
      · rintro rfl
        simp only [List.toFinset_nil] at this
        exact hne ((List.toFinset_eq_empty_iff _).1 this.symm)
    refine ⟨s', (key_iff hf hf').1 hkey.symm, hf', ?_⟩
    rcases sh.bases with ⟨bm, idx, b, e, h1', _, _, _, _, h6, _⟩ | ⟨_, h2', _⟩
    · exact ⟨bm, idx, h1', by simp only [Heap.fields, hk]; exact h6⟩
    · subst h2'; rcases hpt with h | h <;> cases h
  constructor
  · intro hm
    obtain ⟨s', ⟨_, _, _, same⟩, hf', bm, idx, hb, hfd⟩ := aux .product (Or.inl rfl) hm
    simp only [if_true, SameFields] at same
    rw [hl] at same
    simp only [Stmt.base, ← same, Option.some.injEq, Prod.mk.injEq] at hb
    rw [hfd, ← hb.2]; rfl
  · intro hm
    obtain ⟨s', ⟨_, _, _, same⟩, hf', bm, idx, hb, hfd⟩ := aux .tagged (Or.inr rfl) hm
    rw [if_neg (by nofun), hl] at same
    cases hs : s'.fields with
    | vals l' => rw [hs] at same; exact same.elim
    | types l' =>
      rw [hs] at same
      simp only [Stmt.base, hs, Option.some.injEq, Prod.mk.injEq] at hb
      rw [hfd, ← hb.2]
      simp only [Idx.fields, Option.some.injEq, Fields.set.injEq]
      ext x
      simp only [List.mem_toFinset, List.mem_map]
      constructor
      · rintro ⟨y, hy, rfl⟩; exact ⟨y, (same y).2 hy, rfl⟩
      · rintro ⟨y, hy, rfl⟩; exact ⟨y, (same y).1 hy, rfl⟩

/-! ### Examples and a negation -/

namespace Adt.Cache

/-- `type()` accepts everything. -/
def demoEnv : Env := ⟨fun _ _ _ => true⟩

/-- `class A: ...`, `class B: ...` (classes 7 and 8). -/
def demoHeap : Heap := { init with
  classes := initClasses ++ [{ mt := .plain, bases := [0], name := some 1 }, { mt := .plain, bases := [0], name := some 2 }]
  roots := 8 :: 7 :: init.roots }

def demoHeap1 : Heap := { init with
  classes := initClasses ++ [{ mt := .plain, bases := [0], name := some 1 }], roots := 7 :: init.roots }

theorem demoHeap_reachable : Steps demoEnv init demoHeap := by
  refine .tail (b := demoHeap1) (.tail (.refl _) ?_) ?_
  · exact Step.stmt (h := init) (h' := { demoHeap1 with roots := init.roots })
      (s := { fields := .types [], name := 1, bases := [0] }) (t := 7) (by simp)
      (by simp [Alive, init, initClasses]) (by simp [FArg.ids]) rfl
  · exact Step.stmt (h := demoHeap1) (h' := { demoHeap with roots := 7 :: init.roots })
      (s := { fields := .types [], name := 2, bases := [0] }) (t := 8) (by simp)
      (by simp [Alive, demoHeap1, init, initClasses]) (by simp [FArg.ids]) rfl

/-- `class P(Product): x = A; y = B`, and the same with a dunder attribute in the body. -/
def demoStmt : Stmt := { fields := .types [(1, 7), (2, 8)], name := 5, bases := [productC] }
def demoStmt' : Stmt := { demoStmt with body := [⟨9, true, 1⟩] }

/-- `class U(TaggedUnion): x = A; y = B` in both orders. -/
def demoTagged : Stmt := { fields := .types [(1, 7), (2, 8)], name := 5, bases := [taggedC] }
def demoTagged' : Stmt := { fields := .types [(2, 8), (1, 7)], name := 5, bases := [taggedC] }

/-- The heap after an operation. -/
def after (r : PyM (Heap × Nat)) : Heap := match r with
  | .ok x => x.1
  | .error _ => init
def result (r : PyM (Heap × Nat)) : Option Nat := match r with
  | .ok x => some x.2
  | .error _ => none

end Adt.Cache

example : result (demoHeap.getitem demoEnv tupleC (.items [7, 8])) = some 9 ∧
    (after (demoHeap.getitem demoEnv tupleC (.items [7, 8]))).fields 9 = some (.tuple [7, 8]) ∧
    result ((after (demoHeap.getitem demoEnv tupleC (.items [7, 8]))).getitem demoEnv tupleC (.items [7, 8])) = some 9 ∧
    result ((after (demoHeap.getitem demoEnv tupleC (.items [7, 8]))).getitem demoEnv tupleC (.items [8, 7])) = some 10 := by
  decide

example : result (demoHeap.getitem demoEnv sumC (.items [7, 8])) = some 9 ∧
    result ((after (demoHeap.getitem demoEnv sumC (.items [7, 8]))).getitem demoEnv sumC (.items [8, 7, 8])) = some 9 := by
  decide

/-- `AnonymousProduct[{x: A, y: B}]` also makes `Tuple[A, B]`. -/
example : result (demoHeap.getitem demoEnv anonC (.mapping [(1, 7), (2, 8)])) = some 10 ∧
    (after (demoHeap.getitem demoEnv anonC (.mapping [(1, 7), (2, 8)]))).bases 10 = [2, 9] ∧
    (after (demoHeap.getitem demoEnv anonC (.mapping [(1, 7), (2, 8)]))).fields 9 = some (.tuple [7, 8]) := by
  decide

example : demoHeap.winner .plain demoStmt.bases = .ok .product ∧ demoStmt.hasFields .product = true ∧
    result (demoHeap.classStmt demoEnv demoStmt) = some 11 ∧
    (after (demoHeap.classStmt demoEnv demoStmt)).bases 11 = [3, 10] ∧
    (after (demoHeap.classStmt demoEnv demoStmt)).fields 11 = some (.tuple [7, 8]) ∧
    (after (demoHeap.classStmt demoEnv demoStmt)).unboundT 11 = .ok 3 ∧
    result ((after (demoHeap.classStmt demoEnv demoStmt)).classStmt demoEnv { demoStmt with cache := false }) = some 12 := by
  decide

example : (after (demoHeap.classStmt demoEnv demoTagged)).bases 10 = [5, 9] ∧
    ((after (demoHeap.classStmt demoEnv demoTagged)).hold 10).classStmt demoEnv demoTagged' =
      .ok ((after (demoHeap.classStmt demoEnv demoTagged)).hold 10, 10) :=
  ⟨by decide, C59_class (s := demoTagged) (s' := demoTagged') (m := .tagged) demoHeap_reachable
    (by simp [Alive, demoTagged, taggedC, demoHeap, init, initClasses]) rfl rfl rfl rfl (.refl _) (by simp [hold]) rfl rfl
    ⟨rfl, rfl, fun n v => Iff.rfl, by
      simp only [if_neg (show ¬ Meta.tagged = .product by nofun), demoTagged, demoTagged', SameFieldSet]
      intro x; simp only [List.mem_cons, List.not_mem_nil, or_false]; exact or_comm⟩⟩

/-- **C59** (negation: a class statement can be ignored).  Two statements whose bodies differ in a dunder
attribute (`__repr__`, `__init__`, `__call__`, ...) share a key: the second returns the class of the first, with
the first one's body. -/
theorem C59_dunder_negation : ∃ (h : Heap) (s s' : Stmt) (h1 : Heap) (d : Nat), Steps demoEnv init h ∧
    h.classStmt demoEnv s = .ok (h1, d) ∧ s.body ≠ s'.body ∧ (h1.hold d).classStmt demoEnv s' = .ok (h1.hold d, d) ∧
    ∃ k, h1.classes[d]? = some k ∧ k.body = s.body :=
  ⟨demoHeap, demoStmt, demoStmt', _, 11, demoHeap_reachable, rfl, by decide, rfl, _, rfl, rfl⟩

/-- **C59** (the general form of the above). -/
theorem C59_dunder_ignored {E : Env} {h h1 h2 : Heap} (hist : Steps E init h) {s : Stmt} {d : Nat} {m : Meta}
    (hal : ∀ b ∈ s.bases, h.Alive b) (hm : h.winner .plain s.bases = .ok m) (hf : s.hasFields m = true)
    (hc : s.cache = true) (he : h.classStmt E s = .ok (h1, d)) (new : h.classes.length ≤ d)
    (later : Steps E (h1.hold d) h2) (held : d ∈ h2.roots) (extra : List Attr) (hx : ∀ a ∈ extra, a.dunder = true) :
    h2.classStmt E { s with body := s.body ++ extra } = .ok (h2, d) ∧
      ∃ k, h2.classes[d]? = some k ∧ k.body = s.body := by
  refine ⟨C59_class hist hal hm hf hc he later held hf hc ⟨rfl, rfl, fun n v => ?_, ?_⟩, ?_⟩
  · simp only [Assigns, List.mem_append]
    constructor
    · rintro ⟨a, h1, h2⟩; exact ⟨a, Or.inl h1, h2⟩
    · rintro ⟨a, h1 | h1, h2⟩
      · exact ⟨a, h1, h2⟩
      · rw [hx a h1] at h2; cases h2.1
  · split
    · rfl
    · cases s.fields <;> simp [SameFieldSet]
  · obtain ⟨hi, _⟩ := inv_init.steps hist
    have made := stmt_made hi hal hm hf he
    obtain ⟨_, M, hM⟩ := (made.inv.hold made.alive).steps later
    obtain ⟨k, s', hk, sh, _, hs, _⟩ := made.shape
    refine ⟨k, ?_, by rw [sh.body, hs new]⟩
    rw [hM, get_app (by exact lt_of_get hk)]; exact hk

end HW
