import Mathlib.Data.List.Forall2
import Verif.Model.Adt.ClassCache

/-! # Invariant of the class and modifier caches -/

namespace HW.Adt.Cache

theorem bind_ok {α β : Type} {x : PyM α} {f : α → PyM β} {b : β} (h : (x >>= f) = .ok b) :
    ∃ a, x = .ok a ∧ f a = .ok b := by
  cases x with
  | error e => cases h
  | ok a => exact ⟨a, rfl, h⟩

/-! ## Tables -/

theorem find_nil {α β : Type} [DecidableEq α] (a : α) : find ([] : List (α × β)) a = none := rfl

theorem find_cons {α β : Type} [DecidableEq α] (x : α) (y : β) (l : List (α × β)) (a : α) :
    find ((x, y) :: l) a = if x = a then some y else find l a := by
  unfold find
  rw [List.find?_cons]
  by_cases e : x = a <;> simp [e]

theorem find_mem {α β : Type} [DecidableEq α] {a : α} {b : β} : ∀ {l : List (α × β)}, find l a = some b → (a, b) ∈ l
  | [], h => by cases h
  | (x, y) :: l, h => by
    rw [find_cons] at h
    split at h
    · rename_i e; cases h; rw [e]; simp
    · exact List.mem_cons_of_mem _ (find_mem h)

theorem find_isSome_of_mem {α β : Type} [DecidableEq α] {a : α} {b : β} : ∀ {l : List (α × β)}, (a, b) ∈ l →
    ∃ c, find l a = some c ∧ (a, c) ∈ l
  | [], h => by cases h
  | (x, y) :: l, h => by
    rw [find_cons]
    split
    · rename_i e; subst e; exact ⟨y, rfl, by simp⟩
    · rename_i e
      simp only [List.mem_cons, Prod.mk.injEq] at h
      rcases h with ⟨rfl, _⟩ | h
      · exact absurd rfl e
      · obtain ⟨c, h1, h2⟩ := find_isSome_of_mem h
        exact ⟨c, h1, List.mem_cons_of_mem _ h2⟩

theorem find_filter_val {α β : Type} [DecidableEq α] {a : α} {b : β} (p : β → Bool) (hp : p b = true) :
    ∀ {l : List (α × β)}, find l a = some b → find (l.filter fun e => p e.2) a = some b
  | [], h => by cases h
  | (x, y) :: l, h => by
    rw [find_cons] at h
    split at h
    · rename_i e; cases h
      rw [List.filter_cons_of_pos (by simpa using hp), find_cons, if_pos e]
    · rename_i e
      by_cases hy : p y = true
      · rw [List.filter_cons_of_pos (by simpa using hy), find_cons, if_neg e]
        exact find_filter_val p hp h
      · rw [List.filter_cons_of_neg (by simpa using hy)]
        exact find_filter_val p hp h

theorem find_filter_key {α β : Type} [DecidableEq α] (p : α → Bool) (a : α) :
    ∀ (l : List (α × β)), find (l.filter fun e => p e.1) a = if p a = true then find l a else none
  | [] => by simp [find_nil]
  | (x, y) :: l => by
    by_cases hx : p x = true
    · rw [List.filter_cons_of_pos (by simpa using hx), find_cons, find_cons, find_filter_key p a l]
      by_cases e : x = a
      · subst e; simp [hx]
      · simp [e]
    · rw [List.filter_cons_of_neg (by simpa using hx), find_cons, find_filter_key p a l]
      by_cases e : x = a
      · subst e; simp [hx]
      · simp [e]

/-! ## Views of the class list -/

def mtOf (L : List Class) (c : Nat) : Meta := match L[c]? with
  | some k => k.mt
  | none => .plain
def basesOf (L : List Class) (c : Nat) : List Nat := match L[c]? with
  | some k => k.bases
  | none => []
def fieldsOf (L : List Class) (c : Nat) : Option Fields := match L[c]? with
  | some k => k.fields
  | none => none
def originOf (L : List Class) (c : Nat) : Option Origin := match L[c]? with
  | some k => some k.origin
  | none => none

/-- The metaclass whose getitem takes this kind of index. -/
def Idx.mt : Idx → Meta
  | .tup _ => .tuple
  | .set _ => .sum
  | .dict _ => .anon

theorem Meta.le_antisymm : ∀ {a b : Meta}, a.le b = true → b.le a = true → a = b := by
  intro a b; cases a <;> cases b <;> simp [Meta.le]
theorem Meta.le_trans : ∀ {a b c : Meta}, a.le b = true → b.le c = true → a.le c = true := by
  intro a b c; cases a <;> cases b <;> cases c <;> simp [Meta.le]
theorem Meta.le_refl (a : Meta) : a.le a = true := by cases a <;> rfl
theorem Meta.le_plain {a : Meta} : Meta.plain.le a = true → a = .plain := by cases a <;> simp [Meta.le]

theorem Idx.mt_ne (i : Idx) : i.mt ≠ .plain := by cases i <;> simp [Idx.mt]

theorem lt_of_get {L : List Class} {c : Nat} {k : Class} (h : L[c]? = some k) : c < L.length := by
  by_contra hc
  rw [List.getElem?_eq_none (by omega)] at h; cases h

theorem get_app {L M : List Class} {c : Nat} (hc : c < L.length) : (L ++ M)[c]? = L[c]? :=
  List.getElem?_append_left hc

theorem get_push {L : List Class} {k k' : Class} {c : Nat} (h : (L ++ [k])[c]? = some k') :
    (c < L.length ∧ L[c]? = some k') ∨ (c = L.length ∧ k' = k) := by
  rcases Nat.lt_trichotomy c L.length with hc | hc | hc
  · rw [get_app hc] at h; exact Or.inl ⟨hc, h⟩
  · subst hc
    rw [List.getElem?_append_right (Nat.le_refl _)] at h
    simp at h; exact Or.inr ⟨rfl, h.symm⟩
  · rw [List.getElem?_eq_none (by simp; omega)] at h; cases h

theorem mtOf_app {L M : List Class} {c : Nat} (hc : c < L.length) : mtOf (L ++ M) c = mtOf L c := by
  simp only [mtOf, get_app hc]
theorem basesOf_app {L M : List Class} {c : Nat} (hc : c < L.length) : basesOf (L ++ M) c = basesOf L c := by
  simp only [basesOf, get_app hc]
theorem fieldsOf_app {L M : List Class} {c : Nat} (hc : c < L.length) : fieldsOf (L ++ M) c = fieldsOf L c := by
  simp only [fieldsOf, get_app hc]
theorem originOf_app' {L M : List Class} {c : Nat} (hc : c < L.length) : originOf (L ++ M) c = originOf L c := by
  simp only [originOf, get_app hc]

theorem originOf_lt {L : List Class} {c : Nat} {o : Origin} (h : originOf L c = some o) : c < L.length := by
  unfold originOf at h
  cases hk : L[c]? with
  | none => rw [hk] at h; cases h
  | some k => exact lt_of_get hk

theorem originOf_app {L : List Class} {c : Nat} {o : Origin} (h : originOf L c = some o) (M : List Class) :
    originOf (L ++ M) c = some o := by rw [originOf_app' (originOf_lt h), h]

theorem originOf_push {L : List Class} {k : Class} {d : Nat} {o : Origin} (h : originOf (L ++ [k]) d = some o) :
    (d < L.length ∧ originOf L d = some o) ∨ (d = L.length ∧ o = k.origin) := by
  unfold originOf at h
  cases hk : (L ++ [k])[d]? with
  | none => rw [hk] at h; cases h
  | some k' =>
    rw [hk] at h
    rcases get_push hk with ⟨h1, h2⟩ | ⟨h1, h2⟩
    · left; refine ⟨h1, ?_⟩; unfold originOf; rw [h2]; exact h
    · right; subst h2; cases h; exact ⟨h1, rfl⟩

theorem originOf_len {L : List Class} (k : Class) : originOf (L ++ [k]) L.length = some k.origin := by
  simp [originOf]

theorem mtOf_lt {L : List Class} {c : Nat} (h : mtOf L c ≠ .plain) : c < L.length := by
  by_contra hc
  apply h
  simp only [mtOf]
  rw [List.getElem?_eq_none (by omega)]

/-! ## The invariant -/

/-- `d` is `u[idx]`. -/
def ItemOf (L : List Class) (d u : Nat) (idx : Idx) : Prop := originOf L d = some (.cached (.item u idx))

/-- `d` is `m(c)`. -/
def ModOf (L : List Class) (d : Nat) (m : ModId) (c : Nat) : Prop := originOf L d = some (.modified m c)

/-- `d` is `c` or derives from it. -/
inductive Anc (L : List Class) : Nat → Nat → Prop
  | refl (c : Nat) : Anc L c c
  | step {c b d : Nat} : b ∈ basesOf L c → Anc L b d → Anc L c d

/-- The last base of `u[idx]`. -/
def TupleBase (L : List Class) (u : Nat) (ts : List Nat) : Idx → Prop
  | .dict l => ∃ tb t, ts = [t] ∧ mtOf L tb = .tuple ∧ Anc L u tb ∧ ItemOf L t tb (.tup (l.map (·.2)))
  | _ => ts = []

structure ItemShape (L : List Class) (k : Class) (u : Nat) (idx : Idx) : Prop where
  mt : k.mt = idx.mt
  mtu : mtOf L u = idx.mt
  fields : k.fields = some idx.fields
  unbound : k.unbound = some u
  free : fieldsOf L u = none
  table : k.table = Heap.Idx.table idx
  bases : ∃ ds ts, k.bases = u :: ds ++ ts ∧
    List.Forall₂ (fun b d => ItemOf L d b idx) ((basesOf L u).filter fun b => (mtOf L b).le idx.mt) ds ∧
    TupleBase L u ts idx

/-- What a class statement with fields makes. -/
structure AttrShape (L : List Class) (c : Nat) (k : Class) (m : Meta) (s : Heap.Stmt) : Prop where
  mt : k.mt = m
  name : k.name = some s.name
  body : k.body = s.body
  bases : (∃ bm idx b d, s.base m = some (bm, idx) ∧ bm = idx.mt ∧ k.bases = s.bases ++ [d] ∧ mtOf L b = bm ∧
      ItemOf L d b idx ∧ k.fields = some idx.fields ∧ ∃ b0 ∈ s.bases, Anc L b0 b) ∨
    (s.base m = none ∧ m = .enum ∧ k.bases = s.bases ∧ k.fields = some (.enum c) ∧ k.table = some s.fields)
  table : m = .tagged → k.table = some s.fields

structure Good (L : List Class) (c : Nat) (k : Class) : Prop where
  lt : ∀ b ∈ k.bases, b < c
  nodup : k.bases.Nodup
  le : ∀ b ∈ k.bases, k.mt.le (mtOf L b) = true
  win : k.mt ≠ .plain → c < 7 ∨ ∃ b ∈ k.bases, mtOf L b = k.mt
  plain : k.mt = .plain → k.fields = none ∧ k.unbound = none
  unb : k.mt ≠ .plain → k.fields = none → k.unbound = some c ∧ ∀ b ∈ k.bases, fieldsOf L b = none
  agree : (k.mt = .enum → ∃ m u, k.origin = .modified m u) → ∀ f, k.fields = some f → ∀ b ∈ k.bases, ∀ g, fieldsOf L b = some g → g = f
  item : ∀ u idx, k.origin = .cached (.item u idx) → ItemShape L k u idx
  attr : ∀ f bs n ns, k.origin = .cached (.attr f bs n ns) → ∃ m s, Heap.Stmt.key m s = .attr f bs n ns ∧
    s.hasFields m = true ∧ AttrShape L c k m s
  modif : ∀ m u, k.origin = .modified m u → ∃ ds, k.bases = u :: ds ∧
    List.Forall₂ (fun b d => ModOf L d m b) (basesOf L u) ds
  src : ∀ m u, k.origin = .modified m u → k.mt = mtOf L u ∧ k.fields = fieldsOf L u

namespace Heap

theorem mt_eq (h : Heap) (c : Nat) : h.mt c = mtOf h.classes c := rfl
theorem bases_eq (h : Heap) (c : Nat) : h.bases c = basesOf h.classes c := rfl
theorem fields_eq (h : Heap) (c : Nat) : h.fields c = fieldsOf h.classes c := rfl

structure Inv (h : Heap) : Prop where
  pre : ∃ M, h.classes = initClasses ++ M
  good : ∀ c k, h.classes[c]? = some k → Good h.classes c k
  sound : ∀ e ∈ h.cache, e.2 ∉ h.dead ∧ originOf h.classes e.2 = some (.cached e.1)
  complete : ∀ d key, d ∉ h.dead → originOf h.classes d = some (.cached key) → find h.cache key = some d
  msound : ∀ e ∈ h.subCache, e.2 ∉ h.dead ∧ ModOf h.classes e.2 e.1.1 e.1.2
  mcomplete : ∀ d m c, d ∉ h.dead → ModOf h.classes d m c → find h.subCache (m, c) = some d
  look : ∀ d m, find h.lookup d = some m ↔ d ∉ h.dead ∧ ∃ c, ModOf h.classes d m c
  subs : ∀ d m, (m, d) ∈ h.subs ↔ d ∉ h.dead ∧ ∃ c, ModOf h.classes d m c
  roots : ∀ r ∈ h.roots, h.Alive r
  closed : ∀ c k, h.classes[c]? = some k → c ∉ h.dead → ∀ b ∈ k.bases, b ∉ h.dead
  dead_lt : ∀ d ∈ h.dead, d < h.classes.length

end Heap

theorem get_basesOf {L : List Class} {c b : Nat} (h : b ∈ basesOf L c) : ∃ k, L[c]? = some k ∧ b ∈ k.bases := by
  unfold basesOf at h
  cases hk : L[c]? with
  | none => rw [hk] at h; simp at h
  | some k => rw [hk] at h; exact ⟨k, rfl, h⟩

theorem Anc.app {L : List Class} {c d : Nat} (h : Anc L c d) (M : List Class) : Anc (L ++ M) c d := by
  induction h with
  | refl => exact .refl _
  | @step c b d hb _ ih =>
    refine .step ?_ ih
    obtain ⟨k, hk, _⟩ := get_basesOf hb
    rwa [basesOf_app (lt_of_get hk)]

theorem TupleBase.app {L : List Class} {u : Nat} {ts : List Nat} : ∀ {idx : Idx}, TupleBase L u ts idx →
    ∀ M, TupleBase (L ++ M) u ts idx
  | .dict _, ⟨tb, t, h1, h2, h3, h4⟩, M =>
    ⟨tb, t, h1, by rw [mtOf_app (mtOf_lt (by rw [h2]; nofun)), h2], h3.app M, originOf_app h4 M⟩
  | .tup _, h, _ => h
  | .set _, h, _ => h

theorem ItemShape.app {L : List Class} (hg : ∀ c k, L[c]? = some k → Good L c k) {k : Class} {u : Nat} {idx : Idx}
    (h : ItemShape L k u idx) (M : List Class) : ItemShape (L ++ M) k u idx := by
  have hu : u < L.length := mtOf_lt (by rw [h.mtu]; exact idx.mt_ne)
  obtain ⟨ds, ts, h1, h2, h3⟩ := h.bases
  refine ⟨h.mt, by rw [mtOf_app hu, h.mtu], h.fields, h.unbound, by rw [fieldsOf_app hu, h.free], h.table,
    ds, ts, h1, ?_, h3.app M⟩
  rw [basesOf_app hu]
  have : (basesOf L u).filter (fun b => (mtOf (L ++ M) b).le idx.mt) =
      (basesOf L u).filter (fun b => (mtOf L b).le idx.mt) := by
    apply List.filter_congr
    intro b hb
    obtain ⟨k', hk', hb'⟩ := get_basesOf hb
    rw [mtOf_app (((hg u k' hk').lt b hb').trans hu)]
  rw [this]
  exact h2.imp fun b d hd => originOf_app hd M

theorem AttrShape.app {L : List Class} {c : Nat} {k : Class} {m : Meta} {s : Heap.Stmt}
    (h : AttrShape L c k m s) (M : List Class) : AttrShape (L ++ M) c k m s := by
  refine ⟨h.mt, h.name, h.body, ?_, h.table⟩
  rcases h.bases with ⟨bm, idx, b, d, h1, h2, h3, h4, h5, h6, b0, h7, h8⟩ | h'
  · left
    refine ⟨bm, idx, b, d, h1, h2, h3, ?_, originOf_app h5 M, h6, b0, h7, h8.app M⟩
    rw [mtOf_app (mtOf_lt ?_), h4]
    rw [h4, h2]; exact idx.mt_ne
  · right; exact h'

theorem Good.app {L : List Class} (hg : ∀ c k, L[c]? = some k → Good L c k) {c : Nat} {k : Class}
    (hc : c ≤ L.length) (h : Good L c k) (M : List Class) : Good (L ++ M) c k := by
  have hb : ∀ b ∈ k.bases, b < L.length := fun b hb => Nat.lt_of_lt_of_le (h.lt b hb) hc
  refine ⟨h.lt, h.nodup, fun b hbb => by rw [mtOf_app (hb b hbb)]; exact h.le b hbb, fun hp => ?_, h.plain, fun hp hf => ?_,
    fun hp f hf b hbb g hg' => ?_, fun u idx ho => (h.item u idx ho).app hg M, fun f bs n ns ho => ?_,
    fun m u ho => ?_, fun m u ho => ?_⟩
  · rcases h.win hp with h1 | ⟨b, h1, h2⟩
    · exact Or.inl h1
    · exact Or.inr ⟨b, h1, by rw [mtOf_app (hb b h1), h2]⟩
  · obtain ⟨h1, h2⟩ := h.unb hp hf
    exact ⟨h1, fun b hbb => by rw [fieldsOf_app (hb b hbb)]; exact h2 b hbb⟩
  · rw [fieldsOf_app (hb b hbb)] at hg'
    exact h.agree hp f hf b hbb g hg'
  · obtain ⟨m, s, h1, h2, h3⟩ := h.attr f bs n ns ho
    exact ⟨m, s, h1, h2, h3.app M⟩
  · obtain ⟨ds, h1, h2⟩ := h.modif m u ho
    refine ⟨ds, h1, ?_⟩
    have hu : u < L.length := hb u (by rw [h1]; simp)
    rw [basesOf_app hu]
    exact h2.imp fun b d hd => originOf_app hd M
  · obtain ⟨ds, h1, -⟩ := h.modif m u ho
    have hu : u < L.length := hb u (by rw [h1]; simp)
    rw [mtOf_app hu, fieldsOf_app hu]
    exact h.src m u ho

theorem good_push {L : List Class} (hg : ∀ c k, L[c]? = some k → Good L c k) {k : Class}
    (hk : Good L L.length k) : ∀ c k', (L ++ [k])[c]? = some k' → Good (L ++ [k]) c k' := by
  intro c k' h
  rcases get_push h with ⟨hc, h⟩ | ⟨rfl, rfl⟩
  · exact (hg c k' h).app hg (by omega) _
  · exact hk.app hg (Nat.le_refl _) _

namespace Heap

/-- A class is added to the heap and to the tables its origin says. -/
def add (h : Heap) (k : Class) : Heap :=
  match k.origin with
  | .stmt => { h with classes := h.classes ++ [k] }
  | .cached key => { h with classes := h.classes ++ [k], cache := (key, h.classes.length) :: h.cache }
  | .modified m c => { h with
      classes := h.classes ++ [k]
      lookup := (h.classes.length, m) :: h.lookup
      subs := (m, h.classes.length) :: h.subs
      subCache := ((m, c), h.classes.length) :: h.subCache }

def Fresh (h : Heap) : Origin → Prop
  | .stmt => True
  | .cached key => find h.cache key = none
  | .modified m c => find h.subCache (m, c) = none

theorem add_classes (h : Heap) (k : Class) : (h.add k).classes = h.classes ++ [k] := by
  unfold add; split <;> rfl
theorem add_dead (h : Heap) (k : Class) : (h.add k).dead = h.dead := by
  unfold add; split <;> rfl
theorem add_roots (h : Heap) (k : Class) : (h.add k).roots = h.roots := by
  unfold add; split <;> rfl
theorem add_cache (h : Heap) (k : Class) (key : Key) : find (h.add k).cache key =
    if k.origin = .cached key then some h.classes.length else find h.cache key := by
  unfold add
  split
  · rename_i e; simp [e]
  · rename_i key' e
    dsimp only
    rw [find_cons, e]
    by_cases e' : key' = key <;> simp [e']
  · rename_i e; simp [e]
theorem add_subCache (h : Heap) (k : Class) (m : ModId) (c : Nat) : find (h.add k).subCache (m, c) =
    if k.origin = .modified m c then some h.classes.length else find h.subCache (m, c) := by
  unfold add
  split
  · rename_i e; simp [e]
  · rename_i e; simp [e]
  · rename_i m' c' e
    dsimp only
    rw [find_cons, e]
    by_cases e' : (m', c') = (m, c)
    · cases e'; simp
    · rw [if_neg e', if_neg]; rintro e2; cases e2; exact e' rfl

theorem Inv.add {h : Heap} (hi : h.Inv) {k : Class} (hk : Good h.classes h.classes.length k)
    (hal : ∀ b ∈ k.bases, b ∉ h.dead) (hf : h.Fresh k.origin) : (h.add k).Inv := by
  have hnd : h.classes.length ∉ h.dead := fun hd => Nat.lt_irrefl _ (hi.dead_lt _ hd)
  have hmod : ∀ d m, (∃ c, ModOf (h.classes ++ [k]) d m c) ↔
      (∃ c, ModOf h.classes d m c) ∨ (d = h.classes.length ∧ ∃ c, k.origin = .modified m c) := by
    intro d m
    constructor
    · rintro ⟨c, hc⟩
      rcases originOf_push hc with ⟨h1, h2⟩ | ⟨h1, h2⟩
      · exact Or.inl ⟨c, h2⟩
      · exact Or.inr ⟨h1, c, h2.symm⟩
    · rintro (⟨c, hc⟩ | ⟨rfl, c, hc⟩)
      · exact ⟨c, originOf_app hc _⟩
      · exact ⟨c, by unfold ModOf; rw [originOf_len, hc]⟩
  have hnomod : ∀ m, ¬ ∃ c, ModOf h.classes h.classes.length m c := by
    rintro m ⟨c, hc⟩
    exact Nat.lt_irrefl _ (originOf_lt hc)
  obtain ⟨M, hM⟩ := hi.pre
  refine ⟨⟨M ++ [k], by rw [add_classes, hM, List.append_assoc]⟩, ?_, fun e he => ?_, fun d key hd ho => ?_,
    fun e he => ?_, fun d m c hd ho => ?_, fun d m => ?_, fun d m => ?_, fun r hr => ?_, fun c k' hc hd => ?_,
    fun d hd => ?_⟩
  · rw [add_classes]; exact good_push hi.good hk
  · rw [add_dead, add_classes]
    have : e ∈ h.cache ∨ (e.2 = h.classes.length ∧ k.origin = .cached e.1) := by
      unfold Heap.add at he
      split at he
      · exact Or.inl he
      · rename_i key e'
        simp only [List.mem_cons] at he
        rcases he with rfl | he
        · exact Or.inr ⟨rfl, e'⟩
        · exact Or.inl he
      · exact Or.inl he
    rcases this with he | ⟨h1, h2⟩
    · exact ⟨(hi.sound e he).1, originOf_app (hi.sound e he).2 _⟩
    · rw [h1, originOf_len, h2]; exact ⟨hnd, rfl⟩
  · rw [add_dead] at hd
    rw [add_classes] at ho
    rw [add_cache]
    rcases originOf_push ho with ⟨h1, h2⟩ | ⟨h1, h2⟩
    · have hc := hi.complete d key hd h2
      rw [if_neg, hc]
      intro e
      rw [e] at hf
      simp only [Fresh] at hf
      rw [hf] at hc; cases hc
    · rw [if_pos h2.symm, h1]
  · rw [add_dead, add_classes]
    have : e ∈ h.subCache ∨ (e.2 = h.classes.length ∧ k.origin = .modified e.1.1 e.1.2) := by
      unfold Heap.add at he
      split at he
      · exact Or.inl he
      · exact Or.inl he
      · rename_i m c e'
        simp only [List.mem_cons] at he
        rcases he with rfl | he
        · exact Or.inr ⟨rfl, e'⟩
        · exact Or.inl he
    rcases this with he | ⟨h1, h2⟩
    · exact ⟨(hi.msound e he).1, originOf_app (hi.msound e he).2 _⟩
    · unfold ModOf; rw [h1, originOf_len, h2]; exact ⟨hnd, rfl⟩
  · rw [add_dead] at hd
    rw [add_classes] at ho
    rw [add_subCache]
    rcases originOf_push ho with ⟨h1, h2⟩ | ⟨h1, h2⟩
    · have hc := hi.mcomplete d m c hd h2
      rw [if_neg, hc]
      intro e
      rw [e] at hf
      simp only [Fresh] at hf
      rw [hf] at hc; cases hc
    · rw [if_pos h2.symm, h1]
  · rw [add_dead, add_classes, hmod]
    have hl := hi.look d m
    unfold Heap.add
    split
    · rename_i e; simp only [e]; rw [hl]; simp
    · rename_i e; simp only [e]; rw [hl]; simp
    · rename_i m' c' e
      dsimp only
      rw [find_cons, e]
      by_cases ed : h.classes.length = d
      · subst ed
        simp only [if_true, Option.some.injEq, Origin.modified.injEq, true_and, hnomod, false_or, hnd,
          not_false_iff]
        constructor
        · rintro rfl; exact ⟨c', rfl, rfl⟩
        · rintro ⟨c, h1, h2⟩; exact h1
      · rw [if_neg ed, hl]
        simp [show ¬ d = h.classes.length from fun e => ed e.symm]
  · rw [add_dead, add_classes, hmod]
    have hl := hi.subs d m
    unfold Heap.add
    split
    · rename_i e; simp only [e]; rw [hl]; simp
    · rename_i e; simp only [e]; rw [hl]; simp
    · rename_i m' c' e
      dsimp only
      rw [List.mem_cons, hl, e]
      constructor
      · rintro (h1 | ⟨h1, h2⟩)
        · cases h1; exact ⟨hnd, Or.inr ⟨rfl, c', rfl⟩⟩
        · exact ⟨h1, Or.inl h2⟩
      · rintro ⟨h1, h2 | ⟨rfl, c, h2⟩⟩
        · exact Or.inr ⟨h1, h2⟩
        · cases h2; exact Or.inl rfl
  · rw [add_roots] at hr
    obtain ⟨h1, h2⟩ := hi.roots r hr
    exact ⟨by rw [add_classes]; simp; omega, by rw [add_dead]; exact h2⟩
  · rw [add_classes] at hc
    rw [add_dead] at hd ⊢
    rcases get_push hc with ⟨hlt, hold⟩ | ⟨rfl, rfl⟩
    · exact hi.closed c k' hold hd
    · exact hal
  · rw [add_dead] at hd
    rw [add_classes]
    have := hi.dead_lt d hd
    simp; omega

/-! ## What operations leave alone -/

/-- Everything stays; only keys in `P` and `Q` are new. -/
structure Ext (P : Key → Prop) (Q : ModId × Nat → Prop) (h h' : Heap) : Prop where
  classes : ∃ M, h'.classes = h.classes ++ M
  dead : h'.dead = h.dead
  roots : h'.roots = h.roots
  keep : ∀ key d, find h.cache key = some d → find h'.cache key = some d
  only : ∀ key, ¬ P key → find h'.cache key = find h.cache key
  mkeep : ∀ mc d, find h.subCache mc = some d → find h'.subCache mc = some d
  monly : ∀ mc, ¬ Q mc → find h'.subCache mc = find h.subCache mc

variable {P P' : Key → Prop} {Q Q' : ModId × Nat → Prop}

theorem Ext.refl (h : Heap) : Ext P Q h h :=
  ⟨⟨[], by simp⟩, rfl, rfl, fun _ _ h => h, fun _ _ => rfl, fun _ _ h => h, fun _ _ => rfl⟩

theorem Ext.trans {a b c : Heap} (h : Ext P Q a b) (h' : Ext P Q b c) : Ext P Q a c := by
  obtain ⟨M, hM⟩ := h.classes
  obtain ⟨N, hN⟩ := h'.classes
  exact ⟨⟨M ++ N, by rw [hN, hM, List.append_assoc]⟩, h'.dead.trans h.dead, h'.roots.trans h.roots,
    fun u d e => h'.keep u d (h.keep u d e), fun u e => (h'.only u e).trans (h.only u e),
    fun u d e => h'.mkeep u d (h.mkeep u d e), fun u e => (h'.monly u e).trans (h.monly u e)⟩

theorem Ext.mono {a b : Heap} (h : Ext P Q a b) (hP : ∀ k, P k → P' k) (hQ : ∀ k, Q k → Q' k) : Ext P' Q' a b :=
  ⟨h.classes, h.dead, h.roots, h.keep, fun u e => h.only u fun e' => e (hP u e'), h.mkeep,
    fun u e => h.monly u fun e' => e (hQ u e')⟩

theorem Ext.len {a b : Heap} (h : Ext P Q a b) : a.classes.length ≤ b.classes.length := by
  obtain ⟨M, hM⟩ := h.classes
  rw [hM]; simp

theorem Ext.alive {a b : Heap} (h : Ext P Q a b) {c : Nat} (hc : a.Alive c) : b.Alive c :=
  ⟨Nat.lt_of_lt_of_le hc.1 h.len, by rw [h.dead]; exact hc.2⟩

theorem Ext.origin {a b : Heap} (h : Ext P Q a b) {d : Nat} {o : Origin} (hm : originOf a.classes d = some o) :
    originOf b.classes d = some o := by
  obtain ⟨M, hM⟩ := h.classes
  rw [hM]; exact originOf_app hm M

theorem Ext.mt {a b : Heap} (h : Ext P Q a b) {c : Nat} (hc : c < a.classes.length) :
    mtOf b.classes c = mtOf a.classes c := by
  obtain ⟨M, hM⟩ := h.classes
  rw [hM, mtOf_app hc]

theorem Ext.fields {a b : Heap} (h : Ext P Q a b) {c : Nat} (hc : c < a.classes.length) :
    fieldsOf b.classes c = fieldsOf a.classes c := by
  obtain ⟨M, hM⟩ := h.classes
  rw [hM, fieldsOf_app hc]

theorem Ext.bases {a b : Heap} (h : Ext P Q a b) {c : Nat} (hc : c < a.classes.length) :
    basesOf b.classes c = basesOf a.classes c := by
  obtain ⟨M, hM⟩ := h.classes
  rw [hM, basesOf_app hc]

theorem Ext.anc {a b : Heap} (h : Ext P Q a b) {c d : Nat} (hc : Anc a.classes c d) : Anc b.classes c d := by
  obtain ⟨M, hM⟩ := h.classes
  rw [hM]; exact hc.app M

theorem ext_add {h : Heap} {k : Class} (hf : h.Fresh k.origin) :
    Ext (fun key => k.origin = .cached key) (fun mc => k.origin = .modified mc.1 mc.2) h (h.add k) := by
  refine ⟨⟨[k], add_classes h k⟩, add_dead h k, add_roots h k, fun key d e => ?_, fun key hn => ?_, fun mc d e => ?_,
    fun mc hn => ?_⟩
  · rw [add_cache, if_neg, e]
    intro e'
    rw [e'] at hf; simp only [Fresh] at hf; rw [hf] at e; cases e
  · rw [add_cache, if_neg hn]
  · rw [add_subCache, if_neg, e]
    intro e'
    rw [e'] at hf; simp only [Fresh] at hf; rw [hf] at e; cases e
  · rw [add_subCache, if_neg hn]

/-! ## Making classes -/

theorem Inv.get {h : Heap} {c : Nat} (hc : c < h.classes.length) : ∃ k, h.classes[c]? = some k :=
  ⟨_, List.getElem?_eq_getElem hc⟩

theorem Inv.fields_plain {h : Heap} (hi : h.Inv) {c : Nat} (hc : mtOf h.classes c = .plain) :
    fieldsOf h.classes c = none := by
  unfold fieldsOf
  unfold mtOf at hc
  cases hk : h.classes[c]? with
  | none => rfl
  | some k => rw [hk] at hc; exact ((hi.good c k hk).plain hc).1

theorem Inv.bound_iff {h : Heap} (hi : h.Inv) (c : Nat) : h.bound c = (h.fields c).isSome := by
  unfold bound adt
  by_cases hc : h.mt c = .plain
  · rw [hc, fields_eq, hi.fields_plain hc]; rfl
  · have : (h.mt c != .plain) = true := by simpa using hc
    rw [this, Bool.true_and]

theorem Inv.base_alive {h : Heap} (hi : h.Inv) {c b : Nat} (hc : h.Alive c) (hb : b ∈ basesOf h.classes c) :
    h.Alive b ∧ b < c := by
  obtain ⟨k, hk, hb'⟩ := get_basesOf hb
  have := (hi.good c k hk).lt b hb'
  exact ⟨⟨by have := hc.1; omega, hi.closed c k hk hc.2 b hb'⟩, this⟩

theorem Inv.anc_alive {h : Heap} (hi : h.Inv) {c d : Nat} (hc : h.Alive c) (ha : Anc h.classes c d) :
    h.Alive d ∧ (d = c ∨ d < c) := by
  induction ha with
  | refl => exact ⟨hc, Or.inl rfl⟩
  | @step c b d hb _ ih =>
    obtain ⟨h1, h2⟩ := hi.base_alive hc hb
    obtain ⟨h3, h4⟩ := ih h1
    exact ⟨h3, Or.inr (by omega)⟩

theorem winner_ok {h : Heap} : ∀ {bs : List Nat} {w m : Meta}, h.winner w bs = .ok m →
    m.le w = true ∧ (∀ b ∈ bs, m.le (h.mt b) = true) ∧ (m = w ∨ ∃ b ∈ bs, h.mt b = m)
  | [], w, m, e => by
    simp only [winner, Except.ok.injEq] at e
    subst e; exact ⟨Meta.le_refl _, by simp, Or.inl rfl⟩
  | b :: bs, w, m, e => by
    simp only [winner] at e
    split at e
    · rename_i hw
      obtain ⟨h1, h2, h3⟩ := winner_ok e
      refine ⟨h1, ?_, ?_⟩
      · simp only [List.mem_cons, forall_eq_or_imp]
        exact ⟨Meta.le_trans h1 hw, h2⟩
      · rcases h3 with h3 | ⟨b', h3, h4⟩
        · exact Or.inl h3
        · exact Or.inr ⟨b', by simp [h3], h4⟩
    · split at e
      · rename_i hw
        obtain ⟨h1, h2, h3⟩ := winner_ok e
        refine ⟨Meta.le_trans h1 hw, ?_, ?_⟩
        · simp only [List.mem_cons, forall_eq_or_imp]
          exact ⟨h1, h2⟩
        · rcases h3 with h3 | ⟨b', h3, h4⟩
          · exact Or.inr ⟨b, by simp, h3.symm⟩
          · exact Or.inr ⟨b', by simp [h3], h4⟩
      · cases e

theorem boundLoop_ok {h : Heap} : ∀ {bs : List Nat} {s r : Option Fields}, h.boundLoop s bs = .ok r →
    (∀ f, s = some f → r = some f) ∧ (r = none → s = none ∧ ∀ b ∈ bs, h.bound b = false) ∧
    (∀ b ∈ bs, h.bound b = true → h.fields b = r)
  | [], s, r, e => by
    simp only [boundLoop, Except.ok.injEq] at e
    subst e; simp
  | b :: bs, s, r, e => by
    simp only [boundLoop] at e
    split at e
    · rename_i hb
      have hsome : ∃ f, h.fields b = some f := by
        simp only [bound, Bool.and_eq_true] at hb
        exact Option.isSome_iff_exists.1 hb.2
      obtain ⟨f, hf⟩ := hsome
      cases s with
      | none =>
        dsimp only at e
        obtain ⟨h1, h2, h3⟩ := boundLoop_ok e
        have := h1 f hf
        refine ⟨by simp, fun hr => (by rw [hr] at this; cases this), ?_⟩
        simp only [List.mem_cons, forall_eq_or_imp]
        exact ⟨fun _ => by rw [hf, this], h3⟩
      | some g =>
        dsimp only at e
        split at e
        · cases e
        · rename_i hne
          have hne : h.fields b = some g := by simpa using hne
          obtain ⟨h1, h2, h3⟩ := boundLoop_ok e
          have := h1 g rfl
          refine ⟨h1, fun hr => (by rw [hr] at this; cases this), ?_⟩
          simp only [List.mem_cons, forall_eq_or_imp]
          exact ⟨fun _ => by rw [hne, this], h3⟩
    · rename_i hb
      obtain ⟨h1, h2, h3⟩ := boundLoop_ok e
      refine ⟨h1, fun hr => ⟨(h2 hr).1, ?_⟩, ?_⟩
      · simp only [List.mem_cons, forall_eq_or_imp]
        exact ⟨by simpa using hb, (h2 hr).2⟩
      · simp only [List.mem_cons, forall_eq_or_imp]
        exact ⟨fun h' => absurd h' hb, h3⟩

/-- Fields that are not given come from a base. -/
theorem boundLoop_src {h : Heap} : ∀ {bs : List Nat} {s r : Option Fields}, h.boundLoop s bs = .ok r →
    ∀ f, r = some f → s = some f ∨ ∃ b ∈ bs, h.fields b = some f
  | [], s, r, e, f, hf => by
    simp only [boundLoop, Except.ok.injEq] at e
    subst e; exact .inl hf
  | b :: bs, s, r, e, f, hf => by
    simp only [boundLoop] at e
    have key : ∀ {s'}, h.boundLoop s' bs = .ok r → s' = some f ∨ ∃ b' ∈ b :: bs, h.fields b' = some f := by
      intro s' e
      rcases boundLoop_src e f hf with h1 | ⟨b', h1, h2⟩
      · exact .inl h1
      · exact .inr ⟨b', by simp [h1], h2⟩
    split at e
    · cases s with
      | none =>
        rcases key e with h1 | h1
        · exact .inr ⟨b, by simp, h1⟩
        · exact .inr h1
      | some g =>
        dsimp only at e
        split at e
        · cases e
        · exact key e
    · exact key e

theorem newClass_src {E : Env} {h h' : Heap} {k : Class} {t : Nat} (e : newClass E h k = .ok (h', t))
    (hk : k.fields = none) : ∀ k', h'.classes = h.classes ++ [k'] → ∀ f, k'.fields = some f →
    ∃ b ∈ k.bases, h.fields b = some f := by
  unfold newClass at e
  obtain ⟨fs, hfs, e⟩ := bind_ok e
  split at e
  · cases e
  · obtain ⟨u, hu, e⟩ := bind_ok e
    simp only [pure, Except.pure, Except.ok.injEq, Prod.mk.injEq] at e
    obtain ⟨rfl, -⟩ := e
    intro k' hk' f hf
    have := List.append_cancel_left hk'
    cases this
    unfold newFields at hfs
    split at hfs
    · cases hfs; cases hf
    · rcases boundLoop_src hfs f hf with h1 | h1
      · rw [hk] at h1; cases h1
      · exact h1

/-- What `newClass` makes. -/
theorem newClass_ok {E : Env} {h h' : Heap} {k : Class} {t : Nat} (hi : h.Inv) (e : newClass E h k = .ok (h', t)) :
    ∃ fs u, h' = { h with classes := h.classes ++ [{ k with fields := fs, unbound := u }] } ∧
      t = h.classes.length ∧ k.bases.Nodup ∧
      (k.mt = .plain → fs = none ∧ u = none) ∧
      (k.mt ≠ .plain → (∀ f, k.fields = some f → fs = some f) ∧
        (fs = none → u = some h.classes.length ∧ ∀ b ∈ k.bases, fieldsOf h.classes b = none) ∧
        (∀ f, fs = some f → ∀ b ∈ k.bases, ∀ g, fieldsOf h.classes b = some g → g = f) ∧
        (∀ f v, fs = some f → k.bases.filter h.unboundBase = [v] → u = some v)) := by
  unfold newClass at e
  obtain ⟨fs, hfs, e⟩ := bind_ok e
  unfold newFields at hfs
  split at e
  · cases e
  · rename_i hnd
    have hnd : k.bases.Nodup := by
      by_contra hc; exact hnd (Or.inl hc)
    obtain ⟨u, hu, e⟩ := bind_ok e
    unfold newUnbound at hu
    simp only [pure, Except.pure, Except.ok.injEq, Prod.mk.injEq] at e
    obtain ⟨e1, e2⟩ := e
    refine ⟨fs, u, e1.symm, e2.symm, hnd, fun hp => ?_, fun hp => ?_⟩
    · rw [if_pos hp] at hfs hu
      cases hfs; cases hu; exact ⟨rfl, rfl⟩
    · rw [if_neg hp] at hfs hu
      obtain ⟨h1, h2, h3⟩ := boundLoop_ok hfs
      refine ⟨h1, fun hn => ?_, fun f hf b hb g hg => ?_, fun f v hf hv => ?_⟩
      · subst hn
        simp only [unboundOf, Except.ok.injEq] at hu
        refine ⟨hu.symm, fun b hb => ?_⟩
        have := (h2 rfl).2 b hb
        rw [hi.bound_iff, fields_eq] at this
        simpa using this
      · have := h3 b hb (by rw [hi.bound_iff, fields_eq, hg]; rfl)
        rw [fields_eq, hg, hf] at this
        cases this; rfl
      · subst hf
        simp only [unboundOf, hv, Except.ok.injEq] at hu
        exact hu.symm

end Heap
end HW.Adt.Cache
