import Verif.Lemmas.Adt.Heap
import Verif.Spec.AdtShare
import Verif.Spec.AdtValue
import Verif.Model.Adt.HeapEnum

/-! # Lemmas on shared ADT values -/

namespace HW.Adt

variable {W : World} {h h' : Store} {r s : Ref}

/-! ### `Option` `mapM` -/

theorem mapM_cons {α β : Type} (f : α → Option β) (a : α) (l : List α) :
    (a :: l).mapM f = (f a).bind fun b => (l.mapM f).map (b :: ·) := by
  rw [List.mapM_cons]
  cases f a with
  | none => rfl
  | some b => cases l.mapM f <;> simp

theorem mapM_forall₂ {α β : Type} {f : α → Option β} : ∀ {l : List α} {m : List β},
    l.mapM f = some m ↔ List.Forall₂ (fun a b => f a = some b) l m
  | [], m => by
    rw [List.mapM_nil]
    constructor
    · intro h; cases h; exact .nil
    · intro h; cases h; rfl
  | a :: l, m => by
    rw [mapM_cons]
    constructor
    · intro h
      rw [Option.bind_eq_some_iff] at h
      obtain ⟨b, hb, h⟩ := h
      rw [Option.map_eq_some_iff] at h
      obtain ⟨m', hm, rfl⟩ := h
      exact .cons hb (mapM_forall₂.1 hm)
    · intro h
      cases h with
      | cons hb hm => rw [hb, mapM_forall₂.2 hm]; rfl

/-! ### Reading -/

/-- What an object reads as, given what its parts read as. -/
def Obj.tree (f : Ref → Option Val) : Obj → Option Val
  | .leaf T p => some (.leaf T p)
  | .enum e i => some (.enum e i)
  | .tup T a vs => (vs.mapM f).map (.tup T a)
  | .sum T v => (f v).map (.sum T)
  | .tag T i v => (f v).map (.tag T i)

theorem read_succ (h : Store) (n : Nat) (r : Ref) : h.read (n + 1) r = (h[r]?).bind (Obj.tree (h.read n)) := by
  rw [Store.read]
  cases h[r]? with
  | none => rfl
  | some o => cases o <;> rfl

theorem tree_congr {f g : Ref → Option Val} {o : Obj} (e : ∀ t ∈ o.parts, f t = g t) : o.tree f = o.tree g := by
  cases o with
  | leaf T p => rfl
  | enum x i => rfl
  | tup T a vs =>
    have : vs.mapM f = vs.mapM g := by
      simp only [Obj.parts] at e
      induction vs with
      | nil => rfl
      | cons x vs ih =>
        rw [mapM_cons, mapM_cons, e x (by simp), ih fun t ht => e t (by simp [ht])]
    simp only [Obj.tree, this]
  | sum T v => simp only [Obj.tree, e v (by simp [Obj.parts])]
  | tag T i v => simp only [Obj.tree, e v (by simp [Obj.parts])]

theorem tree_part {f : Ref → Option Val} {o : Obj} {v : Val} (e : o.tree f = some v) {t : Ref} (ht : t ∈ o.parts) :
    ∃ w, f t = some w ∧ w.In v ∧ sizeOf w < sizeOf v := by
  cases o with
  | leaf T p => simp [Obj.parts] at ht
  | enum x i => simp [Obj.parts] at ht
  | tup T a vs =>
    simp only [Obj.tree, Option.map_eq_some_iff] at e
    obtain ⟨ws, e, rfl⟩ := e
    have e := mapM_forall₂.1 e
    simp only [Obj.parts] at ht
    obtain ⟨j, hj⟩ := List.mem_iff_getElem?.1 ht
    obtain ⟨hl, hj⟩ := List.getElem?_eq_some_iff.1 hj
    have hl' : j < ws.length := by rw [← e.length_eq]; exact hl
    have := (List.forall₂_iff_get.1 e).2 j hl hl'
    simp only [List.get_eq_getElem, hj] at this
    have hm : ws[j] ∈ ws := List.getElem_mem hl'
    refine ⟨_, this, .tup hm .self, ?_⟩
    have := List.sizeOf_lt_of_mem hm
    simp only [Val.tup.sizeOf_spec]
    omega
  | sum T v =>
    simp only [Obj.tree, Option.map_eq_some_iff] at e
    obtain ⟨w, e, rfl⟩ := e
    simp only [Obj.parts, List.mem_singleton] at ht
    subst ht
    exact ⟨w, e, .sum .self, by simp only [Val.sum.sizeOf_spec]; omega⟩
  | tag T i v =>
    simp only [Obj.tree, Option.map_eq_some_iff] at e
    obtain ⟨w, e, rfl⟩ := e
    simp only [Obj.parts, List.mem_singleton] at ht
    subst ht
    exact ⟨w, e, .tag .self, by simp only [Val.tag.sizeOf_spec]; omega⟩

theorem tree_mono {f g : Ref → Option Val} {o : Obj} {v : Val} (e : o.tree f = some v)
    (hg : ∀ t w, f t = some w → g t = some w) : o.tree g = some v := by
  rw [← e]
  refine (tree_congr fun t ht => ?_).symm
  obtain ⟨w, hw, -⟩ := tree_part e ht
  rw [hw, hg t w hw]

theorem read_mono {n : Nat} : ∀ {r : Ref} {v : Val}, h.read n r = some v → h.read (n + 1) r = some v := by
  induction n with
  | zero => intro r v e; cases e
  | succ n ih =>
    intro r v e
    rw [read_succ] at e ⊢
    rw [Option.bind_eq_some_iff] at e ⊢
    obtain ⟨o, ho, e⟩ := e
    exact ⟨o, ho, tree_mono e fun t w hw => ih hw⟩

theorem read_le {m n : Nat} (hmn : m ≤ n) {v : Val} (e : h.read m r = some v) : h.read n r = some v := by
  induction hmn with
  | refl => exact e
  | step _ ih => exact read_mono ih

theorem Store.Reads.unique {v w : Val} (h1 : h.Reads r v) (h2 : h.Reads r w) : v = w := by
  obtain ⟨m, h1⟩ := h1
  obtain ⟨n, h2⟩ := h2
  have e1 := read_le (le_max_left m n) h1
  have e2 := read_le (le_max_right m n) h2
  rw [e1] at e2
  cases e2; rfl

theorem Store.Reads.obj {v : Val} (hr : h.Reads r v) : ∃ o n, h[r]? = some o ∧ o.tree (h.read n) = some v := by
  obtain ⟨n, e⟩ := hr
  cases n with
  | zero => cases e
  | succ n =>
    rw [read_succ, Option.bind_eq_some_iff] at e
    obtain ⟨o, ho, e⟩ := e
    exact ⟨o, n, ho, e⟩

theorem Store.Reads.lt {v : Val} (hr : h.Reads r v) : r < h.length := by
  obtain ⟨o, _, ho, _⟩ := hr.obj
  exact (List.getElem?_eq_some_iff.1 ho).1

theorem Store.Reads.cls {v : Val} (hr : h.Reads r v) : (h[r]?).map Obj.cls = some v.cls := by
  obtain ⟨o, n, ho, e⟩ := hr.obj
  rw [ho]
  cases o with
  | leaf T p => cases e; rfl
  | enum x i => cases e; rfl
  | tup T a vs =>
    simp only [Obj.tree, Option.map_eq_some_iff] at e
    obtain ⟨ws, -, rfl⟩ := e; rfl
  | sum T w =>
    simp only [Obj.tree, Option.map_eq_some_iff] at e
    obtain ⟨ws, -, rfl⟩ := e; rfl
  | tag T i w =>
    simp only [Obj.tree, Option.map_eq_some_iff] at e
    obtain ⟨ws, -, rfl⟩ := e; rfl

theorem Store.Reads.isinst {v : Val} (hr : h.Reads r v) (T : Ty) : h.isinst W r T = v.isinst W T := by
  have := hr.cls
  unfold Store.isinst Val.isinst
  cases ho : h[r]? with
  | none => rw [ho] at this; cases this
  | some o => rw [ho] at this; simp only [Option.map_some, Option.some.injEq] at this; simp only [this]

/-- A part of an object with a value has a value, and a smaller one. -/
theorem Store.Reads.part {v : Val} (hr : h.Reads r v) {o : Obj} (ho : h[r]? = some o) {t : Ref} (ht : t ∈ o.parts) :
    ∃ w, h.Reads t w ∧ w.In v ∧ sizeOf w < sizeOf v := by
  obtain ⟨o', n, ho', e⟩ := hr.obj
  rw [ho] at ho'
  cases ho'
  obtain ⟨w, hw, hi, hs⟩ := tree_part e ht
  exact ⟨w, ⟨n, hw⟩, hi, hs⟩

theorem Val.In.trans {a b c : Val} (h1 : a.In b) (h2 : b.In c) : a.In c := by
  induction h2 with
  | self => exact h1
  | tup hm _ ih => exact .tup hm (ih)
  | sum _ ih => exact .sum ih
  | tag _ ih => exact .tag ih

theorem Reach.reads (hs : Reach h r s) : ∀ {v : Val}, h.Reads r v → ∃ w, h.Reads s w ∧ w.In v ∧ sizeOf w ≤ sizeOf v := by
  induction hs with
  | self r => exact fun hr => ⟨_, hr, .self, le_refl _⟩
  | part ho ht _ ih =>
    intro v hr
    obtain ⟨w, hw, hi, hl⟩ := hr.part ho ht
    obtain ⟨u, hu, hj, hm⟩ := ih hw
    exact ⟨u, hu, hj.trans hi, by omega⟩

theorem Reach.trans {t : Ref} (h1 : Reach h r s) (h2 : Reach h s t) : Reach h r t := by
  induction h1 with
  | self r => exact h2
  | part ho ht _ ih => exact .part ho ht (ih h2)

/-- An object with a value is not a part of its parts. -/
theorem Store.Reads.acyclic {v : Val} (hr : h.Reads r v) {o : Obj} (ho : h[r]? = some o) {t : Ref} (ht : t ∈ o.parts) :
    ¬ Reach h t r := by
  intro hc
  obtain ⟨w, hw, -, hl⟩ := hr.part ho ht
  obtain ⟨u, hu, -, hm⟩ := hc.reads hw
  rw [hu.unique hr] at hm
  omega

/-! ### Stores that agree -/

theorem read_congr {n : Nat} : ∀ {r : Ref}, (∀ s, Reach h r s → h'[s]? = h[s]?) → h'.read n r = h.read n r := by
  induction n with
  | zero => intro r _; rfl
  | succ n ih =>
    intro r e
    rw [read_succ, read_succ, e r (.self r)]
    cases ho : h[r]? with
    | none => rfl
    | some o => exact tree_congr fun t ht => ih fun s hs => e s (.part ho ht hs)

theorem Store.Reads.congr {v : Val} (hr : h.Reads r v) (e : ∀ s, Reach h r s → h'[s]? = h[s]?) : h'.Reads r v := by
  obtain ⟨n, hr⟩ := hr
  exact ⟨n, by rw [read_congr e]; exact hr⟩

theorem reach_congr (hs : Reach h r s) : (∀ s, Reach h r s → h'[s]? = h[s]?) → Reach h' r s := by
  induction hs with
  | self r => exact fun _ => .self r
  | part ho ht _ ih =>
    intro e
    exact .part (by rw [e _ (.self _)]; exact ho) ht (ih fun s hs => e s (.part ho ht hs))

theorem Store.Reads.ext {v : Val} (hr : h.Reads r v) (e : Extends h h') : h'.Reads r v :=
  hr.congr fun s hs => by
    obtain ⟨w, hw, -⟩ := hs.reads hr
    exact e s hw.lt

/-- In a larger store an object with a value reaches what it did. -/
theorem reach_ext {v : Val} (hr : h.Reads r v) (e : Extends h h') : Reach h' r s ↔ Reach h r s := by
  constructor
  · intro hs
    induction hs generalizing v with
    | self r => exact .self r
    | part ho ht _ ih =>
      rw [e _ hr.lt] at ho
      obtain ⟨w, hw, -⟩ := hr.part ho ht
      exact .part ho ht (ih hw)
  · intro hs
    refine reach_congr hs fun s hs => ?_
    obtain ⟨w, hw, -⟩ := hs.reads hr
    exact e s hw.lt

theorem Extends.refl (h : Store) : Extends h h := fun _ _ => rfl

theorem Extends.append (h l : Store) : Extends h (h ++ l) := fun _ hr => List.getElem?_append_left hr

theorem Extends.le (e : Extends h h') : h.length ≤ h'.length := by
  by_contra hc
  have := e h'.length (not_le.1 hc)
  rw [List.getElem?_eq_none (le_refl _), List.getElem?_eq_getElem (not_le.1 hc)] at this
  cases this

theorem Extends.trans {h'' : Store} (e : Extends h h') (e' : Extends h' h'') : Extends h h'' := fun r hr =>
  (e' r (lt_of_lt_of_le hr e.le)).trans (e r hr)

/-! ### Construction, on objects and on trees -/

section
variable {α β : Type} {R : α → β → Prop}

theorem lookup_rel {kw : List (Name × α)} {kw' : List (Name × β)}
    (hk : List.Forall₂ (fun a b => a.1 = b.1 ∧ R a.2 b.2) kw kw') (n : Name) :
    Option.Rel R (kw.lookup n) (kw'.lookup n) := by
  induction hk with
  | nil => exact .none
  | @cons a b l l' hab _ ih =>
    obtain ⟨x, a⟩ := a
    obtain ⟨y, b⟩ := b
    obtain ⟨rfl, hr⟩ := hab
    simp only [List.lookup_cons]
    cases hx : n == x with
    | true => exact .some hr
    | false => exact ih

/-- Both raise the same, or both give related results. -/
def ResRel (R : α → β → Prop) : PyM α → PyM β → Prop
  | .ok a, .ok b => R a b
  | .error e, .error e' => e = e'
  | _, _ => False

theorem bindArgs_rel (names : List Name) {pos : List α} {pos' : List β} (hp : List.Forall₂ R pos pos')
    {kw : List (Name × α)} {kw' : List (Name × β)}
    (hk : List.Forall₂ (fun a b => a.1 = b.1 ∧ R a.2 b.2) kw kw') :
    ResRel (List.Forall₂ R) (bindArgs names pos kw) (bindArgs names pos' kw') := by
  unfold bindArgs
  rw [← hp.length_eq]
  by_cases hl : names.length < pos.length
  · rw [if_pos hl, if_pos hl]; rfl
  · rw [if_neg hl, if_neg hl]
    have hall : kw.all (fun p => (names.drop pos.length).contains p.1) =
        kw'.all (fun p => (names.drop pos.length).contains p.1) := by
      induction hk with
      | nil => rfl
      | cons hab _ ih => simp only [List.all_cons, hab.1, ih]
    dsimp only
    rw [hall]
    cases hc : kw'.all (fun p => (names.drop pos.length).contains p.1) with
    | false => rfl
    | true =>
      simp only [if_true]
      have : ∀ l : List Name, Option.Rel (List.Forall₂ R) (l.mapM fun n => kw.lookup n) (l.mapM fun n => kw'.lookup n) := by
        intro l
        induction l with
        | nil => exact .some .nil
        | cons n l ih =>
          rw [mapM_cons, mapM_cons]
          have h1 := lookup_rel hk n
          revert h1 ih
          generalize kw.lookup n = a, kw'.lookup n = b, (l.mapM fun n => kw.lookup n) = c,
            (l.mapM fun n => kw'.lookup n) = d
          intro ih h1
          cases h1 with
          | none => exact .none
          | some h1 => cases ih with
            | none => exact .none
            | some ih => exact .some (.cons h1 ih)
      have := this (names.drop pos.length)
      revert this
      generalize ((names.drop pos.length).mapM fun n => kw.lookup n) = c,
        ((names.drop pos.length).mapM fun n => kw'.lookup n) = d
      intro this
      cases this with
      | none => rfl
      | some h => exact List.rel_append hp h

theorem initTuple_rel {inst : α → Ty → Bool} {inst' : β → Ty → Bool} (hi : ∀ a b, R a b → ∀ T, inst a T = inst' b T)
    (fs : List Ty) {l : List α} {l' : List β} (hl : List.Forall₂ R l l') :
    ResRel (List.Forall₂ R) (initTuple inst fs l) (initTuple inst' fs l') := by
  unfold initTuple
  have hc : ∀ fs, checkFields inst l fs = checkFields inst' l' fs := by
    clear fs
    induction hl with
    | nil => intro fs; cases fs <;> rfl
    | cons hab _ ih =>
      intro fs
      cases fs with
      | nil => rfl
      | cons t fs => simp only [checkFields, hi _ _ hab, ih]
  rw [← hl.length_eq, hc]
  split
  · rfl
  · split
    · exact hl
    · rfl

theorem callTuple_rel {inst : α → Ty → Bool} {inst' : β → Ty → Bool} (hi : ∀ a b, R a b → ∀ T, inst a T = inst' b T)
    (k : Con) (fs : List Ty) {pos : List α} {pos' : List β} (hp : List.Forall₂ R pos pos')
    {kw : List (Name × α)} {kw' : List (Name × β)}
    (hk : List.Forall₂ (fun a b => a.1 = b.1 ∧ R a.2 b.2) kw kw') :
    ResRel (List.Forall₂ R) (callTuple inst k fs pos kw) (callTuple inst' k fs pos' kw') := by
  unfold callTuple
  split
  · cases hk with
    | nil => exact initTuple_rel hi fs hp
    | cons _ _ => rfl
  · have := bindArgs_rel k.names hp hk
    revert this
    cases bindArgs k.names pos kw <;> cases bindArgs k.names pos' kw' <;> intro this
    · exact this
    · exact this.elim
    · exact this.elim
    · exact initTuple_rel hi fs this

end

theorem reads_all {l : List Ref} {vs : List Val} (hl : List.Forall₂ h.Reads l vs) : ∃ n, l.mapM (h.read n) = some vs := by
  induction hl with
  | nil => exact ⟨0, rfl⟩
  | cons hr _ ih =>
    obtain ⟨m, hr⟩ := hr
    obtain ⟨n, ih⟩ := ih
    refine ⟨max m n, mapM_forall₂.2 (.cons (read_le (le_max_left m n) hr) ?_)⟩
    exact (mapM_forall₂.1 ih).imp fun _ _ e => read_le (le_max_right m n) e

/-- `T(*pos, **kw)` does on objects what it does on their trees. -/
theorem construct_rel (T : Ty) {pos : List Ref} {pos' : List Val} (hp : List.Forall₂ h.Reads pos pos')
    {kw : List (Name × Ref)} {kw' : List (Name × Val)}
    (hk : List.Forall₂ (fun a b => a.1 = b.1 ∧ h.Reads a.2 b.2) kw kw') :
    ResRel (fun o v => ∃ n, o.tree (h.read n) = some v) (construct W h T pos kw) (constructV W T pos' kw') := by
  have hi : ∀ a b, h.Reads a b → ∀ T, h.isinst W a T = b.isinst W T := fun a b hr T => hr.isinst T
  unfold construct constructV
  cases hv : T.view with
  | none => rfl
  | some q =>
    obtain ⟨k, fs⟩ := q
    have tup : ResRel (fun (o : Obj) (v : Val) => ∃ n, o.tree (h.read n) = some v)
        (do return .tup T false (← callTuple (h.isinst W) k fs pos kw))
        (do return .tup T false (← callTuple (Val.isinst W) k fs pos' kw')) := by
      have := callTuple_rel hi k fs hp hk
      revert this
      cases callTuple (h.isinst W) k fs pos kw <;> cases callTuple (Val.isinst W) k fs pos' kw' <;> intro this
      · exact this
      · exact this.elim
      · exact this.elim
      · obtain ⟨n, hn⟩ := reads_all this
        exact ⟨n, by simp only [Obj.tree, hn]; rfl⟩
    dsimp only
    cases hs : k.shape with
    | tuple => exact tup
    | anon => exact tup
    | product => exact tup
    | sum =>
      cases hp with
      | nil => cases hk <;> rfl
      | cons hr hp =>
        rename_i r v _ _
        cases hp with
        | cons _ _ => cases hk <;> rfl
        | nil =>
          cases hk with
          | cons _ _ => rfl
          | nil =>
            simp only [callSum, hr.cls]
            by_cases hm : v.cls ∈ fs
            · simp only [if_pos hm]
              obtain ⟨n, hn⟩ := hr
              exact ⟨n, by simp only [Obj.tree, hn]; rfl⟩
            · simp only [if_neg hm]; rfl
    | tagged =>
      unfold callTagged
      cases hp with
      | cons _ _ => rfl
      | nil =>
        simp only [ne_eq, not_true_eq_false, if_false]
        cases hk with
        | nil => rfl
        | cons hab hk =>
          rename_i a b _ _
          obtain ⟨x, r⟩ := a
          obtain ⟨y, v⟩ := b
          obtain ⟨e, hr⟩ := hab
          dsimp only at e hr
          subst e
          cases hk with
          | cons _ _ => rfl
          | nil =>
            dsimp only
            by_cases hm : x ∈ k.names
            · simp only [if_pos hm]
              cases ht : fs[k.names.idxOf x]? with
              | none => rfl
              | some t =>
                dsimp only
                rw [hi r v hr t]
                cases v.isinst W t with
                | false => rfl
                | true =>
                  obtain ⟨n, hn⟩ := hr
                  exact ⟨n, by simp only [Obj.tree, hn]; rfl⟩
            · simp only [if_neg hm]; rfl

theorem mem_of_lookup {α : Type} {n : Name} {a : α} : ∀ {l : List (Name × α)}, l.lookup n = some a → (n, a) ∈ l
  | [], e => by cases e
  | (x, b) :: l, e => by
    rw [List.lookup_cons] at e
    split at e
    · rename_i hx
      cases e
      rw [eq_of_beq hx]
      simp
    · exact List.mem_cons_of_mem _ (mem_of_lookup e)

/-- The new object holds its arguments. -/
theorem construct_parts {T : Ty} {pos : List Ref} {kw : List (Name × Ref)} {o : Obj}
    (hc : construct W h T pos kw = .ok o) : ∀ t ∈ o.parts, t ∈ pos ∨ ∃ n, (n, t) ∈ kw := by
  unfold construct at hc
  split at hc
  · cases hc
  rename_i k fs hv
  split at hc
  · unfold callSum at hc
    split at hc
    · split at hc
      · split at hc
        · cases hc
          intro t ht
          exact .inl (by simpa [Obj.parts] using ht)
        · cases hc
      · cases hc
    · cases hc
  · unfold callTagged at hc
    split at hc
    · cases hc
    split at hc
    · split at hc
      · split at hc
        · split at hc
          · cases hc
            intro t ht
            simp only [Obj.parts, List.mem_singleton] at ht
            subst ht
            exact .inr ⟨_, List.mem_singleton.2 rfl⟩
          · cases hc
        · cases hc
      · cases hc
    · cases hc
  · cases hb : callTuple (h.isinst W) k fs pos kw with
    | error e => rw [hb] at hc; cases hc
    | ok vs =>
      rw [hb] at hc
      cases hc
      intro t ht
      simp only [Obj.parts] at ht
      unfold callTuple at hb
      split at hb
      · split at hb
        · obtain ⟨rfl, -⟩ := initTuple_ok.1 hb
          exact .inl ht
        · cases hb
      · cases hbb : bindArgs k.names pos kw with
        | error e => rw [hbb] at hb; cases hb
        | ok l =>
          rw [hbb, pyBindOk] at hb
          obtain ⟨rfl, -⟩ := initTuple_ok.1 hb
          unfold bindArgs at hbb
          split at hbb
          · cases hbb
          · dsimp only at hbb
            split at hbb
            · split at hbb
              · rename_i m hm
                cases hbb
                rcases List.mem_append.1 ht with ht | ht
                · exact .inl ht
                · right
                  have hm := mapM_forall₂.1 hm
                  obtain ⟨j, hj⟩ := List.mem_iff_getElem?.1 ht
                  obtain ⟨hl, hj⟩ := List.getElem?_eq_some_iff.1 hj
                  have := (List.forall₂_iff_get.1 hm).2 j (by rw [hm.length_eq]; exact hl) hl
                  simp only [List.get_eq_getElem, hj] at this
                  exact ⟨_, mem_of_lookup this⟩
              · cases hbb
            · cases hbb

theorem reads_new {o : Obj} {v : Val} {n : Nat} (ho : o.tree (h.read n) = some v) : (h ++ [o]).Reads h.length v := by
  refine ⟨n + 1, ?_⟩
  rw [read_succ]
  simp only [List.getElem?_concat_length, Option.bind_some]
  refine tree_mono ho fun t w hw => ?_
  have : h.Reads t w := ⟨n, hw⟩
  rw [read_congr fun s hs => ?_]
  · exact hw
  · obtain ⟨u, hu, -⟩ := hs.reads this
    exact List.getElem?_append_left hu.lt

end HW.Adt
