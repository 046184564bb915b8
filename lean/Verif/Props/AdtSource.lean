import Verif.Lemmas.Adt.Source
import Verif.Lemmas.Adt.Type
import Verif.Lemmas.Adt.HeapOps
import Verif.Props.AdtRepr

/-! # Property C152: evaluating what `repr` prints -/

namespace HW
open Adt Adt.Source

namespace Adt.Source

/-- Names in the program are identifiers. -/
structure Names (S : Spell) : Prop where
  field : ∀ n, IsName (S.field n)
  cls : ∀ n, IsName (S.cls n)
  fam : ∀ n, IsName (S.fam n)
  enum : ∀ n, IsName (S.enum n)
  base : ∀ n, IsName (S.base n)
  named : ∀ n, IsName (S.named n)
  mod : ∀ n, IsName (S.mod n)

/-- The class is printed as a single name. -/
def plainName : Ty → Bool
  | .leaf (.cls _) => true
  | .leaf (.vec _ _) => false
  | .enum _ => true
  | .node k _ => k.shape = .product ∨ k.shape = .tagged
  | .mod _ t => plainName t

mutual
/-- In the namespace, the names in the text of the class are bound to what they name.  (The text of a modified vector or
`Tuple`, such as `ConstBitVector[8]`, is not counted: it names a class `ConstBitVector` that need not exist.) -/
def TyMeans (S : Spell) (N : Ns) : Ty → Prop
  | .leaf (.cls c) => N.get (S.cls c) = some (.cls (.leaf (.cls c)))
  | .leaf (.vec _ none) => False
  | .leaf (.vec k (some _)) => N.get (S.fam k) = some (.fam k)
  | .enum e => N.get (S.enum e.id) = some (.cls (.enum e))
  | .mod m t => plainName t = true ∧ N.get (S.mod m ++ t.nm S) = some (.cls (.mod m t))
  | .node k fs =>
      match k.shape with
      | .product => N.get (S.named k.name) = some (.cls (.node k fs))
      | .tagged => N.get (S.named k.name) = some (.cls (.node k fs))
      | .anon => N.get (k.base.nm S) = some (.base .anon k.base) ∧ TysMean S N fs
      | s => fs ≠ [] ∧ N.get (k.base.nm S) = some (.base s k.base) ∧ TysMean S N fs
def TysMean (S : Spell) (N : Ns) : List Ty → Prop
  | [] => True
  | t :: ts => TyMeans S N t ∧ TysMean S N ts
end

mutual
/-- … for all classes in the text of the value. -/
def ValMeans (S : Spell) (N : Ns) : Val → Prop
  | .leaf T _ => TyMeans S N T
  | .enum e _ => TyMeans S N (.enum e)
  | .tup T _ vs => TyMeans S N T ∧ ValsMean S N vs
  | .sum T v => TyMeans S N T ∧ ValMeans S N v
  | .tag T _ v => TyMeans S N T ∧ ValMeans S N v
def ValsMean (S : Spell) (N : Ns) : List Val → Prop
  | [] => True
  | v :: vs => ValMeans S N v ∧ ValsMean S N vs
end

mutual
/-- A value that the constructors return, down to bits and vectors. -/
def Sound (W : World) (S : Spell) : Val → Prop
  | .leaf T p => (∃ k n, T.asVec = some (k, some n) ∧ p < 2 ^ n) ∨ (T = .leaf (.cls S.bit) ∧ p < 2)
  | .enum e i => i < e.members.length ∧ (e.members.map Prod.fst).Nodup
  | .tup T _ vs => Built W T ∧ ∃ k fs, T.view = some (k, fs) ∧ k.shape ≠ .sum ∧ k.shape ≠ .tagged ∧
      List.Forall₂ (fun v t => v.isinst W t = true) vs fs ∧ Sounds W S vs
  | .sum T v => Built W T ∧ ∃ k fs, T.view = some (k, fs) ∧ k.shape = .sum ∧ v.cls ∈ fs ∧ Sound W S v
  | .tag T i v => Built W T ∧ ∃ k fs t, T.view = some (k, fs) ∧ k.shape = .tagged ∧
      fs[i]? = some t ∧ v.isinst W t = true ∧ Sound W S v
def Sounds (W : World) (S : Spell) : List Val → Prop
  | [] => True
  | v :: vs => Sound W S v ∧ Sounds W S vs
end

/-- The value is a vector. -/
def isVec (v : Val) : Bool := v.cls.asVec.isSome

mutual
/-- Inside the value no vector is a field of a Product or an AnonymousProduct, the value of a Sum or of a TaggedUnion, and
no TaggedUnion has more than one field. -/
def Readable : Val → Prop
  | .leaf _ _ => True
  | .enum _ _ => True
  | .tup T _ vs => Readables vs ∧ ∀ k fs, T.view = some (k, fs) → k.shape ≠ .tuple → ∀ v ∈ vs, isVec v = false
  | .sum _ v => Readable v ∧ isVec v = false
  | .tag T _ v => Readable v ∧ isVec v = false ∧ ∀ k fs, T.view = some (k, fs) → k.names.length = 1
def Readables : List Val → Prop
  | [] => True
  | v :: vs => Readable v ∧ Readables vs
end

/-! ### The tree of a text -/

mutual
def tyTree (S : Spell) : Ty → CE
  | .leaf (.cls c) => .name (S.cls c)
  | .leaf (.vec k none) => .name (S.fam k)
  | .leaf (.vec k (some n)) => .idx (S.fam k) n
  | .enum e => .name (S.enum e.id)
  | .mod m t => .name (S.mod m ++ t.nm S)
  | .node k fs =>
      match k.shape with
      | .product => .name (S.named k.name)
      | .tagged => .name (S.named k.name)
      | .anon => .dict (k.base.nm S) (tyItems S k.names fs)
      | _ => .sub (k.base.nm S) (tyTrees S fs)
def tyTrees (S : Spell) : List Ty → CEs
  | [] => .nil
  | t :: ts => .cons (tyTree S t) (tyTrees S ts)
def tyItems (S : Spell) : List Name → List Ty → Items
  | n :: ns, t :: ts => .cons (S.field n) (tyTree S t) (tyItems S ns ts)
  | _, _ => .nil
end

/-- `str` instead of `repr`. -/
def strTree (S : Spell) (r : VE) : Val → VE
  | .leaf T p =>
      match T.asVec with
      | some (k, some n) => .int (S.toInt k n p)
      | _ => r
  | _ => r

def tagArgs (S : Spell) (i : Nat) (r : VE) : Nat → List Name → Args
  | _, [] => .nil
  | j, n :: ns => .kw (S.field n) (if i = j then r else .none) (tagArgs S i r (j + 1) ns)

mutual
def valTree (S : Spell) : Val → VE
  | .leaf T p => .call (tyTree S T) (.pos (match T.asVec with | some _ => .int p | none => .bool (p = 1)) .nil)
  | .enum e i => .attr (.name (S.enum e.id)) (e.members[i]?.elim [] fun m => S.field m.1)
  | .tup T _ vs =>
      match T.view with
      | none => .none
      | some (k, _) => .call (tyTree S T) (if k.shape = .tuple then posArgs S vs else kwArgs S k.names vs)
  | .sum T v => .call (tyTree S T) (.pos (strTree S (valTree S v) v) .nil)
  | .tag T i v =>
      match T.view with
      | none => .none
      | some (k, _) => .call (tyTree S T) (tagArgs S i (strTree S (valTree S v) v) 0 k.names)
def posArgs (S : Spell) : List Val → Args
  | [] => .nil
  | v :: vs => .pos (valTree S v) (posArgs S vs)
def kwArgs (S : Spell) : List Name → List Val → Args
  | n :: ns, v :: vs => .kw (S.field n) (strTree S (valTree S v) v) (kwArgs S ns vs)
  | _, _ => .nil
end

/-! ### Its text -/

def sep (l : List (List Char)) : List Char := l.flatMap fun t => ',' :: ' ' :: t

theorem joined_cons (a : List Char) : ∀ l, joined (a :: l) = a ++ sep l
  | [] => by simp [joined, sep]
  | b :: l => by rw [joined, joined_cons b l]; simp [sep]

mutual
theorem ty_text (S : Spell) : ∀ T : Ty, (tyTree S T).text = T.nm S
  | .leaf (.cls c) => rfl
  | .leaf (.vec k none) => rfl
  | .leaf (.vec k (some n)) => by simp [tyTree, CE.text, Ty.nm]
  | .enum e => rfl
  | .mod m t => rfl
  | .node k fs => by
    have h1 := tys_text S fs
    have h2 := items_text S k.names fs
    rw [tyTree, Ty.nm, Con.nm]
    cases hs : k.shape with
    | product => rfl
    | tagged => rfl
    | anon =>
      simp only [CE.text, List.append_assoc, List.cons_append, List.nil_append]
      cases hl : keyed (k.names.map S.field) (Ty.nms S fs) with
      | nil => rw [hl] at h2; rw [h2.1]; rfl
      | cons a l => rw [hl] at h2; rw [h2.1, joined_cons]
    | tuple =>
      simp only [CE.text, List.append_assoc, List.cons_append, List.nil_append]
      cases hl : Ty.nms S fs with
      | nil => rw [hl] at h1; rw [h1.1]; rfl
      | cons a l => rw [hl] at h1; rw [h1.1, joined_cons]
    | sum =>
      simp only [CE.text, List.append_assoc, List.cons_append, List.nil_append]
      cases hl : Ty.nms S fs with
      | nil => rw [hl] at h1; rw [h1.1]; rfl
      | cons a l => rw [hl] at h1; rw [h1.1, joined_cons]
theorem tys_text (S : Spell) : ∀ fs : List Ty, (tyTrees S fs).text = (match Ty.nms S fs with | [] => [] | a :: l => a ++ sep l) ∧
    (tyTrees S fs).tail = sep (Ty.nms S fs)
  | [] => ⟨rfl, rfl⟩
  | t :: ts => by
    have h1 := ty_text S t
    have h2 := (tys_text S ts).2
    simp only [tyTrees, CEs.text, CEs.tail, Ty.nms, h1, h2, sep, List.flatMap_cons, List.cons_append, and_self]
theorem items_text (S : Spell) : ∀ (ns : List Name) (fs : List Ty),
    (tyItems S ns fs).text = (match keyed (ns.map S.field) (Ty.nms S fs) with | [] => [] | a :: l => a ++ sep l) ∧
    (tyItems S ns fs).tail = sep (keyed (ns.map S.field) (Ty.nms S fs))
  | [], fs => by cases fs <;> exact ⟨rfl, rfl⟩
  | n :: ns, [] => ⟨rfl, rfl⟩
  | n :: ns, t :: ts => by
    have h1 := ty_text S t
    have h2 := (items_text S ns ts).2
    simp only [tyItems, Items.text, Items.tail, List.map_cons, Ty.nms, keyed, h1, h2, sep, List.flatMap_cons, List.cons_append,
      List.append_assoc, List.nil_append, and_self]
end

theorem str_text {S : Spell} {r : VE} {t : List Char} (h : r.text = t) : ∀ v : Val, (strTree S r v).text = v.text S t
  | .leaf T p => by
    cases hT : T.asVec with
    | none => simp only [strTree, Val.text, hT]; exact h
    | some q =>
      obtain ⟨k, n⟩ := q
      cases n with
      | none => simp only [strTree, Val.text, hT]; exact h
      | some n => simp only [strTree, Val.text, hT]; rfl
  | .enum _ _ => h
  | .tup _ _ _ => h
  | .sum _ _ => h
  | .tag _ _ _ => h

theorem tag_text {S : Spell} {i : Nat} {r : VE} {t : List Char} (h : r.text = t) : ∀ (ns : List Name) (j : Nat),
    let l := ns.mapIdx fun d n => S.field n ++ ['='] ++ (if i = j + d then t else ['N', 'o', 'n', 'e'])
    (tagArgs S i r j ns).text = (match l with | [] => [] | a :: l => a ++ sep l) ∧ (tagArgs S i r j ns).tail = sep l
  | [], j => ⟨rfl, rfl⟩
  | n :: ns, j => by
    have h2 := (tag_text (S := S) (i := i) h ns (j + 1)).2
    have hif : (if i = j then r else VE.none).text = if i = j then t else ['N', 'o', 'n', 'e'] := by
      split
      · exact h
      · rfl
    have hshift : ∀ d, j + 1 + d = j + (d + 1) := by omega
    simp only [hshift] at h2
    simp only [List.mapIdx_cons, tagArgs, Args.text, Args.tail, hif, h2, sep, List.flatMap_cons, Nat.add_zero, List.cons_append,
      List.append_assoc, List.nil_append, and_self]

theorem list_text {t : List Char} {l : List (List Char)} (h : t = (match l with | [] => [] | a :: l => a ++ sep l)) :
    t = joined l := by
  subst h
  cases l with
  | nil => rfl
  | cons a l => exact (joined_cons a l).symm

mutual
theorem val_text {W : World} (S : Spell) : ∀ v : Val, Sound W S v → (valTree S v).text = v.repr S
  | .leaf T p, h => by
    have hp : ∀ q, (match T.asVec with | some _ => VE.int p | none => VE.bool (p = 1)) = q → q.text = payload T p := by
      rintro _ rfl
      unfold payload
      cases hT : T.asVec with
      | some _ => rfl
      | none => by_cases hp : p = 1 <;> simp [hp, VE.text]
    simp only [valTree, VE.text, Args.text, Args.tail, ty_text, hp _ rfl, Val.repr, List.append_assoc, List.nil_append,
      List.append_nil, List.cons_append]
  | .enum e i, h => by simp [valTree, VE.text, CE.text, Val.repr]
  | .tup T b vs, h => by
    obtain ⟨-, k, fs, hv, -, -, -, hs⟩ := h
    rw [Val.repr, valTree]
    simp only [hv, VE.text, ty_text]
    split
    · rw [list_text (poss_text S vs hs).1]; simp
    · rw [list_text (kws_text S k.names vs hs).1]; simp
  | .sum T v, h => by
    obtain ⟨-, k, fs, hv, -, -, hs⟩ := h
    simp only [valTree, Val.repr, VE.text, Args.text, Args.tail, ty_text, str_text (val_text S v hs), List.append_assoc,
      List.append_nil, List.cons_append, List.nil_append]
  | .tag T i v, h => by
    obtain ⟨-, k, fs, t, hv, -, -, -, hs⟩ := h
    rw [Val.repr, valTree]
    simp only [hv, VE.text, ty_text]
    have := (tag_text (S := S) (i := i) (str_text (S := S) (val_text S v hs) v) k.names 0).1
    simp only [Nat.zero_add] at this
    rw [list_text this, tagItems]
    simp
theorem poss_text {W : World} (S : Spell) : ∀ vs : List Val, Sounds W S vs →
    (posArgs S vs).text = (match Val.reprs S vs with | [] => [] | a :: l => a ++ sep l) ∧ (posArgs S vs).tail = sep (Val.reprs S vs)
  | [], _ => ⟨rfl, rfl⟩
  | v :: vs, h => by
    have h1 := val_text S v h.1
    have h2 := (poss_text S vs h.2).2
    simp only [posArgs, Args.text, Args.tail, Val.reprs, h1, h2, sep, List.flatMap_cons, List.cons_append, and_self]
theorem kws_text {W : World} (S : Spell) : ∀ (ns : List Name) (vs : List Val), Sounds W S vs →
    (kwArgs S ns vs).text = (match items S ns (Val.strs S vs) with | [] => [] | a :: l => a ++ sep l) ∧
    (kwArgs S ns vs).tail = sep (items S ns (Val.strs S vs))
  | [], vs, _ => by cases vs <;> exact ⟨rfl, rfl⟩
  | n :: ns, [], _ => ⟨rfl, rfl⟩
  | n :: ns, v :: vs, h => by
    have h1 := str_text (S := S) (val_text S v h.1) v
    have h2 := (kws_text S ns vs h.2).2
    simp only [kwArgs, Args.text, Args.tail, Val.strs, items, h1, h2, sep, List.flatMap_cons, List.cons_append, List.append_assoc,
      List.nil_append, and_self]
end

/-! ### It is an expression -/

theorem IsName.append {a b : List Char} (ha : IsName a) (hb : ∀ c ∈ b, idChar c = true) : IsName (a ++ b) := by
  obtain ⟨⟨c, l, rfl, hd⟩, h⟩ := ha
  exact ⟨⟨c, l ++ b, rfl, hd⟩, fun x hx => (List.mem_append.1 hx).elim (h x) (hb x)⟩

theorem base_name {S : Spell} (hS : Names S) : ∀ b : Base, IsName (b.nm S)
  | .user n => hS.base n
  | .mod m b => (hS.mod m).append (base_name hS b).2

theorem plain_name {S : Spell} (hS : Names S) : ∀ t : Ty, plainName t = true → IsName (t.nm S)
  | .leaf (.cls c), _ => hS.cls c
  | .leaf (.vec _ _), h => nomatch h
  | .enum e, _ => hS.enum _
  | .mod m t, h => (hS.mod m).append (plain_name hS t h).2
  | .node k fs, h => by
    simp only [plainName, Bool.decide_or, Bool.or_eq_true, decide_eq_true_eq] at h
    rw [Ty.nm, Con.nm]
    rcases h with h | h <;> simp only [h] <;> exact hS.named _

theorem items_keys (S : Spell) : ∀ (ns : List Name) (fs : List Ty), ns.length = fs.length → (tyItems S ns fs).keys = ns.map S.field
  | [], [], _ => rfl
  | n :: ns, t :: ts, h => by
    rw [tyItems, Items.keys, items_keys S ns ts (by simpa using h), List.map_cons]

section
variable {W : World} {S : Spell} {N : Ns}

theorem field_nodup (hk : ∀ n, N.key (S.field n) = n) {ns : List Name} (h : ns.Nodup) : (ns.map S.field).Nodup :=
  h.map fun a b e => by rw [← hk a, e, hk b]

mutual
theorem ty_ok (hS : Names S) (hk : ∀ n, N.key (S.field n) = n) : ∀ T : Ty, Built W T → TyMeans S N T → (tyTree S T).Ok
  | .leaf (.cls c), _, _ => hS.cls c
  | .leaf (.vec k none), _, h => h.elim
  | .leaf (.vec k (some n)), _, _ => hS.fam k
  | .enum e, _, _ => hS.enum _
  | .mod m t, _, h => (hS.mod m).append (plain_name hS t h.1).2
  | .node k fs, hb, h => by
    have hc := hb.canon
    have hf := hb.fields
    rw [tyTree]
    rw [TyMeans] at h
    unfold Canon at hc
    cases hs : k.shape with
    | product => exact hS.named _
    | tagged => exact hS.named _
    | anon =>
      simp only [hs] at h hc
      refine ⟨base_name hS _, items_ok hS hk k.names fs hf h.2, ?_⟩
      rw [items_keys S _ _ hc.2.2.1]
      exact field_nodup hk hc.2.2.2
    | tuple =>
      simp only [hs] at h
      refine ⟨base_name hS _, ?_, tys_ok hS hk fs hf h.2.2⟩
      cases fs with
      | nil => exact absurd rfl h.1
      | cons t ts => exact nofun
    | sum =>
      simp only [hs] at h
      refine ⟨base_name hS _, ?_, tys_ok hS hk fs hf h.2.2⟩
      cases fs with
      | nil => exact absurd rfl h.1
      | cons t ts => exact nofun
theorem tys_ok (hS : Names S) (hk : ∀ n, N.key (S.field n) = n) : ∀ fs : List Ty, (∀ t ∈ fs, Built W t) → TysMean S N fs →
    (tyTrees S fs).Ok
  | [], _, _ => trivial
  | t :: ts, hb, h => ⟨ty_ok hS hk t (hb t (by simp)) h.1, tys_ok hS hk ts (fun x hx => hb x (by simp [hx])) h.2⟩
theorem items_ok (hS : Names S) (hk : ∀ n, N.key (S.field n) = n) : ∀ (ns : List Name) (fs : List Ty), (∀ t ∈ fs, Built W t) →
    TysMean S N fs → (tyItems S ns fs).Ok
  | [], fs, _, _ => by cases fs <;> exact trivial
  | n :: ns, [], _, _ => trivial
  | n :: ns, t :: ts, hb, h =>
    ⟨hS.field n, ty_ok hS hk t (hb t (by simp)) h.1, items_ok hS hk ns ts (fun x hx => hb x (by simp [hx])) h.2⟩
end

theorem str_ok {r : VE} (h : r.Ok) : ∀ v : Val, (strTree S r v).Ok
  | .leaf T p => by
    cases hT : T.asVec with
    | none => simp only [strTree, hT]; exact h
    | some q =>
      obtain ⟨k, n⟩ := q
      cases n with
      | none => simp only [strTree, hT]; exact h
      | some n => simp only [strTree, hT]; exact trivial
  | .enum _ _ => h
  | .tup _ _ _ => h
  | .sum _ _ => h
  | .tag _ _ _ => h

theorem tag_ok (hS : Names S) {i : Nat} {r : VE} (h : r.Ok) : ∀ (j : Nat) (ns : List Name), (tagArgs S i r j ns).Ok
  | _, [] => trivial
  | j, n :: ns => ⟨hS.field n, by split; exacts [h, trivial], tag_ok hS h (j + 1) ns⟩

theorem tag_keys {i : Nat} {r : VE} : ∀ (j : Nat) (ns : List Name), (tagArgs S i r j ns).keys = ns.map S.field
  | _, [] => rfl
  | j, n :: ns => by rw [tagArgs, Args.keys, tag_keys (j + 1) ns, List.map_cons]

theorem pos_keys : ∀ vs : List Val, (posArgs S vs).keys = []
  | [] => rfl
  | v :: vs => by rw [posArgs, Args.keys, pos_keys vs]

theorem kw_keys : ∀ (ns : List Name) (vs : List Val), ns.length = vs.length → (kwArgs S ns vs).keys = ns.map S.field
  | [], [], _ => rfl
  | n :: ns, v :: vs, h => by rw [kwArgs, Args.keys, kw_keys ns vs (by simpa using h), List.map_cons]

/-- The names of the fields of a class that is not a `Tuple` or a `Sum`. -/
theorem view_names : ∀ {T : Ty}, Built W T → ∀ {k : Con} {fs : List Ty}, T.view = some (k, fs) → k.shape ≠ .tuple → k.shape ≠ .sum →
    k.names.length = fs.length ∧ k.names.Nodup
  | .leaf _, _, _, _, h, _, _ => nomatch h
  | .enum _, _, _, _, h, _, _ => nomatch h
  | .node k fs, hb, k', fs', h, h1, h2 => by
    cases h
    have hc := hb.canon
    unfold Canon at hc
    cases hs : k.shape with
    | tuple => exact absurd hs h1
    | sum => exact absurd hs h2
    | anon => simp only [hs] at hc; exact hc.2.2
    | product => simp only [hs] at hc; exact hc
    | tagged => simp only [hs] at hc; exact ⟨hc.1, hc.2.1⟩
  | .mod m t, hb, k', fs', h, h1, h2 => by
    rw [Ty.view] at h
    cases hv : t.view with
    | none => rw [hv] at h; cases h
    | some p =>
      rw [hv] at h
      cases h
      exact view_names hb.unmod (k := p.1) (fs := p.2) hv h1 h2

mutual
theorem val_ok (hS : Names S) (hk : ∀ n, N.key (S.field n) = n) : ∀ v : Val, Sound W S v → ValMeans S N v → (valTree S v).Ok
  | .leaf T p, hs, h => by
    have hb : Built W T := by
      rcases hs with ⟨k, n, hv, -⟩ | ⟨rfl, -⟩
      · cases T with
        | leaf l => exact .leaf l
        | mod m t =>
          have h : plainName t = true ∧ _ := h
          have : ∀ t : Ty, plainName t = true → t.asVec = none := by
            intro t
            induction t using Ty.induct with
            | leaf l => cases l <;> simp [plainName, Ty.asVec]
            | enum e => simp [Ty.asVec]
            | node k fs _ => simp [Ty.asVec]
            | mod m t ih => exact ih
          rw [Ty.asVec, this t h.1] at hv
          cases hv
        | _ => cases hv
      · exact .leaf _
    refine ⟨ty_ok hS hk T hb h, ⟨?_, trivial⟩, List.nodup_nil⟩
    split <;> exact trivial
  | .enum e i, hs, h => by
    refine ⟨hS.enum _, ?_⟩
    rw [List.getElem?_eq_getElem hs.1]
    exact hS.field _
  | .tup T b vs, hs, h => by
    obtain ⟨hb, k, fs, hv, h1, h2, h3, h4⟩ := hs
    rw [valTree]
    simp only [hv]
    refine ⟨ty_ok hS hk T hb h.1, ?_⟩
    split
    · exact ⟨poss_ok hS hk vs h4 h.2, by rw [pos_keys]; exact List.nodup_nil⟩
    · rename_i hsh
      obtain ⟨h5, h6⟩ := view_names hb hv hsh h1
      exact ⟨kws_ok hS hk k.names vs h4 h.2, by rw [kw_keys _ _ (h5.trans h3.length_eq.symm)]; exact field_nodup hk h6⟩
  | .sum T v, hs, h => by
    obtain ⟨hb, k, fs, hv, h1, h2, h3⟩ := hs
    exact ⟨ty_ok hS hk T hb h.1, ⟨str_ok (val_ok hS hk v h3 h.2) v, trivial⟩, List.nodup_nil⟩
  | .tag T i v, hs, h => by
    obtain ⟨hb, k, fs, t, hv, h1, h2, h3, h4⟩ := hs
    rw [valTree]
    simp only [hv]
    refine ⟨ty_ok hS hk T hb h.1, tag_ok hS (str_ok (val_ok hS hk v h4 h.2) v) _ _, ?_⟩
    rw [tag_keys]
    exact field_nodup hk (view_names hb hv (by rw [h1]; decide) (by rw [h1]; decide)).2
theorem poss_ok (hS : Names S) (hk : ∀ n, N.key (S.field n) = n) : ∀ vs : List Val, Sounds W S vs → ValsMean S N vs →
    (posArgs S vs).Ok
  | [], _, _ => trivial
  | v :: vs, hs, h => ⟨val_ok hS hk v hs.1 h.1, poss_ok hS hk vs hs.2 h.2⟩
theorem kws_ok (hS : Names S) (hk : ∀ n, N.key (S.field n) = n) : ∀ (ns : List Name) (vs : List Val), Sounds W S vs →
    ValsMean S N vs → (kwArgs S ns vs).Ok
  | [], vs, _, _ => by cases vs <;> exact trivial
  | n :: ns, [], _, _ => trivial
  | n :: ns, v :: vs, hs, h => ⟨hS.field n, str_ok (val_ok hS hk v hs.1 h.1) v, kws_ok hS hk ns vs hs.2 h.2⟩
end

/-! ### Its value -/

theorem look_some {w : List Char} {g : Global} (h : N.get w = some g) : look N w = .ok g := by rw [look, h]

mutual
theorem ty_eval (hk : ∀ n, N.key (S.field n) = n) : ∀ T : Ty, Built W T → TyMeans S N T → (tyTree S T).eval W N = .ok (.cls T)
  | .leaf (.cls c), _, h => look_some h
  | .leaf (.vec k none), _, h => h.elim
  | .leaf (.vec k (some n)), _, h => by
    have h : N.get (S.fam k) = some (.fam k) := h
    simp only [tyTree, CE.eval, look_some h, bind, Except.bind]
  | .enum e, _, h => look_some h
  | .mod m t, _, h => look_some h.2
  | .node k fs, hb, h => by
    have hc := hb.canon
    have hf := hb.fields
    rw [TyMeans] at h
    unfold Canon at hc
    obtain ⟨sh, b, nm, ns, names⟩ := k
    cases sh with
    | product => exact look_some h
    | tagged => exact look_some h
    | anon =>
      obtain ⟨rfl, rfl, hl, hn⟩ := hc
      replace hl : names.length = fs.length := hl
      simp only [tyTree, CE.eval, look_some h.1, bind, Except.bind, titems_eval hk names fs hl hf h.2]
      rw [List.map_fst_zip (by omega), List.map_snd_zip (by omega)]
      rfl
    | tuple =>
      obtain ⟨rfl, rfl, rfl⟩ := hc
      simp only [tyTree, CE.eval, look_some h.2.1, bind, Except.bind, tys_eval hk fs hf h.2.2]
      rfl
    | sum =>
      obtain ⟨rfl, rfl, rfl, hc⟩ := hc
      simp only [tyTree, CE.eval, look_some h.2.1, bind, Except.bind, tys_eval hk fs hf h.2.2, mkSum, hc]
theorem tys_eval (hk : ∀ n, N.key (S.field n) = n) : ∀ fs : List Ty, (∀ t ∈ fs, Built W t) → TysMean S N fs →
    (tyTrees S fs).eval W N = .ok fs
  | [], _, _ => rfl
  | t :: ts, hb, h => by
    simp only [tyTrees, CEs.eval, ty_eval hk t (hb t (by simp)) h.1, tys_eval hk ts (fun x hx => hb x (by simp [hx])) h.2,
      bind, Except.bind, Global.toCls, pure, Except.pure]
theorem titems_eval (hk : ∀ n, N.key (S.field n) = n) : ∀ (ns : List Name) (fs : List Ty), ns.length = fs.length →
    (∀ t ∈ fs, Built W t) → TysMean S N fs → (tyItems S ns fs).eval W N = .ok (ns.zip fs)
  | [], [], _, _, _ => rfl
  | n :: ns, t :: ts, hl, hb, h => by
    simp only [tyItems, Items.eval, ty_eval hk t (hb t (by simp)) h.1,
      titems_eval hk ns ts (by simpa using hl) (fun x hx => hb x (by simp [hx])) h.2,
      bind, Except.bind, Global.toCls, pure, Except.pure, hk, List.zip_cons_cons]
end

theorem plain_cls (v : Val) : v.plain.cls = v.cls := by cases v <;> rfl

theorem plain_inst (v : Val) (t : Ty) : v.plain.isinst W t = v.isinst W t := by rw [Val.isinst, Val.isinst, plain_cls]

theorem str_vec {r : VE} : ∀ {v : Val}, Sound W S v → (isVec v = true → Readable v ∧ ∃ z, strTree S r v = .int z) ∧
    (isVec v = false → strTree S r v = r)
  | .leaf T p, h => by
    constructor
    · intro hv
      rcases h with ⟨k, n, h1, -⟩ | ⟨rfl, -⟩
      · exact ⟨trivial, S.toInt k n p, by simp only [strTree, h1]⟩
      · cases hv
    · intro hv
      cases hT : T.asVec with
      | none => simp only [strTree, hT]
      | some q => simp [isVec, Val.cls, hT] at hv
  | .enum _ _, _ => ⟨nofun, fun _ => rfl⟩
  | .tup T _ vs, h => by
    refine ⟨fun hv => ?_, fun _ => rfl⟩
    obtain ⟨-, k, fs, h1, -⟩ := h
    have := view_vec h1
    simp [isVec, Val.cls, this] at hv
  | .sum T v, h => by
    refine ⟨fun hv => ?_, fun _ => rfl⟩
    obtain ⟨-, k, fs, h1, -⟩ := h
    have := view_vec h1
    simp [isVec, Val.cls, this] at hv
  | .tag T _ v, h => by
    refine ⟨fun hv => ?_, fun _ => rfl⟩
    obtain ⟨-, k, fs, t, h1, -⟩ := h
    have := view_vec h1
    simp [isVec, Val.cls, this] at hv
where
  view_vec : ∀ {T : Ty} {p : Con × List Ty}, T.view = some p → T.asVec = none
    | .leaf _, _, h => nomatch h
    | .enum _, _, h => nomatch h
    | .node _ _, _, _ => rfl
    | .mod m t, p, h => by
      rw [Ty.view] at h
      cases hv : t.view with
      | none => rw [hv] at h; cases h
      | some q => exact view_vec (T := t) hv

theorem call_view {T : Ty} {k : Con} {fs : List Ty} (h : T.view = some (k, fs)) (pos : List Arg) (kw : List (Name × Arg)) :
    call W S T pos kw = match k.shape with
      | .sum => do return .sum T (← (← callSum Arg.cls fs pos kw).toVal)
      | .tagged => do
          let r ← callTagged (Arg.isinst W) k fs pos kw
          return .tag T r.1 (← r.2.toVal)
      | _ => do return .tup T false (← (← callTuple (Arg.isinst W) k fs pos kw).mapM Arg.toVal) := by
  cases T with
  | leaf l => cases h
  | enum e => cases h
  | node k' fs' => simp only [call, h]; cases k.shape <;> rfl
  | mod m t => simp only [call, h]; cases k.shape <;> rfl

/-- The argument for a field. -/
def Given (v : Val) (a : Arg) : Prop := (isVec v = true → ∃ z, a = .int z) ∧ (isVec v = false → a = .val v.plain)

theorem plains_map : ∀ vs : List Val, Val.plains vs = vs.map Val.plain
  | [] => rfl
  | v :: vs => by rw [Val.plains, plains_map vs, List.map_cons]

theorem toVals : ∀ vs : List Val, (vs.map Arg.val).mapM Arg.toVal = (.ok vs : PyM (List Val))
  | [] => rfl
  | v :: vs => by
    rw [List.map_cons, List.mapM_cons, toVals vs]
    rfl

theorem check_given : ∀ {vs : List Val} {as : List Arg} {fs : List Ty}, List.Forall₂ Given vs as →
    List.Forall₂ (fun v t => v.isinst W t = true) vs fs →
    (checkFields (Arg.isinst W) as fs = true ↔ ∀ v ∈ vs, isVec v = false) ∧
    ((∀ v ∈ vs, isVec v = false) → as = (Val.plains vs).map Arg.val)
  | [], _, _, .nil, .nil => by simp [checkFields, Val.plains]
  | v :: vs, a :: as, t :: ts, .cons h1 h2, .cons h3 h4 => by
    obtain ⟨i1, i2⟩ := check_given h2 h4
    rw [checkFields, Bool.and_eq_true, i1]
    simp only [List.forall_mem_cons]
    cases hv : isVec v with
    | true =>
      obtain ⟨z, rfl⟩ := h1.1 hv
      simp [Arg.isinst]
    | false =>
      have ha := h1.2 hv
      subst ha
      have : Arg.isinst W (.val v.plain) t = true := by rw [Arg.isinst, plain_inst]; exact h3
      simp only [this, true_and]
      exact fun h => by rw [i2 h, Val.plains, List.map_cons]

theorem check_plain : ∀ {vs : List Val} {fs : List Ty}, List.Forall₂ (fun v t => v.isinst W t = true) vs fs →
    checkFields (Arg.isinst W) ((vs.map Val.plain).map Arg.val) fs = true
  | [], _, .nil => rfl
  | v :: vs, t :: ts, .cons h1 h2 => by
    rw [List.map_cons, List.map_cons, checkFields, Arg.isinst, plain_inst, h1, check_plain h2]
    rfl

theorem bind_zip {α : Type} {names : List Name} {xs : List α} (hn : names.Nodup) (hl : names.length = xs.length) :
    bindArgs names [] (names.zip xs) = .ok xs := by
  refine (bindArgs_iff hn ?_).2 ⟨hl.symm, rfl, ?_⟩
  · rw [List.map_fst_zip (by omega)]; exact hn
  · exact .refl _

/-- An argument is rejected. -/
def Bad (e : PyErr) : Prop := e = .typeError ∨ e = .valueError

theorem call_tup {T : Ty} {k : Con} {fs : List Ty} (hv : T.view = some (k, fs)) (h1 : k.shape ≠ .sum) (h2 : k.shape ≠ .tagged)
    (pos : List Arg) (kw : List (Name × Arg)) :
    call W S T pos kw = (do return .tup T false (← (← callTuple (Arg.isinst W) k fs pos kw).mapM Arg.toVal)) := by
  rw [call_view hv]
  cases h : k.shape with
  | sum => exact absurd h h1
  | tagged => exact absurd h h2
  | _ => rfl

theorem tag_fine {i : Nat} {r : VE} {a : Arg} (hk : ∀ n, N.key (S.field n) = n) (h : r.eval W N S = .ok a) :
    ∀ (j : Nat) (ns : List Name), ∃ l, (tagArgs S i r j ns).eval W N S = .ok ([], l) ∧ l.length = ns.length ∧
      ∀ n, ns = [n] → i = j → l = [(n, a)]
  | j, [] => ⟨[], rfl, rfl, nofun⟩
  | j, n :: ns => by
    obtain ⟨l, h1, h2, -⟩ := tag_fine (i := i) hk h (j + 1) ns
    by_cases hij : i = j
    · refine ⟨(n, a) :: l, ?_, by simp [h2], ?_⟩
      · simp only [tagArgs, if_pos hij, Args.eval, h, h1, bind, Except.bind, pure, Except.pure, hk]
      · rintro m hm -
        cases hm
        rw [List.length_eq_zero_iff.1 (h2.trans rfl)]
    · refine ⟨(n, .none) :: l, ?_, by simp [h2], fun m _ e => absurd e hij⟩
      simp only [tagArgs, if_neg hij, Args.eval, VE.eval, h1, bind, Except.bind, pure, Except.pure, hk]

theorem tag_fails {i : Nat} {r : VE} {e : PyErr} (h : r.eval W N S = .error e) : ∀ (j : Nat) (ns : List Name), j ≤ i →
    i < j + ns.length → (tagArgs S i r j ns).eval W N S = .error e
  | j, [], h1, h2 => by simp at h2; omega
  | j, n :: ns, h1, h2 => by
    by_cases hij : i = j
    · simp only [tagArgs, if_pos hij, Args.eval, h, bind, Except.bind]
    · have := tag_fails (i := i) h (j + 1) ns (by omega) (by simp only [List.length_cons] at h2; omega)
      simp only [tagArgs, if_neg hij, Args.eval, VE.eval, this, bind, Except.bind]

mutual
theorem val_eval (hk : ∀ n, N.key (S.field n) = n) : ∀ v : Val, Sound W S v → ValMeans S N v →
    (Readable v ∧ (valTree S v).eval W N S = .ok (.val v.plain)) ∨
    (¬ Readable v ∧ ∃ e, Bad e ∧ (valTree S v).eval W N S = .error e)
  | .leaf T p, hs, h => by
    refine .inl ⟨trivial, ?_⟩
    rcases hs with ⟨k, n, hv, hp⟩ | ⟨rfl, hp⟩
    · have hT : T = .leaf (.vec k (some n)) := by
        cases T with
        | leaf l =>
          cases l with
          | cls c => cases hv
          | vec k' s => simp only [Ty.asVec, Option.some.injEq, Prod.mk.injEq] at hv; rw [hv.1, hv.2]
        | mod m t =>
          have h : plainName t = true ∧ _ := h
          have : ∀ t : Ty, plainName t = true → t.asVec = none := by
            intro t
            induction t using Ty.induct with
            | leaf l => cases l <;> simp [plainName, Ty.asVec]
            | enum e => simp [Ty.asVec]
            | node k fs _ => simp [Ty.asVec]
            | mod m t ih => exact ih
          rw [Ty.asVec, this t h.1] at hv
          cases hv
        | _ => cases hv
      subst hT
      have h1 := ty_eval (W := W) hk (.leaf (.vec k (some n))) (.leaf _) h
      have h2 : ((p : Int) % 2 ^ n).toNat = p := by
        have : ((p : Int) % 2 ^ n) = p := Int.emod_eq_of_lt (by omega) (by exact_mod_cast hp)
        rw [this]; simp
      simp only [valTree, VE.eval, Args.eval, h1, bind, Except.bind, Global.toCls, pure, Except.pure, Ty.asVec, call, Ty.view,
        initVec, h2, Val.plain]
    · have h1 := ty_eval (W := W) hk (.leaf (.cls S.bit)) (.leaf _) h
      have h2 : (decide (p = 1)).toNat = p := by
        rcases Nat.lt_or_ge p 1 with h | h
        · have : p = 0 := by omega
          subst this; rfl
        · have : p = 1 := by omega
          subst this; rfl
      simp only [valTree, VE.eval, Args.eval, h1, bind, Except.bind, Global.toCls, pure, Except.pure, Ty.asVec, call, Ty.view,
        Ty.unwrap, if_true, initBit, h2, Val.plain]
  | .enum e i, hs, h => by
    refine .inl ⟨trivial, ?_⟩
    have h : N.get (S.enum e.id) = some (.cls (.enum e)) := h
    have h1 : (e.members.map Prod.fst).idxOf? (e.members[i]'hs.1).1 = some i := by
      rw [List.idxOf?_eq_some_iff]
      have hl : i < (e.members.map Prod.fst).length := by rw [List.length_map]; exact hs.1
      refine ⟨hl, by simp, fun j hj => ?_⟩
      have hne := (List.nodup_iff_injective_get.1 hs.2).ne (a₁ := ⟨j, by omega⟩) (a₂ := ⟨i, hl⟩) (by simp; omega)
      simpa using hne
    simp only [valTree, VE.eval, CE.eval, look_some h, bind, Except.bind, Global.toCls, pure, Except.pure,
      List.getElem?_eq_getElem hs.1, Option.elim, member, hk, h1, Val.plain]
  | .tup T b vs, hs, h => by
    obtain ⟨hb, k, fs, hv, h1, h2, h3, h4⟩ := hs
    have ht := ty_eval hk T hb h.1
    have hr : Readable (.tup T b vs) ↔ Readables vs ∧ (k.shape ≠ .tuple → ∀ v ∈ vs, isVec v = false) := by
      rw [Readable]
      exact and_congr_right fun _ => ⟨fun h => h k fs hv, fun h k' fs' e => by
        rw [hv] at e; cases e; exact h⟩
    have hev : ∀ a : Args, (VE.call (tyTree S T) a).eval W N S = (do
        let l ← a.eval W N S
        return .val (← call W S T l.1 l.2)) := by
      intro a
      simp only [VE.eval, ht, bind, Except.bind, Global.toCls]
    have hlen := h3.length_eq
    rw [hr]
    simp only [valTree, hv]
    by_cases hsh : k.shape = .tuple
    · rw [if_pos hsh, hev]
      rcases poss_eval hk vs h4 h.2 with ⟨r1, r2⟩ | ⟨r1, e, r2, r3⟩
      · refine .inl ⟨⟨r1, fun hc => absurd hsh hc⟩, ?_⟩
        have hc : checkFields (Arg.isinst W) ((Val.plains vs).map Arg.val) fs = true := by
          rw [plains_map]
          exact check_plain h3
        have hl : ((Val.plains vs).map Arg.val).length = fs.length := by rw [plains_map]; simpa using hlen
        simp only [r2, bind, Except.bind, call_tup hv h1 h2, callTuple, if_pos hsh, if_true, initTuple,
          hl, ne_eq, not_true_eq_false, if_false, hc, toVals, pure, Except.pure, Val.plain]
      · exact .inr ⟨fun hh => r1 hh.1, e, r2, by rw [r3]; rfl⟩
    · rw [if_neg hsh, hev]
      obtain ⟨n1, n2⟩ := view_names hb hv hsh h1
      rcases kws_eval hk k.names vs (n1.trans hlen.symm) h4 h.2 with ⟨r1, xs, r2, r3⟩ | ⟨r1, e, r2, r3⟩
      · have hbind : bindArgs k.names [] (k.names.zip xs) = .ok xs := bind_zip n2 (by rw [n1, ← hlen, r2.length_eq])
        obtain ⟨c1, c2⟩ := check_given r2 h3
        have hl : xs.length = fs.length := by rw [← r2.length_eq, hlen]
        by_cases hvs : ∀ v ∈ vs, isVec v = false
        · refine .inl ⟨⟨r1, fun _ => hvs⟩, ?_⟩
          rw [r3]
          simp only [bind, Except.bind, call_tup hv h1 h2, callTuple, if_neg hsh, hbind, initTuple, hl, ne_eq, not_true_eq_false,
            if_false, c1.2 hvs, if_true]
          rw [c2 hvs, toVals]
          rfl
        · refine .inr ⟨fun hh => hvs (hh.2 hsh), .typeError, .inl rfl, ?_⟩
          have : checkFields (Arg.isinst W) xs fs = false := by
            cases hc : checkFields (Arg.isinst W) xs fs with
            | false => rfl
            | true => exact absurd (c1.1 hc) hvs
          rw [r3]
          simp only [bind, Except.bind, call_tup hv h1 h2, callTuple, if_neg hsh, hbind, initTuple, hl, ne_eq, not_true_eq_false,
            if_false, this, Bool.false_eq_true]
      · exact .inr ⟨fun hh => r1 hh.1, e, r2, by rw [r3]; rfl⟩
  | .sum T v, hs, h => by
    obtain ⟨hb, k, fs, hv, h1, h2, h3⟩ := hs
    have ht := ty_eval hk T hb h.1
    simp only [valTree, VE.eval, Args.eval, ht, bind, Except.bind, Global.toCls, Readable]
    cases hvec : isVec v with
    | true =>
      obtain ⟨-, z, hz⟩ := (str_vec (r := valTree S v) h3).1 hvec
      refine .inr ⟨fun hh => Bool.noConfusion hh.2, .typeError, .inl rfl, ?_⟩
      simp only [hz, VE.eval, pure, Except.pure, call_view hv, h1, callSum, Arg.cls, bind, Except.bind]
    | false =>
      rw [(str_vec (r := valTree S v) h3).2 hvec]
      rcases val_eval hk v h3 h.2 with ⟨r1, r2⟩ | ⟨r1, e, r2, r3⟩
      · refine .inl ⟨⟨r1, rfl⟩, ?_⟩
        simp only [r2, pure, Except.pure, call_view hv, h1, callSum, Arg.cls, bind, Except.bind, plain_cls, if_pos h2, Arg.toVal,
          Val.plain]
      · exact .inr ⟨fun hh => r1 hh.1, e, r2, by rw [r3]⟩
  | .tag T i v, hs, h => by
    obtain ⟨hb, k, fs, t, hv, h1, h2, h3, h4⟩ := hs
    have ht := ty_eval hk T hb h.1
    obtain ⟨n1, n2⟩ := view_names hb hv (by rw [h1]; decide) (by rw [h1]; decide)
    have hi : i < k.names.length := by
      rw [n1]
      by_contra hc
      rw [List.getElem?_eq_none (by omega)] at h2
      cases h2
    have hr : Readable (.tag T i v) ↔ Readable v ∧ isVec v = false ∧ k.names.length = 1 := by
      rw [Readable]
      exact and_congr_right fun _ => and_congr_right fun _ => ⟨fun h => h k fs hv, fun h k' fs' e => by
        rw [hv] at e; cases e; exact h⟩
    rw [hr]
    have hfine : ∀ a : Arg, (strTree S (valTree S v) v).eval W N S = .ok a →
        (k.names.length = 1 ∧ ∃ n, k.names = [n] ∧ (tagArgs S i (strTree S (valTree S v) v) 0 k.names).eval W N S = .ok ([], [(n, a)])) ∨
        (k.names.length ≠ 1 ∧ ∃ x y l, (tagArgs S i (strTree S (valTree S v) v) 0 k.names).eval W N S = .ok ([], x :: y :: l)) := by
      intro a ha
      obtain ⟨l, l1, l2, l3⟩ := tag_fine (i := i) hk ha 0 k.names
      by_cases hl : k.names.length = 1
      · obtain ⟨n, hn⟩ := List.length_eq_one_iff.1 hl
        exact .inl ⟨hl, n, hn, by rw [l1, l3 n hn (by omega)]⟩
      · refine .inr ⟨hl, ?_⟩
        match l, l2 with
        | [], l2 => simp at l2; omega
        | [x], l2 => simp at l2; omega
        | x :: y :: l, _ => exact ⟨x, y, l, l1⟩
    simp only [valTree, hv, VE.eval, ht, bind, Except.bind, Global.toCls]
    have hlong : ∀ x y l, call W S T [] (x :: y :: l) = .error .valueError := by
      intro x y l
      simp only [call_view hv, h1, callTagged, ne_eq, not_true_eq_false, if_false, bind, Except.bind]
    have hone : ∀ n, k.names = [n] → i = 0 → ∀ a, call W S T [] [(n, a)] =
        if a.isinst W t = true then (do return .tag T 0 (← a.toVal)) else .error .typeError := by
      intro n hn hi0 a
      subst hi0
      simp only [call_view hv, h1, callTagged, ne_eq, not_true_eq_false, if_false, hn, List.mem_singleton, if_true,
        List.idxOf_cons_self, h2]
      split <;> rfl
    cases hvec : isVec v with
    | true =>
      obtain ⟨-, z, hz⟩ := (str_vec (r := valTree S v) h4).1 hvec
      refine .inr ⟨fun hh => Bool.noConfusion hh.2.1, ?_⟩
      rcases hfine (.int z) (by rw [hz]; rfl) with ⟨-, n, hn, hl⟩ | ⟨-, x, y, l, hl⟩
      · refine ⟨.typeError, .inl rfl, ?_⟩
        have hi0 : i = 0 := by rw [hn] at hi; simpa using hi
        subst hi0
        simp only [hl, hone n hn rfl, Arg.isinst, Bool.false_eq_true, if_false]
      · exact ⟨.valueError, .inr rfl, by simp only [hl, hlong]⟩
    | false =>
      rw [(str_vec (r := valTree S v) h4).2 hvec] at hfine ⊢
      rcases val_eval hk v h4 h.2 with ⟨r1, r2⟩ | ⟨r1, e, r2, r3⟩
      · rcases hfine _ r2 with ⟨hl1, n, hn, hl⟩ | ⟨hl1, x, y, l, hl⟩
        · refine .inl ⟨⟨r1, rfl, hl1⟩, ?_⟩
          have hi0 : i = 0 := by rw [hn] at hi; simpa using hi
          subst hi0
          have : Arg.isinst W (.val v.plain) t = true := by rw [Arg.isinst, plain_inst]; exact h3
          simp only [hl, hone n hn rfl, this, if_true, Arg.toVal, bind, Except.bind, pure, Except.pure, Val.plain]
        · exact .inr ⟨fun hh => hl1 hh.2.2, .valueError, .inr rfl, by simp only [hl, hlong]⟩
      · refine .inr ⟨fun hh => r1 hh.1, e, r2, ?_⟩
        rw [tag_fails r3 0 k.names (by omega) (by omega)]
theorem poss_eval (hk : ∀ n, N.key (S.field n) = n) : ∀ vs : List Val, Sounds W S vs → ValsMean S N vs →
    (Readables vs ∧ (posArgs S vs).eval W N S = .ok ((Val.plains vs).map Arg.val, [])) ∨
    (¬ Readables vs ∧ ∃ e, Bad e ∧ (posArgs S vs).eval W N S = .error e)
  | [], _, _ => .inl ⟨trivial, rfl⟩
  | v :: vs, hs, h => by
    rw [Readables]
    rcases val_eval hk v hs.1 h.1 with ⟨r1, r2⟩ | ⟨r1, e, r2, r3⟩
    · rcases poss_eval hk vs hs.2 h.2 with ⟨q1, q2⟩ | ⟨q1, e, q2, q3⟩
      · exact .inl ⟨⟨r1, q1⟩, by simp only [posArgs, Args.eval, r2, q2, bind, Except.bind, pure, Except.pure, Val.plains, List.map_cons]⟩
      · exact .inr ⟨fun hh => q1 hh.2, e, q2, by simp only [posArgs, Args.eval, r2, q3, bind, Except.bind]⟩
    · exact .inr ⟨fun hh => r1 hh.1, e, r2, by simp only [posArgs, Args.eval, r3, bind, Except.bind]⟩
theorem kws_eval (hk : ∀ n, N.key (S.field n) = n) : ∀ (ns : List Name) (vs : List Val), ns.length = vs.length → Sounds W S vs →
    ValsMean S N vs →
    (Readables vs ∧ ∃ xs, List.Forall₂ Given vs xs ∧ (kwArgs S ns vs).eval W N S = .ok ([], ns.zip xs)) ∨
    (¬ Readables vs ∧ ∃ e, Bad e ∧ (kwArgs S ns vs).eval W N S = .error e)
  | [], [], _, _, _ => .inl ⟨trivial, [], .nil, rfl⟩
  | n :: ns, v :: vs, hl, hs, h => by
    rw [Readables]
    have hrest := kws_eval hk ns vs (by simpa using hl) hs.2 h.2
    have key : ∀ a, Readable v → Given v a → (strTree S (valTree S v) v).eval W N S = .ok a →
        ((Readable v ∧ Readables vs) ∧ ∃ xs, List.Forall₂ Given (v :: vs) xs ∧
          (kwArgs S (n :: ns) (v :: vs)).eval W N S = .ok ([], (n :: ns).zip xs)) ∨
        (¬ (Readable v ∧ Readables vs) ∧ ∃ e, Bad e ∧ (kwArgs S (n :: ns) (v :: vs)).eval W N S = .error e) := by
      intro a hr hg ha
      rcases hrest with ⟨q1, xs, q2, q3⟩ | ⟨q1, e, q2, q3⟩
      · exact .inl ⟨⟨hr, q1⟩, a :: xs, .cons hg q2, by
          simp only [kwArgs, Args.eval, ha, q3, bind, Except.bind, pure, Except.pure, hk, List.zip_cons_cons]⟩
      · exact .inr ⟨fun hh => q1 hh.2, e, q2, by simp only [kwArgs, Args.eval, ha, q3, bind, Except.bind]⟩
    cases hvec : isVec v with
    | true =>
      obtain ⟨hr, z, hz⟩ := (str_vec (r := valTree S v) hs.1).1 hvec
      exact key (.int z) hr ⟨fun _ => ⟨z, rfl⟩, fun hc => by rw [hvec] at hc; cases hc⟩ (by rw [hz]; rfl)
    | false =>
      have hst := (str_vec (r := valTree S v) hs.1).2 hvec
      rcases val_eval hk v hs.1 h.1 with ⟨r1, r2⟩ | ⟨r1, e, r2, r3⟩
      · exact key (.val v.plain) r1 ⟨fun hc => (by rw [hvec] at hc; cases hc), fun _ => rfl⟩ (by rw [hst]; exact r2)
      · exact .inr ⟨fun hh => r1 hh.1, e, r2, by simp only [kwArgs, Args.eval, hst, r3, bind, Except.bind]⟩
end

end

theorem ce_empty {c : CE} (hc : c.Ok) {w r t : List Char} (hw : IsName w) (hr : ∃ a l, r = a :: l ∧ (a = '.' ∨ a = '('))
    (e : c.text ++ r = w ++ '[' :: ']' :: t) : False := by
  obtain ⟨a, l, rfl, ha⟩ := hr
  have hs : Stop (a :: l) := stop_cons (by rcases ha with rfl | rfl <;> decide)
  cases c with
  | name w' =>
    have := (cutName hc hw hs stop_bracket e).2
    rcases ha with rfl | rfl <;> cases this
  | idx w' n =>
    simp only [CE.text, List.append_assoc, List.cons_append] at e
    have := (cutName hc hw stop_bracket stop_bracket e).2
    simp only [List.cons.injEq, true_and] at this
    obtain ⟨c, l', h1, h2⟩ := int_head n (']' :: a :: l)
    rw [List.nil_append, h1] at this
    cases this
    exact absurd h2 (by decide)
  | sub w' l' =>
    simp only [CE.text, List.append_assoc, List.cons_append] at e
    have := (cutName hc.1 hw stop_bracket stop_bracket e).2
    cases l' with
    | nil => exact hc.2.1 rfl
    | cons c' l' =>
      simp only [CEs.text, List.cons.injEq, true_and, List.append_assoc] at this
      obtain ⟨b, l2, h1, h2, -⟩ := ce_head c' hc.2.2.1 (l'.tail ++ ([']'] ++ a :: l))
      rw [List.cons_append, List.nil_append] at h1
      rw [List.nil_append, h1] at this
      cases this
      exact absurd h2 (by decide)
  | dict w' d =>
    simp only [CE.text, List.append_assoc, List.cons_append] at e
    have := (cutName hc.1 hw stop_bracket stop_bracket e).2
    cases this

end Adt.Source

/-- A text is the text of at most one expression. -/
theorem C152_unique {e e' : VE} (h : e.Ok) (h' : e'.Ok) (he : e.text = e'.text) : e = e' :=
  (ve_uniq e e' [] [] h h' nofun nofun (by rw [he])).1

section
variable {W : World} {S : Spell} {N : Ns}

/-- What `repr` prints is an expression. -/
theorem C152_expression (hS : Names S) (hk : ∀ n, N.key (S.field n) = n) {x : Val} (hx : Sound W S x) (hN : ValMeans S N x) :
    ∃ e : VE, e.Ok ∧ e.text = x.repr S := ⟨valTree S x, val_ok hS hk x hx hN, val_text S x hx⟩

/-- `eval(repr(x))` is `x`, not assigned to, unless there is a vector as a field of a Product or AnonymousProduct or as the
value of a Sum or TaggedUnion, or a TaggedUnion with several fields. -/
theorem C152_eval_partial (hS : Names S) (hk : ∀ n, N.key (S.field n) = n) {x : Val} (hx : Sound W S x) (hN : ValMeans S N x)
    (hr : Readable x) {e : VE} (he : e.Ok) (ht : e.text = x.repr S) : e.eval W N S = .ok (.val x.plain) := by
  rw [C152_unique he (val_ok hS hk x hx hN) (ht.trans (val_text S x hx).symm)]
  rcases val_eval hk x hx hN with ⟨-, h⟩ | ⟨h, -⟩
  · exact h
  · exact absurd hr h

/-- … and it is equal to `x`, if neither `x` nor anything inside it was assigned to. -/
theorem C152_equal_partial (hS : Names S) (hk : ∀ n, N.key (S.field n) = n) {x : Val} (hx : Sound W S x) (hN : ValMeans S N x)
    (hr : Readable x) (hf : x.Fresh) (L : Leaves) {e : VE} (he : e.Ok) (ht : e.text = x.repr S) :
    ∃ y, e.eval W N S = .ok (.val y) ∧ y.cls = x.cls ∧ y.repr S = x.repr S ∧ Val.eq W L x y = true := by
  have h := C152_eval_partial hS hk hx hN hr he ht
  rw [fresh_plain hf] at h
  exact ⟨x, h, rfl, rfl, C56_refl x⟩

/-- In those cases `eval(repr(x))` raises TypeError or ValueError. -/
theorem C152_fails (hS : Names S) (hk : ∀ n, N.key (S.field n) = n) {x : Val} (hx : Sound W S x) (hN : ValMeans S N x)
    (hr : ¬ Readable x) {e : VE} (he : e.Ok) (ht : e.text = x.repr S) :
    e.eval W N S = .error .typeError ∨ e.eval W N S = .error .valueError := by
  rw [C152_unique he (val_ok hS hk x hx hN) (ht.trans (val_text S x hx).symm)]
  rcases val_eval hk x hx hN with ⟨h, -⟩ | ⟨-, e, h1 | h1, h⟩
  · exact absurd h hr
  · subst h1; exact .inl h
  · subst h1; exact .inr h

/-- A Product with a field that is a vector: TypeError. -/
theorem C152_product_refuted (hS : Names S) (hk : ∀ n, N.key (S.field n) = n) {T : Ty} {b : Bool} {vs : List Val}
    (hx : Sound W S (.tup T b vs)) (hN : ValMeans S N (.tup T b vs)) {k : Con} {fs : List Ty} (hv : T.view = some (k, fs))
    (hs : k.shape ≠ .tuple) {v : Val} (hm : v ∈ vs) {f n : Nat} (hf : v.cls.asVec = some (f, some n)) (hr : Readables vs)
    {e : VE} (he : e.Ok) (ht : e.text = (Val.tup T b vs).repr S) : e.eval W N S = .error .typeError := by
  rw [C152_unique he (val_ok hS hk _ hx hN) (ht.trans (val_text S _ hx).symm)]
  obtain ⟨hb, k', fs', hv', h1, h2, h3, h4⟩ := hx
  rw [hv] at hv'
  cases hv'
  obtain ⟨n1, n2⟩ := view_names hb hv hs h1
  rcases kws_eval hk k.names vs (n1.trans h3.length_eq.symm) h4 hN.2 with ⟨r1, xs, r2, r3⟩ | ⟨r1, -⟩
  · have hbind : bindArgs k.names [] (k.names.zip xs) = .ok xs := bind_zip n2 (by rw [n1, ← h3.length_eq, r2.length_eq])
    obtain ⟨c1, -⟩ := check_given r2 h3
    have : checkFields (Arg.isinst W) xs fs = false := by
      cases hc : checkFields (Arg.isinst W) xs fs with
      | false => rfl
      | true =>
        have := c1.1 hc v hm
        rw [isVec, hf] at this
        cases this
    simp only [valTree, hv, if_neg hs, VE.eval, ty_eval hk T hb hN.1, bind, Except.bind, Global.toCls, r3,
      call_tup hv h1 h2, callTuple, hbind, initTuple, ← r2.length_eq, h3.length_eq, ne_eq, not_true_eq_false, if_false, this,
      Bool.false_eq_true]
  · exact absurd hr r1

/-- A Sum holding a vector: TypeError. -/
theorem C152_sum_refuted (hS : Names S) (hk : ∀ n, N.key (S.field n) = n) {T : Ty} {v : Val} (hx : Sound W S (.sum T v))
    (hN : ValMeans S N (.sum T v)) {f n : Nat} (hf : v.cls.asVec = some (f, some n))
    {e : VE} (he : e.Ok) (ht : e.text = (Val.sum T v).repr S) : e.eval W N S = .error .typeError := by
  rw [C152_unique he (val_ok hS hk _ hx hN) (ht.trans (val_text S _ hx).symm)]
  obtain ⟨hb, k, fs, hv, h1, -, h4⟩ := hx
  obtain ⟨-, z, hz⟩ := (str_vec (r := valTree S v) h4).1 (by rw [isVec, hf]; rfl)
  simp only [valTree, VE.eval, Args.eval, ty_eval hk T hb hN.1, bind, Except.bind, Global.toCls, hz, pure, Except.pure,
    call_view hv, h1, callSum, Arg.cls]

/-- A TaggedUnion with several fields, holding something readable: ValueError. -/
theorem C152_tagged_refuted (hS : Names S) (hk : ∀ n, N.key (S.field n) = n) {T : Ty} {i : Nat} {v : Val}
    (hx : Sound W S (.tag T i v)) (hN : ValMeans S N (.tag T i v)) {k : Con} {fs : List Ty} (hv : T.view = some (k, fs))
    (hl : 2 ≤ fs.length) (hr : Readable v) {e : VE} (he : e.Ok) (ht : e.text = (Val.tag T i v).repr S) :
    e.eval W N S = .error .valueError := by
  rw [C152_unique he (val_ok hS hk _ hx hN) (ht.trans (val_text S _ hx).symm)]
  obtain ⟨hb, k', fs', t, hv', h1, -, -, h4⟩ := hx
  rw [hv] at hv'
  cases hv'
  obtain ⟨n1, -⟩ := view_names hb hv (by rw [h1]; decide) (by rw [h1]; decide)
  have ⟨a, ha⟩ : ∃ a, (strTree S (valTree S v) v).eval W N S = .ok a := by
    cases hc : isVec v with
    | true =>
      obtain ⟨-, z, hz⟩ := (str_vec (r := valTree S v) h4).1 hc
      exact ⟨.int z, by rw [hz]; rfl⟩
    | false =>
      rw [(str_vec (r := valTree S v) h4).2 hc]
      rcases val_eval hk v h4 hN.2 with ⟨-, h⟩ | ⟨h, -⟩
      · exact ⟨_, h⟩
      · exact absurd hr h
  obtain ⟨l, l1, l2, -⟩ := tag_fine (i := i) hk ha 0 k.names
  match l, l2 with
  | [], l2 => simp at l2; omega
  | [x], l2 => simp at l2; omega
  | x :: y :: l, _ =>
    simp only [valTree, hv, VE.eval, ty_eval hk T hb hN.1, bind, Except.bind, Global.toCls, l1, call_view hv, h1, callTagged,
      ne_eq, not_true_eq_false, if_false]

/-- The only value of `Tuple[()]` prints `Tuple[]()`, which is not an expression. -/
theorem C152_empty_refuted (hS : Names S) {k : Con} (hk : k.shape = .tuple) {e : VE} (he : e.Ok) :
    e.text ≠ (Val.tup (.node k []) false []).repr S := by
  intro h
  have h : e.text = k.base.nm S ++ '[' :: ']' :: ['(', ')'] := by
    rw [h]
    simp [Val.repr, Ty.view, hk, Ty.nm, Con.nm, Ty.nms, joined, Val.reprs]
  have hw := base_name hS k.base
  cases e with
  | int z => exact int_ce (c := .name (k.base.nm S)) hw (r := []) (by rw [List.append_nil]; exact h)
  | bool b =>
    have hm : '[' ∈ (VE.bool b).text := by rw [h]; simp
    cases b <;> exact absurd hm (by decide)
  | none =>
    have hm : '[' ∈ VE.none.text := by rw [h]; simp
    exact absurd hm (by decide)
  | attr c w => exact ce_empty he.1 hw ⟨_, _, rfl, .inl rfl⟩ h
  | call c a => exact ce_empty he.1 hw ⟨_, _, rfl, .inr rfl⟩ h
end

namespace Adt.Source

theorem demo_name (c : Char) (h : c.isDigit = false) (hc : idChar c = true) (n : Nat) : IsName (c :: pyStr n) :=
  ⟨⟨c, _, rfl, h⟩, fun d hd => by
    rcases List.mem_cons.1 hd with rfl | hd
    · exact hc
    · exact digit_idChar (List.all_eq_true.1 (Fp.digits_all n) d hd)⟩

theorem demo_names : Names demoSpell where
  field := demo_name _ rfl rfl
  cls := demo_name _ rfl rfl
  fam := demo_name _ rfl rfl
  enum := demo_name _ rfl rfl
  base := demo_name _ rfl rfl
  named := demo_name _ rfl rfl
  mod := demo_name _ rfl rfl

/-- `Tuple[Bit, BitVector[8]]` -/
def demoPair : Ty := mkTuple (.user 1) [.leaf (.cls 0), .leaf (.vec 0 (some 8))]
/-- `class P(Product): x = Tuple[Bit, BitVector[8]]` -/
def demoBox : Ty := mkProduct (.user 2) 0 0 [0] [demoPair]
/-- `class Q(Product): x = BitVector[8]` -/
def demoFlat : Ty := mkProduct (.user 2) 1 0 [0] [.leaf (.vec 0 (some 8))]

noncomputable def demoNs : Ns where
  get
    | ['C', '0'] => some (.cls (.leaf (.cls 0)))
    | ['V', '0'] => some (.fam 0)
    | ['T', '1'] => some (.base .tuple (.user 1))
    | ['P', '0'] => some (.cls demoBox)
    | ['P', '1'] => some (.cls demoFlat)
    | _ => none
  key := Function.invFun demoSpell.field

theorem demo_key (n : Name) : demoNs.key (demoSpell.field n) = n :=
  Function.leftInverse_invFun (fun m n h => demo_ok.field_inj m n h) n

/-- `P(x=Tuple[Bit, BitVector[8]](Bit(True), BitVector[8](3)))` -/
def demoRead : Val := .tup demoBox false [.tup demoPair false [.leaf (.leaf (.cls 0)) 1, .leaf (.leaf (.vec 0 (some 8))) 3]]
/-- `Q(x=BitVector[8](3))` -/
def demoUnread : Val := .tup demoFlat false [.leaf (.leaf (.vec 0 (some 8))) 3]

example : demoRead.repr demoSpell = "P0(f0=T1[C0, V0[8]](C0(True), V0[8](3)))".toList := by decide +kernel
example : demoUnread.repr demoSpell = "P1(f0=3)".toList := by decide +kernel

theorem demo_pair (W : World) : Built W demoPair := .tuple _ _ fun t ht => by
  rcases List.mem_cons.1 ht with rfl | ht
  · exact .leaf _
  · rw [List.mem_singleton.1 ht]; exact .leaf _

theorem demo_read (W : World) : Sound W demoSpell demoRead :=
  ⟨.product _ _ _ _ _ rfl (by decide) (fun t ht => by rw [List.mem_singleton.1 ht]; exact demo_pair W), _, _, rfl, nofun, nofun,
    .cons (W.sub_refl _) .nil,
    ⟨demo_pair W, _, _, rfl, nofun, nofun, .cons (W.sub_refl _) (.cons (W.sub_refl _) .nil),
      .inr ⟨rfl, by decide⟩, .inl ⟨0, 8, rfl, by decide⟩, trivial⟩, trivial⟩

theorem demo_unread (W : World) : Sound W demoSpell demoUnread :=
  ⟨.product _ _ _ _ _ rfl (by decide) (fun t ht => by rw [List.mem_singleton.1 ht]; exact .leaf _), _, _, rfl, nofun, nofun,
    .cons (W.sub_refl _) .nil, .inl ⟨0, 8, rfl, by decide⟩, trivial⟩

end Adt.Source

example (W : World) (L : Leaves) : ∃ e : VE, e.Ok ∧ e.text = demoRead.repr demoSpell ∧
    ∃ y, e.eval W demoNs demoSpell = .ok (.val y) ∧ Val.eq W L demoRead y = true := by
  have hN : ValMeans demoSpell demoNs demoRead :=
    ⟨rfl, ⟨⟨by simp, rfl, rfl, rfl, trivial⟩, rfl, rfl, trivial⟩, trivial⟩
  obtain ⟨e, h1, h2⟩ := C152_expression demo_names demo_key (demo_read W) hN
  obtain ⟨y, h3, -, -, h4⟩ := C152_equal_partial demo_names demo_key (demo_read W) hN
    ⟨⟨⟨⟨trivial, trivial, trivial⟩, fun k fs hv hs => by cases hv; exact absurd rfl hs⟩, trivial⟩, fun k fs hv hs v hm => by
      rw [List.mem_singleton.1 hm]; rfl⟩ ⟨rfl, ⟨rfl, trivial, trivial, trivial⟩, trivial⟩ L h1 h2
  exact ⟨e, h1, h2, y, h3, h4⟩

example (W : World) : ∃ e : VE, e.Ok ∧ e.text = "P1(f0=3)".toList ∧ e.eval W demoNs demoSpell = .error .typeError := by
  have hN : ValMeans demoSpell demoNs demoUnread := ⟨rfl, rfl, trivial⟩
  obtain ⟨e, h1, h2⟩ := C152_expression demo_names demo_key (demo_unread W) hN
  exact ⟨e, h1, h2.trans (by decide +kernel), C152_product_refuted demo_names demo_key (demo_unread W) hN (k := _) (fs := _) rfl nofun
    (List.mem_singleton.2 rfl) (f := 0) (n := 8) rfl ⟨trivial, trivial⟩ h1 h2⟩

end HW
