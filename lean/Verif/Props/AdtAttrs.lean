import Verif.Model.Adt.Attrs
import Verif.Props.AdtNames

/-! # Property C150: the names of fields and the attributes of the library -/

namespace HW
open Adt.Names Adt.Attrs

namespace Adt.Attrs

theorem look_mem {V : Type} {d : List (Str × V)} {n : Str} {a : V} (h : Names.look d n = some a) : (n, a) ∈ d := by
  unfold Names.look at h
  cases hf : d.find? fun e => decide (e.1 = n) with
  | none => rw [hf] at h; cases h
  | some e =>
    rw [hf] at h
    simp only [Option.map_some, Option.some.injEq] at h
    have h1 := List.find?_some hf
    have h2 := List.mem_of_find?_eq_some hf
    simp only [decide_eq_true_eq] at h1
    subst h1
    subst h
    exact h2

theorem look_none {V : Type} {d : List (Str × V)} {n : Str} (h : ∀ a, (n, a) ∉ d) : Names.look d n = none := by
  cases hl : Names.look d n with
  | none => rfl
  | some a => exact absurd (look_mem hl) (h a)

theorem find_mem {l : List Dict} {n : Str} {a : Attr} (h : find l n = some a) : ∃ d ∈ l, (n, a) ∈ d := by
  induction l with
  | nil => cases h
  | cons d l ih =>
    unfold find at h
    cases hl : Names.look d n with
    | some b =>
      rw [hl] at h
      cases h
      exact ⟨d, List.mem_cons_self, look_mem hl⟩
    | none =>
      rw [hl] at h
      obtain ⟨d', h1, h2⟩ := ih h
      exact ⟨d', List.mem_cons_of_mem _ h1, h2⟩

theorem find_cons_none {d : Dict} {l : List Dict} {n : Str} (h : ∀ a, (n, a) ∉ d) : find (d :: l) n = find l n := by
  rw [find, look_none h]; rfl

theorem find_append_none {l l' : List Dict} {n : Str} (h : ∀ d ∈ l, ∀ a, (n, a) ∉ d) : find (l ++ l') n = find l' n := by
  induction l with
  | nil => rfl
  | cons d l ih =>
    rw [List.cons_append, find_cons_none (h d List.mem_cons_self), ih fun e he => h e (List.mem_cons_of_mem _ he)]

theorem look_fieldDict (mk : Nat → Attr) : ∀ (l : List Str) (j i : Nat) (k : Str), l.Nodup → l[i]? = some k →
    Names.look (fieldDict mk j l) k = some (mk (j + i))
  | [], _, _, _, _, h => by simp at h
  | x :: l, j, i, k, hn, h => by
    rw [List.nodup_cons] at hn
    cases i with
    | zero =>
      simp only [List.getElem?_cons_zero, Option.some.injEq] at h
      subst h
      simp [fieldDict, Names.look]
    | succ i =>
      simp only [List.getElem?_cons_succ] at h
      have hne : ¬ x = k := fun e => hn.1 (e ▸ List.mem_of_getElem? h)
      have := look_fieldDict mk l (j + 1) i k hn.2 h
      rw [show j + (i + 1) = j + 1 + i by omega, ← this]
      simp [fieldDict, Names.look, hne]

theorem mem_fieldDict {mk : Nat → Attr} {l : List Str} {j : Nat} {k : Str} {a : Attr} (h : (k, a) ∈ fieldDict mk j l) :
    k ∈ l := by
  induction l generalizing j with
  | nil => cases h
  | cons x l ih =>
    rcases List.mem_cons.1 h with h | h
    · cases h; exact List.mem_cons_self
    · exact List.mem_cons_of_mem _ (ih h)

theorem look_append {V : Type} (d d' : List (Str × V)) (n : Str) :
    Names.look (d ++ d') n = (Names.look d n).orElse fun _ => Names.look d' n := by
  unfold Names.look
  rw [List.find?_append]
  cases d.find? fun e => decide (e.1 = n) <;> rfl

/-- The properties of the metaclasses. -/
def metaProps : List Str := [nFields, nFieldDict, nIsBound, nIsCached, nUnboundT]

theorem meta_data {m : Meta} {n : Str} {a : Attr} (h : find (metaMro m) n = some a) (hd : a.isData = true) : n ∈ metaProps := by
  obtain ⟨d, h1, h2⟩ := find_mem h
  have : ∀ d ∈ metaMro m, ∀ e ∈ d, e.2.isData = true → e.1 ∈ metaProps := by cases m <;> decide
  exact this d h1 _ h2 hd

/-- The class declares its fields under distinct names, none of which is among the other entries of the body. -/
structure Cls.Ok (c : Cls) : Prop where
  nodup : c.fields.Nodup
  own : ∀ k ∈ c.fields, ∀ a, (k, a) ∉ c.own
  free : ∀ k ∈ c.fields, k ∉ reservedAttrs

/-- A base class written by the user has the attribute. -/
def Cls.Inherits (c : Cls) (k : Str) : Prop := ∃ d ∈ c.bases, ∃ a, (k, a) ∈ d

theorem find_field {c : Cls} (hc : c.Ok) {i : Nat} {k : Str} (hk : c.fields[i]? = some k)
    (hb : c.m = .product → ¬ c.Inherits k) : find c.mro k = some (match c.m with | .enum => .elem i | _ => .typed i) := by
  have hown := hc.own k (List.mem_of_getElem? hk)
  unfold Cls.mro
  cases hm : c.m with
  | product =>
    dsimp only
    rw [find_cons_none hown, find_append_none fun d hd a ha => hb hm ⟨d, hd, a, ha⟩, find,
      look_fieldDict .typed c.fields 0 i k hc.nodup hk]
    simp
  | tagged =>
    dsimp only
    rw [find, look_append, look_fieldDict .typed c.fields 0 i k hc.nodup hk]
    simp
  | enum =>
    dsimp only
    rw [find, look_append, look_fieldDict .elem c.fields 0 i k hc.nodup hk]
    simp

theorem ok_of_create {m : Meta} {body : List (Str × Names.Obj)} {data : Nat → Bool} {bases : List Dict} {c : Cls}
    (hb : (body.map (·.1)).Nodup) (h : create m body data bases = .ok c) :
    c.Ok ∧ c.m = m ∧ c.bases = bases ∧ (m = .enum → ∀ k ∈ c.fields, k ∉ metaProps) := by
  unfold create at h
  cases hs : scan m body with
  | error e => rw [hs] at h; cases h
  | ok p =>
    obtain ⟨fs, rest⟩ := p
    rw [hs] at h
    obtain ⟨h1, h2, h3, h4, _, h6⟩ := C68_fields hs
    simp only [bind, Except.bind, pure, Except.pure] at h
    split at h
    · cases h
    · rename_i hx
      cases h
      refine ⟨⟨(h1.map _).nodup hb, ?_, ?_⟩, rfl, rfl, ?_⟩
      · intro k hk a ha
        simp only [List.mem_map] at hk ha
        obtain ⟨e, he, rfl⟩ := hk
        obtain ⟨e', he', hee⟩ := ha
        have heq : e' = e := by
          refine List.inj_on_of_nodup_map hb (h2.subset he') (h1.subset he) ?_
          exact (Prod.mk.inj hee).1
        subst heq
        exact (h4 e' (h2.subset he')).1 he' ((h3 e' (h2.subset he')).1 he)
      · intro k hk
        simp only [List.mem_map] at hk
        obtain ⟨e, he, rfl⟩ := hk
        exact h6 e he
      · rintro rfl k hk hp
        apply hx
        refine ⟨rfl, ?_⟩
        rw [List.any_eq_true]
        refine ⟨k, hk, ?_⟩
        have : ∀ k ∈ metaProps, (match find (metaMro .enum) k with | some a => a.isData | none => false) = true := by decide
        exact this k hp

theorem body_of_create {m : Meta} {body : List (Str × Names.Obj)} {data : Nat → Bool} {bases : List Dict} {c : Cls}
    (h : create m body data bases = .ok c) (n : Str) (hn : n ∈ c.fields ∨ ∃ a, (n, a) ∈ c.own) : n ∈ body.map (·.1) := by
  unfold create at h
  cases hs : scan m body with
  | error e => rw [hs] at h; cases h
  | ok p =>
    rw [hs] at h
    obtain ⟨h1, h2, _⟩ := C68_fields (fs := p.1) (rest := p.2) hs
    simp only [bind, Except.bind, pure, Except.pure] at h
    split at h
    · cases h
    · cases h
      rcases hn with hn | ⟨a, ha⟩
      · exact (h1.map _).subset hn
      · simp only [List.mem_map] at ha
        obtain ⟨e, he, hee⟩ := ha
        rw [← (Prod.mk.inj hee).1]
        exact List.mem_map_of_mem (h2.subset he)

theorem classGet_field {c : Cls} (hc : c.Ok) {i : Nat} {k : Str} (hk : c.fields[i]? = some k) (hu : k ≠ nUnboundT)
    (hb : c.m = .product → ¬ c.Inherits k) : c.classGet k = match c.m with | .enum => .elem i | _ => .fieldType i := by
  have hf := find_field hc hk hb
  have hfree := hc.free k (List.mem_of_getElem? hk)
  have hmeta : k ∉ metaProps := by
    intro h
    have : ∀ n ∈ metaProps, n = nUnboundT ∨ n ∈ reservedAttrs := by decide
    exact (this k h).elim hu hfree
  unfold Cls.classGet
  cases ha : find (metaMro c.m) k with
  | none =>
    rw [hf]
    cases c.m <;> rfl
  | some a =>
    have : a.isData = false := by
      cases hd : a.isData with
      | false => rfl
      | true => exact absurd (meta_data ha hd) hmeta
    simp only [this, Bool.false_eq_true, if_false, hf]
    cases c.m <;> rfl

theorem lib_of_free {c : Cls} {n : Str} (ho : ∀ a, (n, a) ∉ c.own) (hb : ¬ c.Inherits n) (hf : n ∉ c.fields) :
    find c.mro n = find (match c.m with
      | .product => [[(nValueDict, .lib .anonymousProduct true), (nFromKwargs, .lib .anonymousProduct false)], tupleDict]
      | .tagged => [[(nValueDict, .lib .taggedUnion true), (nFromKwargs, .lib .taggedUnion false)],
          [(nMatch, .lib .sum false), (nValueDict, .lib .sum true), (nFromValues, .lib .sum false),
            (nFromKwargs, .lib .sum false), (nValue, .lib .sum true)]]
      | .enum => [[(nName, .lib .enum true), (nValue, .lib .enum true)]]) n := by
  have hb' : ∀ d ∈ c.bases, ∀ a, (n, a) ∉ d := fun d hd a ha => hb ⟨d, hd, a, ha⟩
  unfold Cls.mro
  cases c.m with
  | product =>
    dsimp only
    rw [find_cons_none ho, find_append_none hb', find_cons_none fun a ha => hf (mem_fieldDict ha)]
  | tagged =>
    dsimp only
    rw [find_cons_none, find_append_none hb']
    intro a ha
    exact (List.mem_append.1 ha).elim (fun h => hf (mem_fieldDict h)) (ho a)
  | enum =>
    dsimp only
    rw [find_cons_none, find_append_none hb']
    intro a ha
    exact (List.mem_append.1 ha).elim (fun h => hf (mem_fieldDict h)) (ho a)

end Adt.Attrs

/-- **C150** (reading a field on the class, partial).  If a class statement succeeds, `C.k` is the type of field `k`, for an
Enum the member `k`.  Missing: fields called `unbound_t`, and fields of a Product whose name is an attribute of a base class
the user wrote. -/
theorem C150_class_partial {m : Meta} {body : List (Str × Adt.Names.Obj)} {data : Nat → Bool} {bases : List Dict} {c : Cls}
    (hd : (body.map (·.1)).Nodup) (h : create m body data bases = .ok c) {i : Nat} {k : Str} (hk : c.fields[i]? = some k)
    (hu : k ≠ nUnboundT) (hb : m = .product → ∀ d ∈ bases, ∀ a, (k, a) ∉ d) :
    c.classGet k = if m = .enum then .elem i else .fieldType i := by
  obtain ⟨hc, rfl, rfl, _⟩ := ok_of_create hd h
  rw [classGet_field hc hk hu fun hm ⟨d, h1, a, h2⟩ => hb hm d h1 a h2]
  cases c.m <;> rfl

/-- **C150** (reading a field on an instance, partial).  `x.k` is the value of field `k` (for a TaggedUnion the `Match` of that
field), and on a member of an Enum it raises AttributeError.  Missing: as above, for a TaggedUnion also classes in which
`Match` is a field or an attribute of the user; fields called `unbound_t` are included. -/
theorem C150_instance_partial {m : Meta} {body : List (Str × Adt.Names.Obj)} {data : Nat → Bool} {bases : List Dict} {c : Cls}
    (hd : (body.map (·.1)).Nodup) (h : create m body data bases = .ok c) {i : Nat} {k : Str} (hk : c.fields[i]? = some k)
    (hb : m = .product → ∀ d ∈ bases, ∀ a, (k, a) ∉ d)
    (hm : m = .tagged → nMatch ∉ body.map (·.1) ∧ ∀ d ∈ bases, ∀ a, (nMatch, a) ∉ d) :
    c.instGet k = if m = .enum then .attributeError else .fieldValue i := by
  obtain ⟨hc, rfl, rfl, _⟩ := ok_of_create hd h
  have hf := find_field hc hk fun hm ⟨d, h1, a, h2⟩ => hb hm d h1 a h2
  unfold Cls.instGet
  cases hcm : c.m with
  | enum => simp [List.mem_of_getElem? hk]
  | product =>
    rw [hcm] at hf
    simp [hf, Attr.isData, Cls.onInst, hcm]
  | tagged =>
    rw [hcm] at hf
    have hmatch : c.classGet nMatch = .lib .sum := by
      have hbody := hm hcm
      have hsub := body_of_create h
      have hl := lib_of_free (c := c) (n := nMatch) (fun a ha => hbody.1 (hsub _ (.inr ⟨a, ha⟩)))
        (fun ⟨d, h1, a, h2⟩ => hbody.2 d h1 a h2) fun hn => hbody.1 (hsub _ (.inl hn))
      unfold Cls.classGet
      rw [hl, hcm]
      rfl
    simp [hf, Attr.isData, Cls.onInst, hcm, hmatch]

/-- **C150** (attributes of the library).  A name that neither the class statement nor a base class written by the user
mentions leads, on the class and on its instances, where it leads on an empty class. -/
theorem C150_undeclared {m : Meta} {body : List (Str × Adt.Names.Obj)} {data : Nat → Bool} {bases : List Dict} {c : Cls}
    (h : create m body data bases = .ok c) {n : Str} (hn : n ∉ body.map (·.1)) (hb : ∀ d ∈ bases, ∀ a, (n, a) ∉ d) :
    c.classGet n = (Cls.mk m [] [] []).classGet n ∧ c.instGet n = (Cls.mk m [] [] []).instGet n := by
  have hsub := body_of_create h
  have hcm : c.m = m ∧ c.bases = bases := by
    unfold create at h
    cases hs : scan m body with
    | error e => rw [hs] at h; cases h
    | ok p =>
      rw [hs] at h
      simp only [bind, Except.bind, pure, Except.pure] at h
      split at h
      · cases h
      · cases h; exact ⟨rfl, rfl⟩
  obtain ⟨rfl, rfl⟩ := hcm
  have key : ∀ n, n ∉ body.map (·.1) → (∀ d ∈ c.bases, ∀ a, (n, a) ∉ d) →
      find c.mro n = find (Cls.mk c.m [] [] []).mro n := by
    intro n hn hb
    rw [lib_of_free (c := c) (fun a ha => hn (hsub _ (.inr ⟨a, ha⟩))) (fun ⟨d, h1, a, h2⟩ => hb d h1 a h2)
        fun hf => hn (hsub _ (.inl hf)),
      lib_of_free (c := Cls.mk c.m [] [] []) (fun a ha => nomatch ha) (fun ⟨d, h1, _⟩ => nomatch h1) nofun]
  have hcls : ∀ n, n ∉ body.map (·.1) → (∀ d ∈ c.bases, ∀ a, (n, a) ∉ d) →
      c.classGet n = (Cls.mk c.m [] [] []).classGet n := by
    intro n hn hb
    unfold Cls.classGet
    rw [key n hn hb]
  refine ⟨hcls n hn hb, ?_⟩
  have hi : ∀ a, find (Cls.mk c.m [] [] []).mro n = some a → c.onInst a = (Cls.mk c.m [] [] []).onInst a := by
    intro a ha
    obtain ⟨d, h1, h2⟩ := find_mem ha
    have : ∀ d ∈ (Cls.mk c.m [] [] []).mro, ∀ e ∈ d, ∀ i, e.2 ≠ .typed i := by
      intro d hd e he i hi
      have : ∀ m, ∀ d ∈ (Cls.mk m [] [] []).mro, ∀ e ∈ d, (match e.2 with | .typed _ => false | _ => true) = true := by
        intro m; cases m <;> decide
      have := this c.m d hd e he
      rw [hi] at this
      cases this
    cases a with
    | typed i => exact absurd rfl (this d h1 _ h2 i)
    | _ => rfl
  have hnf : n ∉ c.fields := fun hf => hn (hsub _ (.inl hf))
  unfold Cls.instGet
  rw [key n hn hb]
  simp only [hnf, and_false, if_false, List.not_mem_nil]
  cases hf : find (Cls.mk c.m [] [] []).mro n with
  | none => rfl
  | some a => simp only [hi a hf]

/-- **C150** (what instances store).  `x._value_`, for a TaggedUnion also `x._tag_` and for an Enum `x._name_`, is what
`__init__` stored, if the class statement and the base classes do not mention the name. -/
theorem C150_stored {m : Meta} {body : List (Str × Adt.Names.Obj)} {data : Nat → Bool} {bases : List Dict} {c : Cls}
    (h : create m body data bases = .ok c) {n : Str} (hn : n ∉ body.map (·.1)) (hb : ∀ d ∈ bases, ∀ a, (n, a) ∉ d) :
    c.instGet n = .stored ↔ n = "_value_".toList ∨ (m = .tagged ∧ n = "_tag_".toList) ∨ (m = .enum ∧ n = "_name_".toList) := by
  have e1 : "_value_".toList = sValue := rfl
  have e2 : "_tag_".toList = sTag := rfl
  have e3 : "_name_".toList = sName := rfl
  rw [(C150_undeclared h hn hb).2, e1, e2, e3]
  have hst : ∀ m, (Cls.mk m [] [] []).instGet n = .stored → n ∈ stores m := by
    intro m h
    unfold Cls.instGet at h
    by_contra hc
    cases hf : find (Cls.mk m [] [] []).mro n with
    | none => simp [hf, hc] at h
    | some a =>
      cases a <;> cases m <;> simp [hf, hc, Attr.isData, Cls.onInst] at h
      split at h <;> cases h
  constructor
  · intro h
    have := hst m h
    cases m <;> simp_all [stores]
  · rintro (rfl | ⟨rfl, rfl⟩ | ⟨rfl, rfl⟩)
    · cases m <;> rfl
    · rfl
    · rfl

/-- **C150** (what no class statement can hide).  `fields`, `field_dict`, `is_bound`, `is_cached` and `unbound_t` of a class
are those of the library, whatever the class and its base classes declare. -/
theorem C150_properties (c : Cls) : ∀ n ∈ [nFields, nFieldDict, nIsBound, nIsCached, nUnboundT],
    ∃ o, c.classGet n = .lib o ∧ o = (if n = nFieldDict then (match c.m with
      | .product => .anonymousProductMeta | .tagged => .taggedUnionMeta | .enum => .enumMeta) else .boundMeta) := by
  intro n hn
  have key : ∀ m : Meta, ∀ n ∈ [nFields, nFieldDict, nIsBound, nIsCached, nUnboundT],
      find (metaMro m) n = some (.lib (if n = nFieldDict then (match m with
      | .product => .anonymousProductMeta | .tagged => .taggedUnionMeta | .enum => .enumMeta) else .boundMeta) true) := by
    intro m; cases m <;> decide
  refine ⟨_, ?_, rfl⟩
  unfold Cls.classGet
  rw [key c.m n hn]
  rfl

/-- **C150** (the reserved names).  Of a class that the statement accepts no reserved name is a field, so `enumerate`,
`value_dict` and `from_values` are hidden by descriptors only. -/
theorem C150_reserved {m : Meta} {body : List (Str × Adt.Names.Obj)} {data : Nat → Bool} {bases : List Dict} {c : Cls}
    (hd : (body.map (·.1)).Nodup) (h : create m body data bases = .ok c) : ∀ k ∈ c.fields, k ∉ reservedAttrs :=
  (ok_of_create hd h).1.free

/-- **C150 refuted** for a field called `unbound_t`.  Every Product and TaggedUnion that has one is declared without an
error, but `C.unbound_t` is not the type of the field; an Enum with such a member is never created: its class statement raises
AttributeError. -/
theorem C150_unbound_t_refuted {m : Meta} {body : List (Str × Adt.Names.Obj)} (data : Nat → Bool) (bases : List Dict)
    {fs rest : List (Str × Adt.Names.Obj)} (hs : scan m body = .ok (fs, rest)) (hk : nUnboundT ∈ fs.map (·.1)) :
    (m = .enum → create m body data bases = .error .attributeError) ∧
    (m ≠ .enum → ∃ c, create m body data bases = .ok c ∧ nUnboundT ∈ c.fields ∧ c.classGet nUnboundT = .lib .boundMeta) := by
  constructor
  · rintro rfl
    unfold create
    rw [hs]
    simp only [bind, Except.bind, pure, Except.pure]
    rw [if_pos]
    refine ⟨trivial, ?_⟩
    rw [List.any_eq_true]
    exact ⟨_, hk, by decide⟩
  · intro hm
    refine ⟨⟨m, fs.map (·.1), rest.map fun e => (e.1, .user e.2.id (data e.2.id)), bases⟩, ?_, hk, ?_⟩
    · unfold create
      rw [hs]
      simp only [bind, Except.bind, pure, Except.pure]
      rw [if_neg fun h => hm h.1]
    · obtain ⟨o, h1, h2⟩ := C150_properties ⟨m, fs.map (·.1), rest.map fun e => (e.1, .user e.2.id (data e.2.id)), bases⟩
        nUnboundT (by decide)
      rw [h1, h2]
      rfl

/-- **C150 refuted** for the methods of classes.  A field called `rebind` or `from_fields` hides the method of the library. -/
theorem C150_methods_refuted {m : Meta} {body : List (Str × Adt.Names.Obj)} {data : Nat → Bool} {c : Cls}
    (hd : (body.map (·.1)).Nodup) (h : create m body data [] = .ok c) {n : Str} (hn : n = nRebind ∨ n = nFromFields)
    (hk : n ∈ c.fields) : (∃ o, (Cls.mk m [] [] []).classGet n = .lib o) ∧ ∀ o, c.classGet n ≠ .lib o := by
  obtain ⟨i, hi⟩ := List.mem_iff_getElem?.1 hk
  constructor
  · rcases hn with rfl | rfl <;> cases m <;> exact ⟨_, rfl⟩
  · intro o
    rw [C150_class_partial hd h hi (by rcases hn with rfl | rfl <;> decide) (by simp)]
    split <;> nofun

/-- **C150 refuted** for a TaggedUnion with a field called `Match`.  Reading any field of any instance calls the type of that
field instead of making a `Sum.Match`. -/
theorem C150_match_refuted {body : List (Str × Adt.Names.Obj)} {data : Nat → Bool} {bases : List Dict} {c : Cls}
    (hd : (body.map (·.1)).Nodup) (h : create .tagged body data bases = .ok c) {j : Nat} (hj : c.fields[j]? = some nMatch)
    {i : Nat} {k : Str} (hk : c.fields[i]? = some k) : c.instGet k = .called (.fieldType j) i := by
  have hg := C150_class_partial hd h hj (by decide) (by simp)
  obtain ⟨hc, hm, rfl, _⟩ := ok_of_create hd h
  have hf := find_field hc hk (by simp [hm])
  rw [hm] at hf
  unfold Cls.instGet
  simp [hf, Attr.isData, Cls.onInst, hm, hg]

/-- **C150 refuted** for an Enum with a member called `name`.  `repr` of every member raises AttributeError. -/
theorem C150_name_refuted {body : List (Str × Adt.Names.Obj)} {data : Nat → Bool} {bases : List Dict} {c : Cls}
    (hd : (body.map (·.1)).Nodup) (h : create .enum body data bases = .ok c) (hk : nName ∈ c.fields) :
    c.enumRepr = .error .attributeError := by
  obtain ⟨_, hm, _⟩ := ok_of_create hd h
  unfold Cls.enumRepr Cls.instGet
  simp [hm, hk]

/-- **C150 refuted** for a Product with a base class.  An attribute of a base class hides every field of its name: `x.k` and
`x.value_dict['k']` are then the attribute of the base class. -/
theorem C150_inherited_refuted {body : List (Str × Adt.Names.Obj)} {data : Nat → Bool} {d : Dict} {bases : List Dict} {c : Cls}
    (hd : (body.map (·.1)).Nodup) (h : create .product body data (d :: bases) = .ok c) {k : Str} (hk : k ∈ c.fields) {v : Nat}
    {q : Bool} (hv : Adt.Names.look d k = some (.user v q)) : c.instGet k = .user v ∧ (k, .user v) ∈ c.valueDict := by
  obtain ⟨hc, hm, hb, _⟩ := ok_of_create hd h
  have hf : find c.mro k = some (.user v q) := by
    unfold Cls.mro
    rw [hm, hb]
    dsimp only
    rw [find_cons_none (hc.own k hk), List.cons_append, find, hv]
    rfl
  have hns : k ∉ stores .product := by
    intro hs
    have : k = sValue := by simpa [stores] using hs
    have h2 := hc.free k hk
    rw [this] at h2
    exact h2 (by decide)
  have hi : c.instGet k = .user v := by
    unfold Cls.instGet
    simp [hm, hf, Cls.onInst, hns]
  exact ⟨hi, List.mem_map.2 ⟨k, hk, by rw [hi]⟩⟩

/-! ### Examples -/

namespace Adt.Attrs

/-- `class P(Base): value = T; x = U; def enumerate(cls): ...` where `Base` has a property `y`. -/
def demoBody : List (Str × Names.Obj) :=
  [(nValue, { id := 1, isType := true }), (['x'], { id := 2, isType := true }), (nEnumerate, { id := 3, descr := true })]

def demoBases : List Dict := [[(['y'], .user 7 true)]]

def demoCls (m : Meta) : Cls := ⟨m, [nValue, ['x']], [(nEnumerate, .user 3 false)], demoBases⟩

theorem demo_create (m : Meta) (hm : m ≠ .enum) : create m demoBody (fun _ => false) demoBases = .ok (demoCls m) := by
  cases m with
  | enum => exact absurd rfl hm
  | _ => rfl

theorem demo_bases {n : Str} (h : n ≠ ['y']) : ∀ d ∈ demoBases, ∀ a, (n, a) ∉ d := by
  intro d hd a ha
  rw [List.mem_singleton.1 hd] at ha
  exact h (Prod.mk.inj (List.mem_singleton.1 ha)).1

end Adt.Attrs

example : (demoCls .product).classGet nValue = .fieldType 0 :=
  C150_class_partial (by decide) (demo_create .product nofun) (i := 0) rfl (by decide) fun _ => demo_bases (by decide)

example : (demoCls .tagged).instGet ['x'] = .fieldValue 1 :=
  C150_instance_partial (by decide) (demo_create .tagged nofun) (i := 1) rfl nofun fun _ => ⟨by decide, demo_bases (by decide)⟩

example : (demoCls .tagged).instGet "_tag_".toList = .stored ∧ (demoCls .product).instGet "_tag_".toList ≠ .stored :=
  ⟨(C150_stored (demo_create .tagged nofun) (by decide) (demo_bases (by decide))).2 (.inr (.inl ⟨rfl, rfl⟩)), by decide⟩

example : (demoCls .product).classGet nRebind = .lib .attrSyntax ∧ (demoCls .product).instGet nValueDict = .lib .anonymousProduct :=
  ⟨(C150_undeclared (demo_create .product nofun) (by decide) (demo_bases (by decide))).1,
    (C150_undeclared (demo_create .product nofun) (by decide) (demo_bases (by decide))).2⟩

example : create .enum [(nUnboundT, { id := 1, isInt := true })] (fun _ => false) [] = .error .attributeError :=
  (C150_unbound_t_refuted (fun _ => false) [] (rest := []) rfl (List.mem_singleton.2 rfl)).1 rfl

example : (Cls.mk .tagged [['x'], nMatch] [] []).instGet ['x'] = .called (.fieldType 1) 0 :=
  C150_match_refuted (body := [(['x'], { id := 1, isType := true }), (nMatch, { id := 2, isType := true })]) (bases := [])
    (data := fun _ => false) (by decide) rfl (j := 1) rfl (i := 0) rfl

example : (Cls.mk .enum [nName] [] []).enumRepr = .error .attributeError :=
  C150_name_refuted (body := [(nName, { id := 1, isInt := true })]) (bases := []) (data := fun _ => false) (by decide) rfl
    (List.mem_singleton.2 rfl)

example : (Cls.mk .product [['y'], ['x']] [] demoBases).instGet ['y'] = .user 7 :=
  (C150_inherited_refuted (body := [(['y'], { id := 1, isType := true }), (['x'], { id := 2, isType := true })]) (bases := [])
    (data := fun _ => false) (by decide) rfl (by decide) rfl).1

example : ∀ o, (Cls.mk .product [nRebind] [] []).classGet nRebind ≠ .lib o :=
  (C150_methods_refuted (m := .product) (body := [(nRebind, { id := 1, isType := true })]) (data := fun _ => false) (by decide) rfl (.inl rfl)
    (List.mem_singleton.2 rfl)).2

end HW
