import Verif.Lemmas.Adt.Repr
import Verif.Props.AdtEq

/-! # Printed ADT values (C122) -/

namespace HW
open Adt

namespace Adt

/-- An identifier. -/
def Ident (w : List Char) : Prop :=
  (∃ c l, w = c :: l ∧ c.isDigit = false ∧ c ≠ '-') ∧ ∀ c ∈ w, plainChar c = true

/-- Names are identifiers, and different field names are spelt differently. -/
structure Spell.Ok (S : Spell) : Prop where
  field : ∀ n, Ident (S.field n)
  cls : ∀ n, Ident (S.cls n)
  fam : ∀ n, Ident (S.fam n)
  enum : ∀ n, Ident (S.enum n)
  base : ∀ n, Ident (S.base n)
  named : ∀ n, Ident (S.named n)
  mod : ∀ n, Ident (S.mod n)
  field_inj : ∀ m n, S.field m = S.field n → m = n

mutual
/-- A value of class `T` whose fields hold values of exactly the declared classes, down to bits and vectors. -/
def Val.Exact (S : Spell) (T : Ty) : Val → Prop
  | .leaf T' p => T' = T ∧ ((∃ k n, T.asVec = some (k, some n) ∧ p < 2 ^ n ∧ (S.signed k → 0 < n)) ∨
      (T = .leaf (.cls S.bit) ∧ p < 2))
  | .enum e i => T = .enum e ∧ i < e.members.length ∧ (e.members.map Prod.fst).Nodup
  | .tup T' _ vs => T' = T ∧ ∃ k fs, T.view = some (k, fs) ∧ k.shape ≠ .sum ∧ k.shape ≠ .tagged ∧
      (k.shape ≠ .tuple → k.names.length = fs.length) ∧ Val.Exacts S fs vs
  | .sum T' v => T' = T ∧ ∃ k fs, T.view = some (k, fs) ∧ k.shape = .sum ∧ v.cls ∈ fs ∧ Val.Exact S v.cls v
  | .tag T' i v => T' = T ∧ ∃ k fs t, T.view = some (k, fs) ∧ k.shape = .tagged ∧ k.names.length = fs.length ∧
      fs[i]? = some t ∧ Val.Exact S t v
def Val.Exacts (S : Spell) : List Ty → List Val → Prop
  | [], [] => True
  | t :: ts, v :: vs => Val.Exact S t v ∧ Val.Exacts S ts vs
  | _, _ => False
end

mutual
/-- The alternatives of every `Sum` in the class print differently: at most one is a vector class, and the
others have different names. -/
def Ty.Clear (S : Spell) : Ty → Prop
  | .leaf _ => True
  | .enum _ => True
  | .mod _ t => t.Clear S
  | .node k fs => (k.shape = .sum → ∀ t ∈ fs, ∀ t' ∈ fs, (t.asVec.isSome → t'.asVec.isSome → t = t') ∧
      (t.nm S = t'.nm S → t = t')) ∧ Ty.Clears S fs
def Ty.Clears (S : Spell) : List Ty → Prop
  | [] => True
  | t :: ts => t.Clear S ∧ Ty.Clears S ts
end

mutual
/-- A value without the record of which tuples have been assigned to. -/
def Val.plain : Val → Val
  | .leaf T p => .leaf T p
  | .enum e i => .enum e i
  | .tup T _ vs => .tup T false (Val.plains vs)
  | .sum T v => .sum T v.plain
  | .tag T i v => .tag T i v.plain
def Val.plains : List Val → List Val
  | [] => []
  | v :: vs => v.plain :: Val.plains vs
end

section
variable {S : Spell}

theorem Ident.closed {w : List Char} (h : Ident w) : Closed w := closed_plain h.2

theorem keyed_closed (hf : ∀ n, Ident (S.field n)) : ∀ (ns : List Name) (ts : List (List Char)), (∀ t ∈ ts, Closed t) →
    ∀ a ∈ keyed (ns.map S.field) ts, Closed a
  | [], ts, _ => by cases ts <;> simp [keyed]
  | n :: ns, [], _ => by simp [keyed]
  | n :: ns, t :: ts, h => by
    intro a ha
    simp only [List.map_cons, keyed, List.mem_cons] at ha
    rcases ha with rfl | ha
    · exact (((closed_char rfl rfl (by decide)).append (hf n).closed).append (b := ['\'', ':', ' ']) rfl).append (h t (by simp))
    · exact keyed_closed hf ns ts (fun x hx => h x (by simp [hx])) a ha

theorem base_closed (hS : S.Ok) : ∀ b : Base, Closed (b.nm S)
  | .user n => (hS.base n).closed
  | .mod m b => (hS.mod m).closed.append (base_closed hS b)

theorem con_closed (hS : S.Ok) (k : Con) {ts : List (List Char)} (h : ∀ t ∈ ts, Closed t) : Closed (k.nm S ts) := by
  unfold Con.nm
  have hb := base_closed hS k.base
  have h1 : ∀ l : List (List Char), (∀ t ∈ l, Closed t) → Closed (k.base.nm S ++ ['['] ++ joined l ++ [']']) := by
    intro l hl
    have := hb.append ((joined_inner hl).bracket (o := '[') (c := ']') rfl rfl rfl)
    simpa only [List.append_assoc] using this
  split
  · exact h1 _ h
  · exact h1 _ h
  · have := ((joined_inner (keyed_closed hS.field k.names ts h)).bracket (o := '{') (c := '}') rfl rfl rfl).inner.bracket
      (o := '[') (c := ']') rfl rfl rfl
    have := hb.append this
    simpa only [List.append_assoc, List.cons_append, List.nil_append] using this
  · exact (hS.named _).closed
  · exact (hS.named _).closed

mutual
theorem nm_closed (hS : S.Ok) : ∀ t : Ty, Closed (t.nm S)
  | .leaf (.cls c) => (hS.cls c).closed
  | .leaf (.vec k none) => (hS.fam k).closed
  | .leaf (.vec k (some n)) => by
      have := (hS.fam k).closed.append ((pyStr_closed n).inner.bracket (o := '[') (c := ']') rfl rfl rfl)
      simpa only [Ty.nm, List.append_assoc] using this
  | .enum e => (hS.enum _).closed
  | .mod m t => (hS.mod m).closed.append (nm_closed hS t)
  | .node k fs => con_closed hS k (nms_closed hS fs)
theorem nms_closed (hS : S.Ok) : ∀ ts : List Ty, ∀ a ∈ Ty.nms S ts, Closed a
  | [], a, h => by simp [Ty.nms] at h
  | t :: ts, a, h => by
      rcases List.mem_cons.1 h with rfl | h
      · exact nm_closed hS t
      · exact nms_closed hS ts a h
end

/-- Characters of class names. -/
def NameChars (w : List Char) : Prop := ∀ c ∈ w, c ≠ '(' ∧ c ≠ '.'

theorem NameChars.append {a b : List Char} (h : NameChars a) (h' : NameChars b) : NameChars (a ++ b) := fun c hc =>
  (List.mem_append.1 hc).elim (h c) (h' c)

theorem nc_plain {a : List Char} (h : ∀ c ∈ a, plainChar c = true) : NameChars a := fun c hc => by
  have := h c hc
  constructor <;> rintro rfl <;> exact absurd this (by decide)

theorem Ident.nc {w : List Char} (h : Ident w) : NameChars w := nc_plain h.2

theorem joined_nc : ∀ {l : List (List Char)}, (∀ a ∈ l, NameChars a) → NameChars (joined l)
  | [], _ => by intro c hc; simp [joined] at hc
  | [a], h => h a (by simp)
  | a :: b :: l, h => ((h a (by simp)).append (b := [',', ' ']) (by simp [NameChars])).append
      (joined_nc fun x hx => h x (by simp only [List.mem_cons] at hx ⊢; tauto))

theorem keyed_nc (hf : ∀ n, Ident (S.field n)) : ∀ (ns : List Name) (ts : List (List Char)), (∀ t ∈ ts, NameChars t) →
    ∀ a ∈ keyed (ns.map S.field) ts, NameChars a
  | [], ts, _ => by cases ts <;> simp [keyed]
  | n :: ns, [], _ => by simp [keyed]
  | n :: ns, t :: ts, h => by
    intro a ha
    simp only [List.map_cons, keyed, List.mem_cons] at ha
    rcases ha with rfl | ha
    · exact (((show NameChars ['\''] by simp [NameChars]).append (hf n).nc).append (b := ['\'', ':', ' '])
        (by simp [NameChars])).append (h t (by simp))
    · exact keyed_nc hf ns ts (fun x hx => h x (by simp [hx])) a ha

theorem base_nc (hS : S.Ok) : ∀ b : Base, NameChars (b.nm S)
  | .user n => (hS.base n).nc
  | .mod m b => (hS.mod m).nc.append (base_nc hS b)

theorem con_nc (hS : S.Ok) (k : Con) {ts : List (List Char)} (h : ∀ t ∈ ts, NameChars t) : NameChars (k.nm S ts) := by
  unfold Con.nm
  have hb := base_nc hS k.base
  split
  · exact ((hb.append (by simp [NameChars])).append (joined_nc h)).append (by simp [NameChars])
  · exact ((hb.append (by simp [NameChars])).append (joined_nc h)).append (by simp [NameChars])
  · exact ((hb.append (by simp [NameChars])).append (joined_nc (keyed_nc hS.field _ _ h))).append (by simp [NameChars])
  · exact (hS.named _).nc
  · exact (hS.named _).nc

mutual
theorem nm_nc (hS : S.Ok) : ∀ t : Ty, NameChars (t.nm S)
  | .leaf (.cls c) => (hS.cls c).nc
  | .leaf (.vec k none) => (hS.fam k).nc
  | .leaf (.vec k (some n)) => (((hS.fam k).nc.append (b := ['[']) (by simp [NameChars])).append
      (nc_plain fun _ h => plain_of_digit (pyStr_char h))).append (by simp [NameChars])
  | .enum e => (hS.enum _).nc
  | .mod m t => (hS.mod m).nc.append (nm_nc hS t)
  | .node k fs => con_nc hS k (nms_nc hS fs)
theorem nms_nc (hS : S.Ok) : ∀ ts : List Ty, ∀ a ∈ Ty.nms S ts, NameChars a
  | [], a, h => by simp [Ty.nms] at h
  | t :: ts, a, h => by
      rcases List.mem_cons.1 h with rfl | h
      · exact nm_nc hS t
      · exact nms_nc hS ts a h
end

/-- Class names begin with a letter. -/
def Begins (w : List Char) : Prop := ∃ c l, w = c :: l ∧ c.isDigit = false ∧ c ≠ '-'

theorem Begins.append {a : List Char} (h : Begins a) (b : List Char) : Begins (a ++ b) := by
  obtain ⟨c, l, rfl, h1, h2⟩ := h
  exact ⟨c, l ++ b, rfl, h1, h2⟩

theorem base_begins (hS : S.Ok) : ∀ b : Base, Begins (b.nm S)
  | .user n => (hS.base n).1
  | .mod m _ => Begins.append (hS.mod m).1 _

theorem nm_begins (hS : S.Ok) : ∀ t : Ty, Begins (t.nm S)
  | .leaf (.cls c) => (hS.cls c).1
  | .leaf (.vec k none) => (hS.fam k).1
  | .leaf (.vec k (some n)) => ((Begins.append (hS.fam k).1 _).append _).append _
  | .enum e => (hS.enum _).1
  | .mod m t => Begins.append (hS.mod m).1 _
  | .node k fs => by
    have hb := base_begins hS k.base
    simp only [Ty.nm, Con.nm]
    split
    · exact ((hb.append _).append _).append _
    · exact ((hb.append _).append _).append _
    · exact ((hb.append _).append _).append _
    · exact (hS.named _).1
    · exact (hS.named _).1

theorem pyStr_begins {x : Int} (r : List Char) : ¬ Begins (pyStr x ++ r) := by
  rintro ⟨c, l, h, h1, h2⟩
  have hne := pyStr_ne x
  cases hx : pyStr x with
  | nil => exact hne hx
  | cons d m =>
    rw [hx] at h
    simp only [List.cons_append, List.cons.injEq] at h
    have := pyStr_char (x := x) (c := d) (by simp [hx])
    rw [h.1, h1] at this
    simp [h2] at this

/-- What a value other than a vector looks like. -/
theorem repr_shape {T : Ty} : ∀ {v : Val}, v.Exact S T → ∃ c r, v.repr S = T.nm S ++ c :: r ∧ (c = '(' ∨ c = '.')
  | .leaf T' p, h => by
    obtain ⟨rfl, _⟩ := h
    exact ⟨'(', payload T' p ++ [')'], by simp [Val.repr], .inl rfl⟩
  | .enum e i, h => by
    obtain ⟨rfl, _⟩ := h
    refine ⟨'.', ?_, ?_, .inr rfl⟩
    rotate_left
    · simp only [Val.repr, Ty.nm, List.append_assoc, List.cons_append, List.nil_append]; rfl
  | .tup T' _ vs, h => by
    obtain ⟨rfl, k, fs, hv, _⟩ := h
    refine ⟨'(', ?_, ?_, .inl rfl⟩
    rotate_left
    · simp only [Val.repr, hv, List.append_assoc, List.cons_append, List.nil_append]; rfl
  | .sum T' v, h => by
    obtain ⟨rfl, _⟩ := h
    refine ⟨'(', ?_, ?_, .inl rfl⟩
    rotate_left
    · simp only [Val.repr, List.append_assoc, List.cons_append, List.nil_append]; rfl
  | .tag T' i v, h => by
    obtain ⟨rfl, k, fs, t, hv, _⟩ := h
    refine ⟨'(', ?_, ?_, .inl rfl⟩
    rotate_left
    · simp only [Val.repr, hv, List.append_assoc, List.cons_append, List.nil_append]; rfl

theorem exact_cls {T : Ty} : ∀ {v : Val}, v.Exact S T → v.cls = T
  | .leaf _ _, h => h.1
  | .enum _ _, h => h.1.symm
  | .tup _ _ _, h => h.1
  | .sum _ _, h => h.1
  | .tag _ _ _, h => h.1

theorem view_asVec : ∀ {T : Ty} {k : Con} {fs : List Ty}, T.view = some (k, fs) → T.asVec = none
  | .leaf _, _, _, h => by simp [Ty.view] at h
  | .enum _, _, _, _ => rfl
  | .node _ _, _, _, _ => rfl
  | .mod m t, k, fs, h => by
    simp only [Ty.view, Option.map_eq_some_iff] at h
    obtain ⟨⟨k', fs'⟩, h1, h2⟩ := h
    exact view_asVec (T := t) h1

theorem view_clear : ∀ {T : Ty} {k : Con} {fs : List Ty}, T.view = some (k, fs) → T.Clear S →
    (k.shape = .sum → ∀ t ∈ fs, ∀ t' ∈ fs, (t.asVec.isSome → t'.asVec.isSome → t = t') ∧ (t.nm S = t'.nm S → t = t')) ∧
      Ty.Clears S fs
  | .leaf _, _, _, h, _ => by simp [Ty.view] at h
  | .enum _, _, _, h, _ => by simp [Ty.view] at h
  | .node k' fs', k, fs, h, hc => by
    simp only [Ty.view, Option.some.injEq, Prod.mk.injEq] at h
    obtain ⟨rfl, rfl⟩ := h
    exact hc
  | .mod m t, k, fs, h, hc => by
    simp only [Ty.view, Option.map_eq_some_iff] at h
    obtain ⟨⟨k', fs'⟩, h1, h2⟩ := h
    simp only [Prod.mk.injEq] at h2
    obtain ⟨rfl, rfl⟩ := h2
    exact view_clear (T := t) (k := k') (fs := fs') h1 hc

theorem clears_mem : ∀ {fs : List Ty}, Ty.Clears S fs → ∀ t ∈ fs, t.Clear S
  | [], _, t, h => by simp at h
  | t :: ts, hc, u, h => by
    rcases List.mem_cons.1 h with rfl | h
    · exact hc.1
    · exact clears_mem hc.2 u h

/-- `str` is `repr` but for vectors. -/
theorem str_cases {T : Ty} : ∀ {v : Val}, v.Exact S T →
    (∃ k n p, v = .leaf T p ∧ T.asVec = some (k, some n) ∧ p < 2 ^ n ∧ v.str S = pyStr (S.toInt k n p)) ∨
      (T.asVec = none ∧ v.str S = v.repr S)
  | .leaf T' p, h => by
    obtain ⟨rfl, ⟨k, n, hv, hp, _⟩ | ⟨rfl, _⟩⟩ := h
    · exact .inl ⟨k, n, p, rfl, hv, hp, by simp [Val.str, Val.text, hv]⟩
    · exact .inr ⟨rfl, rfl⟩
  | .enum _ _, h => by obtain ⟨rfl, _⟩ := h; exact .inr ⟨rfl, rfl⟩
  | .tup T' _ _, h => .inr ⟨by obtain ⟨rfl, k, fs, hv, _⟩ := h; exact view_asVec hv, rfl⟩
  | .sum _ _, h => .inr ⟨by obtain ⟨rfl, k, fs, hv, _⟩ := h; exact view_asVec hv, rfl⟩
  | .tag _ _ _, h => .inr ⟨by obtain ⟨rfl, k, fs, t, hv, _⟩ := h; exact view_asVec hv, rfl⟩

theorem toInt_inj {k n p q : Nat} (hp : p < 2 ^ n) (hq : q < 2 ^ n) (h : S.toInt k n p = S.toInt k n q) : p = q := by
  unfold Spell.toInt at h
  have : ((2 ^ n : Nat) : Int) = 2 ^ n := by simp
  rw [← this] at h
  split at h <;> split at h <;> omega

theorem items_closed (hf : ∀ n, Ident (S.field n)) : ∀ (ns : List Name) (l : List (List Char)), (∀ a ∈ l, Closed a) →
    ∀ a ∈ items S ns l, Closed a
  | [], l, _ => by cases l <;> simp [items]
  | n :: ns, [], _ => by simp [items]
  | n :: ns, t :: ts, h => by
    intro a ha
    simp only [items, List.mem_cons] at ha
    rcases ha with rfl | ha
    · exact ((hf n).closed.append (closed_char (c := '=') rfl rfl (by decide))).append (h t (by simp))
    · exact items_closed hf ns ts (fun x hx => h x (by simp [hx])) a ha

theorem tag_closed (hf : ∀ n, Ident (S.field n)) {i : Nat} {v : List Char} (hv : Closed v) (ns : List Name) :
    ∀ a ∈ tagItems S i v ns, Closed a := by
  intro a ha
  simp only [tagItems, List.mem_mapIdx] at ha
  obtain ⟨j, hj, rfl⟩ := ha
  refine ((hf _).closed.append (closed_char (c := '=') rfl rfl (by decide))).append ?_
  split
  · exact hv
  · rfl

theorem closed_dot {n a : List Char} (hn : Closed n) (ha : Closed a) : Closed (n ++ ['.'] ++ a) :=
  (hn.append (closed_char (c := '.') rfl rfl (by decide))).append ha

theorem call_closed {n a : List Char} (hn : Closed n) (ha : Inner a) : Closed (n ++ ['('] ++ a ++ [')']) := by
  have := hn.append (ha.bracket (o := '(') (c := ')') rfl rfl rfl)
  simpa only [List.append_assoc] using this

theorem text_closed {v : Val} {r : List Char} (hr : Closed r) : Closed (v.text S r) := by
  unfold Val.text
  split
  · split
    · exact pyStr_closed _
    · exact hr
  · exact hr

mutual
theorem repr_closed (hS : S.Ok) : ∀ v : Val, Closed (v.repr S)
  | .leaf T p => by
    refine call_closed (nm_closed hS T) ?_
    unfold payload
    split
    · exact (pyStr_closed _).inner
    · split <;> rfl
  | .enum e i => by
    refine closed_dot (hS.enum e.id).closed ?_
    cases e.members[i]? with
    | none => rfl
    | some m => exact (hS.field m.1).closed
  | .tup T _ vs => by
    simp only [Val.repr]
    split
    · rfl
    · refine call_closed (nm_closed hS T) (joined_inner ?_)
      split
      · exact reprs_closed hS vs
      · exact items_closed hS.field _ _ (strs_closed hS vs)
  | .sum T v => call_closed (nm_closed hS T) (text_closed (repr_closed hS v)).inner
  | .tag T i v => by
    simp only [Val.repr]
    split
    · rfl
    · exact call_closed (nm_closed hS T) (joined_inner (tag_closed hS.field (text_closed (repr_closed hS v)) _))
theorem reprs_closed (hS : S.Ok) : ∀ vs : List Val, ∀ a ∈ Val.reprs S vs, Closed a
  | [], a, h => by simp [Val.reprs] at h
  | v :: vs, a, h => by
    rcases List.mem_cons.1 h with rfl | h
    · exact repr_closed hS v
    · exact reprs_closed hS vs a h
theorem strs_closed (hS : S.Ok) : ∀ vs : List Val, ∀ a ∈ Val.strs S vs, Closed a
  | [], a, h => by simp [Val.strs] at h
  | v :: vs, a, h => by
    rcases List.mem_cons.1 h with rfl | h
    · exact text_closed (repr_closed hS v)
    · exact strs_closed hS vs a h
end

/-- The name at the start of a printed value. -/
theorem repr_name (hS : S.Ok) {t t' : Ty} {x y : Val} (hx : x.Exact S t) (hy : y.Exact S t') (h : x.repr S = y.repr S) :
    t.nm S = t'.nm S := by
  obtain ⟨c, r, h1, hc⟩ := repr_shape hx
  obtain ⟨c', r', h2, hc'⟩ := repr_shape hy
  rw [h1, h2] at h
  have n1 := nm_nc hS t
  have n2 := nm_nc hS t'
  rcases List.append_eq_append_iff.1 h with ⟨a, h3, h4⟩ | ⟨a, h3, h4⟩
  · cases a with
    | nil => simpa using h3.symm
    | cons d a =>
      simp only [List.cons_append, List.cons.injEq] at h4
      have := n2 d (by rw [h3]; simp)
      rw [← h4.1] at this
      rcases hc with rfl | rfl <;> simp at this
  · cases a with
    | nil => simpa using h3
    | cons d a =>
      simp only [List.cons_append, List.cons.injEq] at h4
      have := n1 d (by rw [h3]; simp)
      rw [← h4.1] at this
      rcases hc' with rfl | rfl <;> simp at this

theorem str_inj {T : Ty} {x y : Val} (hx : x.Exact S T) (hy : y.Exact S T)
    (ih : x.repr S = y.repr S → x.plain = y.plain) (h : x.str S = y.str S) : x.plain = y.plain := by
  rcases str_cases hx with ⟨k, n, p, rfl, hv, hp, h1⟩ | ⟨hv, h1⟩ <;> rcases str_cases hy with ⟨k', n', p', rfl, hv', hp', h2⟩ | ⟨hv', h2⟩
  · rw [hv] at hv'
    simp only [Option.some.injEq, Prod.mk.injEq] at hv'
    obtain ⟨rfl, rfl⟩ := hv'
    rw [h1, h2] at h
    rw [toInt_inj hp hp' (pyStr_inj h)]
  · rw [hv] at hv'; simp at hv'
  · rw [hv] at hv'; simp at hv'
  · exact ih (by rw [← h1, ← h2, h])

theorem str_ne_number (hS : S.Ok) {T : Ty} {x : Val} (hx : x.Exact S T) (z : Int) : x.repr S ≠ pyStr z := by
  intro h
  obtain ⟨c, r, h1, _⟩ := repr_shape hx
  have := (nm_begins hS T).append (c :: r)
  rw [← h1, h] at this
  have h3 := pyStr_begins (x := z) []
  rw [List.append_nil] at h3
  exact h3 this

theorem str_ne_none {T : Ty} {x : Val} (hx : x.Exact S T) : x.str S ≠ ['N', 'o', 'n', 'e'] := by
  intro h
  rcases str_cases hx with ⟨k, n, p, rfl, hv, hp, h1⟩ | ⟨hv, h1⟩
  · rw [h1] at h
    have := pyStr_char (x := S.toInt k n p) (c := 'N') (by rw [h]; simp)
    simp at this
  · obtain ⟨c, r, h2, hc⟩ := repr_shape hx
    rw [h1, h2] at h
    have : c ∈ ['N', 'o', 'n', 'e'] := by rw [← h]; simp
    rcases hc with rfl | rfl <;> simp at this

theorem items_inj : ∀ {ns : List Name} {l l' : List (List Char)}, l.length = ns.length → l'.length = ns.length →
    items S ns l = items S ns l' → l = l'
  | [], l, l', h, h', _ => by simp_all
  | n :: ns, [], _, h, _, _ => by simp at h
  | n :: ns, _, [], _, h, _ => by simp at h
  | n :: ns, a :: l, b :: l', h, h', he => by
    simp only [items, List.cons.injEq, List.append_cancel_left_eq] at he
    rw [he.1, items_inj (by simpa using h) (by simpa using h') he.2]

theorem items_length : ∀ {ns : List Name} {l : List (List Char)}, l.length = ns.length → (items S ns l).length = ns.length
  | [], l, h => by cases l <;> simp [items]
  | n :: ns, [], h => by simp at h
  | n :: ns, a :: l, h => by simp [items, items_length (ns := ns) (l := l) (by simpa using h)]

theorem reprs_length : ∀ vs : List Val, (Val.reprs S vs).length = vs.length
  | [] => rfl
  | v :: vs => by simp [Val.reprs, reprs_length vs]
theorem strs_length : ∀ vs : List Val, (Val.strs S vs).length = vs.length
  | [] => rfl
  | v :: vs => by simp [Val.strs, strs_length vs]

theorem exacts_length : ∀ {fs : List Ty} {vs : List Val}, Val.Exacts S fs vs → vs.length = fs.length
  | [], [], _ => rfl
  | [], _ :: _, h => absurd h (by simp [Val.Exacts])
  | _ :: _, [], h => absurd h (by simp [Val.Exacts])
  | _ :: _, _ :: _, h => by simp [exacts_length h.2]

theorem call_inj {n a b : List Char} (h : n ++ ['('] ++ a ++ [')'] = n ++ ['('] ++ b ++ [')']) : a = b := by
  simpa only [List.append_assoc, List.append_cancel_left_eq, List.append_cancel_right_eq] using h

mutual
theorem repr_inj (hS : S.Ok) : ∀ (x y : Val) {T : Ty}, x.Exact S T → y.Exact S T → T.Clear S → x.repr S = y.repr S →
    x.plain = y.plain
  | .leaf T' p, y, T, hx, hy, _, h => by
    have hy' := hy
    obtain ⟨rfl, hp⟩ := hx
    have hview : T'.view = none ∧ ∀ e, T' ≠ .enum e := by
      rcases hp with ⟨k, n, hv, _⟩ | ⟨rfl, _⟩
      · refine ⟨?_, fun e he => by subst he; simp [Ty.asVec] at hv⟩
        cases hw : T'.view with
        | none => rfl
        | some kf => obtain ⟨k', fs⟩ := kf; rw [view_asVec hw] at hv; simp at hv
      · exact ⟨rfl, nofun⟩
    cases y with
    | enum e i => exact absurd hy.1 (hview.2 e)
    | tup U a vs => obtain ⟨rfl, k, fs, hv, _⟩ := hy; rw [hview.1] at hv; simp at hv
    | sum U v => obtain ⟨rfl, k, fs, hv, _⟩ := hy; rw [hview.1] at hv; simp at hv
    | tag U i v => obtain ⟨rfl, k, fs, t, hv, _⟩ := hy; rw [hview.1] at hv; simp at hv
    | leaf U q =>
      obtain ⟨rfl, hq⟩ := hy
      have he : payload U p = payload U q := call_inj h
      have : p = q := by
        unfold payload at he
        rcases hp with ⟨k, n, hv, hp⟩ | ⟨rfl, hp⟩
        · rw [hv] at he
          have := pyStr_inj he
          omega
        · rcases hq with ⟨k, n, hv, _⟩ | ⟨_, hq⟩
          · simp [Ty.asVec] at hv
          · simp only [Ty.asVec] at he
            have : p = 0 ∨ p = 1 := by omega
            have : q = 0 ∨ q = 1 := by omega
            rcases ‹p = 0 ∨ p = 1› with rfl | rfl <;> rcases ‹q = 0 ∨ q = 1› with rfl | rfl <;> simp_all
      rw [this]
  | .enum e i, y, T, hx, hy, _, h => by
    obtain ⟨rfl, hi, hn⟩ := hx
    cases y with
    | leaf U q => obtain ⟨rfl, ⟨k, n, hv, _⟩ | ⟨hv, _⟩⟩ := hy <;> simp [Ty.asVec] at hv
    | tup U a vs => obtain ⟨rfl, k, fs, hv, _⟩ := hy; simp [Ty.view] at hv
    | sum U v => obtain ⟨rfl, k, fs, hv, _⟩ := hy; simp [Ty.view] at hv
    | tag U i v => obtain ⟨rfl, k, fs, t, hv, _⟩ := hy; simp [Ty.view] at hv
    | enum e' j =>
      obtain ⟨he, hj, _⟩ := hy
      simp only [Ty.enum.injEq] at he
      subst he
      simp only [Val.repr, List.append_cancel_left_eq, List.getElem?_eq_getElem hi, List.getElem?_eq_getElem hj, Option.elim] at h
      have h := hS.field_inj _ _ h
      have : i = j := by
        refine (List.Nodup.getElem_inj_iff hn (hi := by simpa using hi) (hj := by simpa using hj)).1 ?_
        simpa using h
      rw [this]
  | .tup T' a xs, y, T, hx, hy, hc, h => by
    obtain ⟨rfl, k, fs, hv, h1, h2, h3, hx⟩ := hx
    cases y with
    | leaf U q =>
      obtain ⟨rfl, ⟨k, n, hv', _⟩ | ⟨rfl, _⟩⟩ := hy
      · rw [view_asVec hv] at hv'; simp at hv'
      · simp [Ty.view] at hv
    | enum e j => obtain ⟨rfl, _⟩ := hy; simp [Ty.view] at hv
    | sum U v =>
      obtain ⟨rfl, k', fs', hv', h', _⟩ := hy
      rw [hv] at hv'
      simp only [Option.some.injEq, Prod.mk.injEq] at hv'
      rw [← hv'.1] at h'; exact absurd h' h1
    | tag U i v =>
      obtain ⟨rfl, k', fs', t, hv', h', _⟩ := hy
      rw [hv] at hv'
      simp only [Option.some.injEq, Prod.mk.injEq] at hv'
      rw [← hv'.1] at h'; exact absurd h' h2
    | tup U b ys =>
      obtain ⟨rfl, k', fs', hv', _, _, _, hy⟩ := hy
      rw [hv] at hv'
      simp only [Option.some.injEq, Prod.mk.injEq] at hv'
      obtain ⟨rfl, rfl⟩ := hv'
      have hcs := (view_clear hv hc).2
      simp only [Val.repr, hv] at h
      have h := call_inj h
      have l1 := exacts_length hx
      have l2 := exacts_length hy
      have : Val.plains xs = Val.plains ys := by
        by_cases hs : k.shape = .tuple
        · simp only [if_pos hs] at h
          have := joined_unique (by rw [reprs_length, reprs_length, l1, l2]) (reprs_closed hS xs) (reprs_closed hS ys) h
          exact reprs_inj hS xs ys hx hy hcs this
        · simp only [if_neg hs] at h
          have e1 : (Val.strs S xs).length = k.names.length := by rw [strs_length, l1, h3 hs]
          have e2 : (Val.strs S ys).length = k.names.length := by rw [strs_length, l2, h3 hs]
          have := joined_unique (by rw [items_length e1, items_length e2]) (items_closed hS.field _ _ (strs_closed hS xs))
            (items_closed hS.field _ _ (strs_closed hS ys)) h
          exact strs_inj hS xs ys hx hy hcs (items_inj e1 e2 this)
      simp only [Val.plain, this]
  | .sum T' v, y, T, hx, hy, hc, h => by
    obtain ⟨rfl, k, fs, hv, hk, hm, hx⟩ := hx
    cases y with
    | leaf U q =>
      obtain ⟨rfl, ⟨k, n, hv', _⟩ | ⟨rfl, _⟩⟩ := hy
      · rw [view_asVec hv] at hv'; simp at hv'
      · simp [Ty.view] at hv
    | enum e j => obtain ⟨rfl, _⟩ := hy; simp [Ty.view] at hv
    | tup U b ys =>
      obtain ⟨rfl, k', fs', hv', h', _⟩ := hy
      rw [hv] at hv'
      simp only [Option.some.injEq, Prod.mk.injEq] at hv'
      rw [← hv'.1] at h'; exact absurd hk h'
    | tag U i v =>
      obtain ⟨rfl, k', fs', t, hv', h', _⟩ := hy
      rw [hv] at hv'
      simp only [Option.some.injEq, Prod.mk.injEq] at hv'
      rw [← hv'.1, hk] at h'; simp at h'
    | sum U w =>
      obtain ⟨rfl, k', fs', hv', _, hm', hy⟩ := hy
      rw [hv] at hv'
      simp only [Option.some.injEq, Prod.mk.injEq] at hv'
      obtain ⟨rfl, rfl⟩ := hv'
      obtain ⟨hcl, hcs⟩ := view_clear hv hc
      have h : v.str S = w.str S := call_inj h
      have ht : v.cls = w.cls := by
        have := hcl hk v.cls hm w.cls hm'
        rcases str_cases hx with ⟨k, n, p, _, hv, hp, h1⟩ | ⟨hv, h1⟩ <;>
          rcases str_cases hy with ⟨k', n', p', _, hv', hp', h2⟩ | ⟨hv', h2⟩
        · exact this.1 (by simp [hv]) (by simp [hv'])
        · exact absurd (h2.symm.trans (h.symm.trans h1)) (str_ne_number hS hy _)
        · exact absurd (h1.symm.trans (h.trans h2)) (str_ne_number hS hx _)
        · exact this.2 (repr_name hS hx hy (by rw [← h1, ← h2, h]))
      rw [← ht] at hy
      have := str_inj hx hy (fun he => repr_inj hS v w hx hy (clears_mem hcs _ hm) he) h
      simp only [Val.plain, this]
  | .tag T' i v, y, T, hx, hy, hc, h => by
    obtain ⟨rfl, k, fs, t, hv, hk, hl, hi, hx⟩ := hx
    cases y with
    | leaf U q =>
      obtain ⟨rfl, ⟨k, n, hv', _⟩ | ⟨rfl, _⟩⟩ := hy
      · rw [view_asVec hv] at hv'; simp at hv'
      · simp [Ty.view] at hv
    | enum e j => obtain ⟨rfl, _⟩ := hy; simp [Ty.view] at hv
    | tup U b ys =>
      obtain ⟨rfl, k', fs', hv', _, h', _⟩ := hy
      rw [hv] at hv'
      simp only [Option.some.injEq, Prod.mk.injEq] at hv'
      rw [← hv'.1] at h'; exact absurd hk h'
    | sum U w =>
      obtain ⟨rfl, k', fs', hv', h', _⟩ := hy
      rw [hv] at hv'
      simp only [Option.some.injEq, Prod.mk.injEq] at hv'
      rw [← hv'.1, hk] at h'; simp at h'
    | tag U j w =>
      obtain ⟨rfl, k', fs', t', hv', _, _, hj, hy⟩ := hy
      rw [hv] at hv'
      simp only [Option.some.injEq, Prod.mk.injEq] at hv'
      obtain ⟨rfl, rfl⟩ := hv'
      have hcs := (view_clear hv hc).2
      simp only [Val.repr, hv] at h
      have h := call_inj h
      have h := joined_unique (by simp [tagItems]) (tag_closed hS.field (text_closed (repr_closed hS v)) _)
        (tag_closed hS.field (text_closed (repr_closed hS w)) _) h
      have hil : i < k.names.length := by
        rw [hl]; exact (List.getElem?_eq_some_iff.1 hi).1
      have hat := congrArg (fun l => l[i]?) h
      simp only [tagItems, List.getElem?_mapIdx, List.getElem?_eq_getElem hil, Option.map_some, Option.some.injEq,
        List.append_cancel_left_eq, if_true] at hat
      have hij : i = j := by
        by_contra hne
        rw [if_neg (fun h => hne h.symm)] at hat
        exact str_ne_none hx hat
      subst hij
      rw [if_pos rfl] at hat
      rw [hi] at hj
      obtain rfl := Option.some.inj hj
      have hmem : t ∈ fs := List.mem_of_getElem? hi
      have := str_inj hx hy (fun he => repr_inj hS v w hx hy (clears_mem hcs _ hmem) he) hat
      simp only [Val.plain, this]
theorem reprs_inj (hS : S.Ok) : ∀ (xs ys : List Val) {fs : List Ty}, Val.Exacts S fs xs → Val.Exacts S fs ys → Ty.Clears S fs →
    Val.reprs S xs = Val.reprs S ys → Val.plains xs = Val.plains ys
  | [], [], _, _, _, _, _ => rfl
  | [], _ :: _, _, _, _, _, h => by simp [Val.reprs] at h
  | _ :: _, [], _, _, _, _, h => by simp [Val.reprs] at h
  | x :: xs, y :: ys, [], hx, _, _, _ => absurd hx (by simp [Val.Exacts])
  | x :: xs, y :: ys, f :: fs, hx, hy, hc, h => by
    simp only [Val.reprs, List.cons.injEq] at h
    simp only [Val.plains, repr_inj hS x y hx.1 hy.1 hc.1 h.1, reprs_inj hS xs ys hx.2 hy.2 hc.2 h.2]
theorem strs_inj (hS : S.Ok) : ∀ (xs ys : List Val) {fs : List Ty}, Val.Exacts S fs xs → Val.Exacts S fs ys → Ty.Clears S fs →
    Val.strs S xs = Val.strs S ys → Val.plains xs = Val.plains ys
  | [], [], _, _, _, _, _ => rfl
  | [], _ :: _, _, _, _, _, h => by simp [Val.strs] at h
  | _ :: _, [], _, _, _, _, h => by simp [Val.strs] at h
  | x :: xs, y :: ys, [], hx, _, _, _ => absurd hx (by simp [Val.Exacts])
  | x :: xs, y :: ys, f :: fs, hx, hy, hc, h => by
    simp only [Val.strs, List.cons.injEq] at h
    simp only [Val.plains, str_inj hx.1 hy.1 (fun he => repr_inj hS x y hx.1 hy.1 hc.1 he) h.1,
      strs_inj hS xs ys hx.2 hy.2 hc.2 h.2]
end

mutual
/-- No tuple in the value has been assigned to. -/
def Val.Fresh : Val → Prop
  | .leaf _ _ => True
  | .enum _ _ => True
  | .tup _ a vs => a = false ∧ Val.Freshs vs
  | .sum _ v => v.Fresh
  | .tag _ _ v => v.Fresh
def Val.Freshs : List Val → Prop
  | [] => True
  | v :: vs => v.Fresh ∧ Val.Freshs vs
end

mutual
theorem fresh_plain : ∀ {v : Val}, v.Fresh → v.plain = v
  | .leaf _ _, _ => rfl
  | .enum _ _, _ => rfl
  | .tup _ _ _, h => by obtain ⟨rfl, h⟩ := h; simp only [Val.plain, fresh_plains h]
  | .sum _ v, h => by simp only [Val.plain, fresh_plain (v := v) h]
  | .tag _ _ v, h => by simp only [Val.plain, fresh_plain (v := v) h]
theorem fresh_plains : ∀ {vs : List Val}, Val.Freshs vs → Val.plains vs = vs
  | [], _ => rfl
  | _ :: _, h => by simp only [Val.plains, fresh_plain h.1, fresh_plains h.2]
end
end

/-- A way to write names. -/
def demoSpell : Spell where
  field n := 'f' :: pyStr n
  cls n := 'C' :: pyStr n
  fam n := 'V' :: pyStr n
  enum n := 'E' :: pyStr n
  base n := 'T' :: pyStr n
  named n := 'P' :: pyStr n
  mod n := 'M' :: pyStr n
  signed k := k == 3
  bit := 0

theorem demo_ident (c : Char) (hc : c.isDigit = false) (h : c ≠ '-') (hp : plainChar c = true) (n : Nat) : Ident (c :: pyStr n) :=
  ⟨⟨c, _, rfl, hc, h⟩, fun d hd => by
    rcases List.mem_cons.1 hd with rfl | hd
    · exact hp
    · exact plain_of_digit (pyStr_char hd)⟩

theorem demo_ok : demoSpell.Ok where
  field := demo_ident _ rfl (by decide) rfl
  cls := demo_ident _ rfl (by decide) rfl
  fam := demo_ident _ rfl (by decide) rfl
  enum := demo_ident _ rfl (by decide) rfl
  base := demo_ident _ rfl (by decide) rfl
  named := demo_ident _ rfl (by decide) rfl
  mod := demo_ident _ rfl (by decide) rfl
  field_inj m n h := by
    have : (m : Int) = n := pyStr_inj (List.cons.inj h).2
    exact Int.ofNat.inj this

/-- A `TaggedUnion` of a `Product` of a signed vector and a bit, and a vector. -/
def demoUnion : Ty := .node ⟨.tagged, .user 4, 1, 0, [0, 1]⟩
  [.node ⟨.product, .user 2, 0, 0, [0, 1]⟩ [.leaf (.vec 3 (some 8)), .leaf (.cls 0)], .leaf (.vec 0 (some 8))]
/-- `U(f0=P(f0=SIntVector[8](-1), f1=Bit(1)))` -/
def demoTag : Val := .tag demoUnion 0
  (.tup (.node ⟨.product, .user 2, 0, 0, [0, 1]⟩ [.leaf (.vec 3 (some 8)), .leaf (.cls 0)]) false
    [.leaf (.leaf (.vec 3 (some 8))) 255, .leaf (.leaf (.cls 0)) 1])

end Adt

/-! ## C122 -/

/-- Two values of one class that print the same hold the same values in the same fields. -/
theorem C122_repr_partial {S : Spell} (hS : S.Ok) {T : Ty} (hc : T.Clear S) {x y : Val} (hx : x.Exact S T) (hy : y.Exact S T)
    (h : x.repr S = y.repr S) : x.plain = y.plain := repr_inj hS x y hx hy hc h

/-- So do two values with the same `str`. -/
theorem C122_str_partial {S : Spell} (hS : S.Ok) {T : Ty} (hc : T.Clear S) {x y : Val} (hx : x.Exact S T) (hy : y.Exact S T)
    (h : x.str S = y.str S) : x.plain = y.plain := str_inj hx hy (repr_inj hS x y hx hy hc) h

/-- Before assignments they are equal. -/
theorem C122_equal_partial (W : World) (L : Leaves) {S : Spell} (hS : S.Ok) {T : Ty} (hc : T.Clear S) {x y : Val}
    (hx : x.Exact S T) (hy : y.Exact S T) (fx : x.Fresh) (fy : y.Fresh) (h : x.repr S = y.repr S) :
    Val.eq W L x y = true := by
  have := C122_repr_partial hS hc hx hy h
  rw [fresh_plain fx, fresh_plain fy] at this
  rw [this]
  exact C56_refl y

/-- Values of different classes print differently if the classes are named differently. -/
theorem C122_class {S : Spell} (hS : S.Ok) {T U : Ty} {x y : Val} (hx : x.Exact S T) (hy : y.Exact S U)
    (h : x.repr S = y.repr S) : T.nm S = U.nm S := repr_name hS hx hy h

/-- The text of a vector determines its class and its value. -/
theorem C122_vector {S : Spell} (hS : S.Ok) (hf : ∀ k k', S.fam k = S.fam k' → k = k') {k k' n n' p p' : Nat}
    (h : (Val.leaf (.leaf (.vec k (some n))) p).repr S = (Val.leaf (.leaf (.vec k' (some n'))) p').repr S) :
    k = k' ∧ n = n' ∧ p = p' := by
  simp only [Val.repr, payload, Ty.asVec, Ty.nm, List.append_assoc] at h
  have cut : ∀ {a b r r' : List Char}, (∀ c ∈ a, c ≠ '[') → (∀ c ∈ b, c ≠ '[') → a ++ '[' :: r = b ++ '[' :: r' → a = b ∧ r = r' := by
    intro a b r r' ha hb he
    rcases List.append_eq_append_iff.1 he with ⟨t, h3, h4⟩ | ⟨t, h3, h4⟩
    · cases t with
      | nil => simp_all
      | cons d t =>
        simp only [List.cons_append, List.cons.injEq] at h4
        exact absurd h4.1.symm (hb d (by rw [h3]; simp))
    · cases t with
      | nil => simp_all
      | cons d t =>
        simp only [List.cons_append, List.cons.injEq] at h4
        exact absurd h4.1.symm (ha d (by rw [h3]; simp))
  have nb : ∀ k, ∀ c ∈ S.fam k, c ≠ '[' := fun k c hc he => by
    have := (hS.fam k).2 c hc
    rw [he] at this
    exact absurd this (by decide)
  obtain ⟨h1, h2⟩ := cut (nb k) (nb k') h
  obtain ⟨h3, h4⟩ := closed_unique (pyStr_closed n) (pyStr_closed n') (by left; rfl) (by left; rfl) h2
  simp only [List.cons_append, List.nil_append, List.cons.injEq, true_and, List.append_cancel_right_eq] at h4
  have := pyStr_inj h3
  have := pyStr_inj h4
  exact ⟨hf _ _ h1, by omega, by omega⟩

/-- `str` of a vector is the decimal of `int(v)`: two's complement if the class is signed. -/
theorem C122_vector_str (S : Spell) (k n p : Nat) (hp : p < 2 ^ n) : (Val.leaf (.leaf (.vec k (some n))) p).str S =
    pyStr (if S.signed k then (BitVec.ofNat n p).toInt else (BitVec.ofNat n p).toNat) := by
  simp only [Val.str, Val.text, Ty.asVec, Spell.toInt]
  congr 1
  rw [BitVec.toNat_ofNat, Nat.mod_eq_of_lt hp, BitVec.toInt_eq_toNat_cond, BitVec.toNat_ofNat, Nat.mod_eq_of_lt hp]
  by_cases hs : S.signed k = true
  · by_cases hc : 2 ^ n ≤ 2 * p
    · simp [hs, hc, Nat.not_lt.2 hc]
    · simp [hs, hc, Nat.not_le.1 hc]
  · simp [hs]
example (S : Spell) (hs : S.signed 2 = true) : (Val.leaf (.leaf (.vec 2 (some 8))) 255).str S = ['-', '1'] := by
  rw [C122_vector_str S 2 8 255 (by decide), if_pos hs]; decide

/-- `Sum[BitVector[8], BitVector[16]]` prints `BitVector[8](1)` and `BitVector[16](1)` the same. -/
theorem C122_sum_refuted (S : Spell) (hs : S.signed 0 = false) (k : Con) (hk : k.shape = .sum) :
    ∃ (T : Ty) (x y : Val), x.Exact S T ∧ y.Exact S T ∧ x.repr S = y.repr S ∧ x.plain ≠ y.plain := by
  refine ⟨.node k [.leaf (.vec 0 (some 8)), .leaf (.vec 0 (some 16))], .sum _ (.leaf (.leaf (.vec 0 (some 8))) 1),
    .sum _ (.leaf (.leaf (.vec 0 (some 16))) 1),
    ⟨rfl, k, _, rfl, hk, by simp [Val.cls], rfl, .inl ⟨0, 8, rfl, by decide, by simp⟩⟩,
    ⟨rfl, k, _, rfl, hk, by simp [Val.cls], rfl, .inl ⟨0, 16, rfl, by decide, by simp⟩⟩, ?_, ?_⟩
  · simp [Val.repr, Val.text, Ty.asVec, Spell.toInt, hs]
  · simp [Val.plain]

/-- A tuple that has been assigned to prints as before, and is not equal to one that has not. -/
theorem C122_assigned_refuted (S : Spell) (W : World) (L : Leaves) {T : Ty} {vs : List Val} :
    (Val.tup T true vs).repr S = (Val.tup T false vs).repr S ∧ Val.eq W L (.tup T true vs) (.tup T false vs) = false := by
  refine ⟨rfl, ?_⟩
  simp only [Val.eq, Val.eqv]
  split <;> simp

example : demoUnion.Clear demoSpell := by simp [demoUnion, Ty.Clear, Ty.Clears]
example : demoTag.Exact demoSpell demoUnion :=
  ⟨rfl, _, _, _, rfl, rfl, rfl, rfl, rfl, _, _, rfl, by decide, by decide, fun _ => rfl,
    ⟨rfl, .inl ⟨3, 8, rfl, by decide, by decide⟩⟩, ⟨rfl, .inr ⟨rfl, by decide⟩⟩, trivial⟩
example : demoTag.repr demoSpell = "P1(f0=P0(f0=-1, f1=C0(True)), f1=None)".toList := by decide +kernel

end HW
