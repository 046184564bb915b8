import Verif.Lemmas.Adt.ValueEq

/-!
# Equality and hash of ADT values (C52, C56, C58)
-/

namespace HW

open Adt

variable {W : World} {L : Leaves}

/-! ### C52: tuples and products of one class -/

/-- Equality is field-wise if both values have been assigned to, or neither.  Otherwise: `C52_assigned_negation`. -/
theorem C52_eq_partial (T : Ty) (a : Bool) (vs ws : List Val) : ∃ f : Bool,
    Val.eq W L (.tup T a vs) (.tup T a ws) = true ↔ vs.length = ws.length ∧
      ∀ (i : Nat) v w, vs[i]? = some v → ws[i]? = some w → Val.eqv W L f v w = true := by
  obtain ⟨g, hg⟩ := decides_self (W := W) false T
  refine ⟨g, ?_⟩
  unfold Val.eq
  simp only [Val.eqv, hg, decide_true, Bool.true_and]
  exact eqvs_iff

/-- The same, for well-typed fields, with plain equality of the fields. -/
theorem C52_fieldwise_partial (hA : W.Antisymm) (T : Ty) (a : Bool) {vs ws : List Val} (hv : ∀ v ∈ vs, v.WT W)
    (hw : ∀ w ∈ ws, w.WT W) :
    Val.eq W L (.tup T a vs) (.tup T a ws) = true ↔ vs.length = ws.length ∧
      ∀ (i : Nat) v w, vs[i]? = some v → ws[i]? = some w → Val.eq W L v w = true := by
  obtain ⟨f, hf⟩ := C52_eq_partial (W := W) (L := L) T a vs ws
  rw [hf]
  unfold Val.eq
  refine and_congr_right fun _ => forall_congr' fun i => forall_congr' fun v => forall_congr' fun w => ?_
  refine imp_congr_right fun h1 => imp_congr_right fun h2 => ?_
  rw [eqv_flip hA v (hv v (List.mem_of_getElem? h1)) w (hw w (List.mem_of_getElem? h2)) f false]

/-- Equal values of one class that are not assigned to hash equally, and are hashable if their fields are. -/
theorem C52_hash_partial {T : Ty} {vs ws : List Val} (h : Val.eq W L (.tup T false vs) (.tup T false ws) = true)
    (h1 : SumApart W (.tup T false vs) (.tup T false ws)) (h2 : SumApart W (.tup T false ws) (.tup T false vs)) :
    Val.hash L (.tup T false vs) = Val.hash L (.tup T false ws) :=
  eqv_hash _ _ h1 h2 _ h

/-- After any accepted assignment, a tuple or product is not hashable. -/
theorem C52_unhashable_negation {h : Store} {r T a vs k fs} {i : Int} {v : Ref} (hr : h[r]? = some (.tup T a vs))
    (hv : T.view = some (k, fs)) (hl : vs.length = fs.length) (hok : (h.setItem W r (.int i) v).res = .ok ()) {n x}
    (hx : (h.setItem W r (.int i) v).st.read n r = some x) : Val.hash L x = .error .typeError := by
  rcases setItem_int_ok (W := W) hr hv hl (i := i) (v := v) with ⟨t, e1, e2, e3, e4, e5⟩ | ⟨e, -, e5⟩
  · rw [e5] at hx
    obtain ⟨hlt, -⟩ := List.getElem?_eq_some_iff.1 hr
    cases n with
    | zero => simp [Store.read] at hx
    | succ n =>
        simp only [Store.read, List.getElem?_set_self hlt, Option.map_eq_some_iff] at hx
        obtain ⟨l, -, rfl⟩ := hx
        simp [Val.hash]
  · rw [e5] at hok; cases hok

/-- An assigned value differs from a fresh one with the same fields: `p = P(1); p.a = 1` makes `p != P(1)`. -/
theorem C52_assigned_negation (T : Ty) (vs : List Val) : Val.eq W L (.tup T true vs) (.tup T false vs) = false := by
  unfold Val.eq
  simp only [Val.eqv]
  split <;> simp

/-- Two objects made alike; then one field of one of them is assigned the value it has. -/
theorem C52_reachable_negation : ∃ (ops : List Op) (x y : Val), (Store.run W [] ops).read 2 1 = some x ∧
    (Store.run W [] ops).read 2 2 = some y ∧ (Store.run W [] ops).getItem 1 0 = (Store.run W [] ops).getItem 2 0 ∧
    x.cls = mkTuple (.user 0) [.leaf (.cls 0)] ∧ y.cls = x.cls ∧ Val.eq W L x y = false := by
  refine ⟨[.other (.leaf (.cls 0)) 5, .new (mkTuple (.user 0) [.leaf (.cls 0)]) [0] [],
    .new (mkTuple (.user 0) [.leaf (.cls 0)]) [0] [], .setItem 1 (.int 0) 0],
    .tup (mkTuple (.user 0) [.leaf (.cls 0)]) true [.leaf (.leaf (.cls 0)) 5],
    .tup (mkTuple (.user 0) [.leaf (.cls 0)]) false [.leaf (.leaf (.cls 0)) 5], ?_, ?_, ?_, rfl, rfl,
    C52_assigned_negation _ _⟩ <;>
  simp [Store.run, Store.step, Ty.isPlain, Ty.view, Store.alloc, construct, mkTuple, callTuple, initTuple, checkFields,
    Store.isinst, Obj.cls, bind, Except.bind, pure, Except.pure, W.sub_refl, Store.setItem, setItemValue, pyIndex,
    Store.read, Store.getItem]

example : ∃ (T : Ty) (vs ws : List Val), vs ≠ ws ∧ (∀ v ∈ vs, v.WT World.std) ∧
    Val.eq World.std ⟨fun _ _ => true, by simp, by simp, by simp, fun _ => 0, by simp, fun _ => 0, fun _ => 0⟩
      (.tup T true vs) (.tup T true ws) = true := by
  refine ⟨mkTuple (.user 0) [.leaf (.cls 0)], [.leaf (.leaf (.cls 0)) 5], [.leaf (.leaf (.cls 0)) 6], by simp, ?_, ?_⟩
  · intro v hv w hw
    simp only [List.mem_singleton] at hv
    subst hv
    cases hw
    rfl
  · rw [Val.eq, Val.eqv]
    obtain ⟨g, hg⟩ := decides_self (W := World.std) false (mkTuple (.user 0) [.leaf (.cls 0)])
    simp only [hg]
    cases g <;> simp [Val.eqvs, Val.eqv]

/-! ### C56: equality across classes -/

theorem C56_refl (x : Val) : Val.eq W L x x = true := eqv_refl x false

theorem C56_symm (hA : W.Antisymm) {x y : Val} (hx : x.WT W) (hy : y.WT W) :
    Val.eq W L x y = Val.eq W L y x := eq_symm hA hx hy

/-- `!=` is the negation of `==`. -/
theorem C56_ne (hA : W.Antisymm) {x y : Val} (hx : x.WT W) (hy : y.WT W) :
    Val.ne W L x y = !(Val.eq W L x y) := by
  unfold Val.ne
  split
  · rw [eq_symm hA hx hy]
  · rfl

/-- Transitivity, where no class involved is a proper subclass of another. -/
theorem C56_trans_partial {x y z : Val} (hx : x.WT W) (hy : y.WT W) (hz : z.WT W) (hxy : Unrelated W x y)
    (hyz : Unrelated W y z) (h1 : Val.eq W L x y = true) (h2 : Val.eq W L y z = true) : Val.eq W L x z = true :=
  eqv_trans x y z hx hy hz hxy hyz _ _ _ h1 h2

/-- Equal values hash equally (or are both unhashable), unless a `Sum` meets a `TaggedUnion` derived from it. -/
theorem C56_hash_partial {x y : Val} (h1 : SumApart W x y) (h2 : SumApart W y x) (h : Val.eq W L x y = true) :
    Val.hash L x = Val.hash L y := eqv_hash x y h1 h2 _ h

/-- A 64-bit hash. -/
def Word (n : Int) : Prop := -(2 ^ 63) ≤ n ∧ n < 2 ^ 63 ∧ n ≠ -1

theorem hashInt_word (n : Int) : Word (hashInt n) := by
  unfold Word hashInt
  dsimp only
  have hm : (0 : Int) < 2 ^ 61 - 1 := by decide
  have a1 := Int.emod_nonneg n hm.ne'
  have a2 := Int.emod_lt_of_pos n hm
  have b1 := Int.emod_nonneg (-n) hm.ne'
  have b2 := Int.emod_lt_of_pos (-n) hm
  split <;> split <;> omega

theorem hashSlot_word (n : Int) : Word (hashSlot n) := by
  unfold hashSlot
  split
  · unfold Word; split <;> omega
  · exact hashInt_word n

/-- A hash fits in 64 bits and is not -1, if the hashes of what is not an ADT value are such. -/
theorem C56_hash_word (h0 : ∀ a, Word (L.hash a)) (h1 : ∀ i, Word (L.hashAuto i)) (h2 : ∀ l, Word (L.hashTuple l)) {x : Val} {n : Int}
    (h : Val.hash L x = .ok n) : Word n := by
  induction x using Val.rec (motive_2 := fun _ => True) generalizing n with
  | leaf T p => cases h; exact h0 _
  | enum e i =>
    simp only [Val.hash] at h
    split at h
    · cases h
      rename_i v _
      cases v with
      | int v => exact hashInt_word v
      | auto i => exact h1 i
    · cases h
  | tup T a vs _ =>
    simp only [Val.hash] at h
    split at h
    · cases h
    · cases hs : Val.hashes L vs with
      | error e => simp [hs, bind, Except.bind] at h
      | ok l => simp only [hs, bind, Except.bind, pure, Except.pure, Except.ok.injEq] at h; subst h; exact h2 l
  | sum T v ih => exact ih h
  | tag T i v ih =>
    simp only [Val.hash] at h
    cases hs : Val.hash L v with
    | error e => simp [hs, bind, Except.bind] at h
    | ok m => simp only [hs, bind, Except.bind, pure, Except.pure, Except.ok.injEq] at h; subst h; exact hashSlot_word _
  | nil => trivial
  | cons _ _ _ _ => trivial

/-- Two products with the same field types (in the same order) derive from one tuple class: their equal-field values
are equal to the tuple's but not to each other. -/
theorem C56_trans_negation {P Q : Ty} (hPQ : P = mkProduct (.user 1) 1 0 [8] [.leaf (.cls 0)])
    (hQ : Q = mkProduct (.user 1) 2 0 [9] [.leaf (.cls 0)])
    (h1 : W.sub P (mkTuple (.user 0) [.leaf (.cls 0)]) = true) (h2 : W.sub Q (mkTuple (.user 0) [.leaf (.cls 0)]) = true)
    (h3 : W.sub P Q = false) (h4 : W.sub Q P = false) :
    ∃ x y z : Val, x.WT W ∧ y.WT W ∧ z.WT W ∧ Val.eq W L x y = true ∧ Val.eq W L y z = true ∧
      Val.eq W L x z = false := by
  subst hPQ hQ
  let v : Val := .leaf (.leaf (.cls 0)) 1
  have wt : ∀ T k, T.view = some (k, [Ty.leaf (.cls 0)]) → k.shape ≠ .sum → k.shape ≠ .tagged →
      Val.WT W (.tup T false [v]) := by
    intro T k hT s1 s2 w hw
    cases hw with
    | self =>
        refine ⟨k, _, hT, s1, s2, rfl, fun i a t ha ht => ?_⟩
        cases i with
        | zero =>
            simp only [List.getElem?_cons_zero, Option.some.injEq] at ha ht
            subst ha ht
            exact W.sub_refl _
        | succ i => simp at ha
    | tup hv hw =>
        simp only [List.mem_singleton] at hv
        subst hv
        simp only [v] at hw
        cases hw
        rfl
  refine ⟨.tup (mkProduct (.user 1) 1 0 [8] [.leaf (.cls 0)]) false [v], .tup (mkTuple (.user 0) [.leaf (.cls 0)]) false [v],
    .tup (mkProduct (.user 1) 2 0 [9] [.leaf (.cls 0)]) false [v], wt _ _ rfl (by simp) (by simp),
    wt _ _ rfl (by simp) (by simp), wt _ _ rfl (by simp) (by simp), ?_, ?_, ?_⟩
  · obtain ⟨g, hg⟩ := (decides_iff (f := false)).2 (.inl h1)
    rw [Val.eq, Val.eqv]
    simp only [hg]
    simp [Val.eqvs, eqv_refl]
  · obtain ⟨g, hg⟩ := (decides_iff (f := false)).2 (.inr h2)
    rw [Val.eq, Val.eqv]
    simp only [hg]
    simp [Val.eqvs, eqv_refl]
  · rw [Val.eq, Val.eqv]
    split
    · rename_i f' hd
      have := decides_iff.1 ⟨f', hd⟩
      simp [h3, h4] at this
    · rfl

/-- A `TaggedUnion` value equals the `Sum` value with the same content, and hashes differently (at any tag but the
first). -/
theorem C56_hash_negation (hA : W.Antisymm) {e : EnumT} (he : e = ⟨0, [(1, .int 5)]⟩)
    (hs : W.sub (mkTagged W (.user 1) 1 0 [8, 9] [.enum e, .enum e]) (mkSum W (.user 0) [.enum e]) = true) :
    ∃ x y : Val, x.WT W ∧ y.WT W ∧ Val.eq W L x y = true ∧ Val.hash L x = .ok 5 ∧ Val.hash L y = .ok 6 := by
  have hin : ∀ w : Val, w.In (.enum e 0) → w.Ok W := by
    intro w hw
    cases hw
    show 0 < e.members.length
    rw [he]; simp
  refine ⟨.sum (mkSum W (.user 0) [.enum e]) (.enum e 0),
    .tag (mkTagged W (.user 1) 1 0 [8, 9] [.enum e, .enum e]) 1 (.enum e 0), ?_, ?_, ?_, ?_, ?_⟩
  · intro w hw
    cases hw with
    | self => exact ⟨_, _, rfl, rfl, .enum e, (W.mem_canon _ _).2 (by simp), W.sub_refl _⟩
    | sum hw => exact hin w hw
  · intro w hw
    cases hw with
    | self =>
        have hp := W.perm_canonF ⟨.tagged, .user 1, 1, 0, [8, 9]⟩ ([8, 9].zip [Ty.enum e, Ty.enum e])
        have hl : 1 < (W.canonF ⟨.tagged, .user 1, 1, 0, [8, 9]⟩ ([8, 9].zip [Ty.enum e, Ty.enum e])).length := by
          rw [hp.length_eq]; simp
        have hm := hp.mem_iff.1 (List.getElem_mem hl)
        refine ⟨_, _, .enum e, rfl, rfl, ?_, W.sub_refl _⟩
        rw [List.getElem?_map, List.getElem?_eq_getElem hl]
        simp only [List.zip_cons_cons, List.zip_nil_right, List.mem_cons, List.not_mem_nil, or_false] at hm
        rcases hm with hm | hm <;> simp [hm]
    | tag hw => exact hin w hw
  · obtain ⟨g, hg⟩ := (decides_iff (f := false)).2 (.inr hs)
    cases g with
    | false =>
        rw [Val.eq, Val.eqv]
        simp only [hg, eqv_refl]
    | true => cases hA _ _ (decides_some hg) hs
  · rw [he]; rfl
  · rw [he]; rfl

theorem under_antisymm {b : Ty} {l : List Ty} (hb : b ∉ l) : (World.under b l).Antisymm := by
  intro x y h1 h2
  simp only [World.under, Bool.or_eq_true, Bool.and_eq_true, decide_eq_true_eq] at h1 h2
  rcases h1 with h | ⟨rfl, h⟩
  · exact h
  · rcases h2 with h' | ⟨-, h'⟩
    · exact h'.symm
    · exact absurd h' hb

example : let P := mkProduct (.user 1) 1 0 [8] [.leaf (.cls 0)]
    let Q := mkProduct (.user 1) 2 0 [9] [.leaf (.cls 0)]
    let T := mkTuple (.user 0) [.leaf (.cls 0)]
    let W := World.under T [P, Q]
    W.Antisymm ∧ W.sub P T = true ∧ W.sub Q T = true ∧ W.sub P Q = false ∧ W.sub Q P = false := by
  intro P Q T W
  refine ⟨under_antisymm (by simp [P, Q, T, mkTuple, mkProduct]), ?_, ?_, ?_, ?_⟩ <;>
    simp [W, World.under, P, Q, T, mkTuple, mkProduct]

/-- A world in which the tagged union over an enum derives from the sum, as it does in the code. -/
example : let e : EnumT := ⟨0, [(1, .int 5)]⟩
    let S := mkSum World.std (.user 0) [.enum e]
    let U := mkTagged World.std (.user 1) 1 0 [8, 9] [.enum e, .enum e]
    let W := World.under S [U]
    W.Antisymm ∧ W.sub (mkTagged W (.user 1) 1 0 [8, 9] [.enum e, .enum e]) (mkSum W (.user 0) [.enum e]) = true := by
  intro e S U W
  refine ⟨under_antisymm (by simp [S, U, mkSum, mkTagged]), ?_⟩
  have h1 : mkTagged W (.user 1) 1 0 [8, 9] [.enum e, .enum e] = U := rfl
  have h2 : mkSum W (.user 0) [.enum e] = S := rfl
  rw [h1, h2]
  simp [W, World.under]

/-- The limits of `C56_trans_partial` and `C56_hash_partial` are met wherever classes do not derive from each other. -/
example (x y : Val) : Unrelated World.std x y := by
  intro u v _ _ h
  simpa [World.std, eq_comm] using h

/-! ### C58: enum members -/

/-- Members of one enum are equal iff their values are. -/
theorem C58_same (e : EnumT) (i j : Nat) : Val.eq W L (.enum e i) (.enum e j) = true ↔ e.value i = e.value j := by
  obtain ⟨g, hg⟩ := decides_self (W := W) false (.enum e)
  simp [Val.eq, Val.eqv, hg]

/-- Members of enums neither of which derives from the other are never equal. -/
theorem C58_different_partial {e e' : EnumT} (h1 : W.sub (.enum e) (.enum e') = false)
    (h2 : W.sub (.enum e') (.enum e) = false) (i j : Nat) : Val.eq W L (.enum e i) (.enum e' j) = false := by
  rw [Val.eq, Val.eqv]
  split
  · rename_i g hg
    have := decides_iff.1 ⟨g, hg⟩
    simp [h1, h2] at this
  · rfl

/-- An enum can be derived from another; then members of the two with the same value are equal. -/
theorem C58_derived_negation {e e' : EnumT} (h : W.sub (.enum e') (.enum e) = true) {i j : Nat}
    (hv : e.value i = e'.value j) : Val.eq W L (.enum e i) (.enum e' j) = true := by
  obtain ⟨g, hg⟩ := (decides_iff (f := false)).2 (.inr h)
  simp [Val.eq, Val.eqv, hg, hv]

/-- An automatic value is equal to no number and to no other automatic value, in whatever enum. -/
theorem C58_auto {e e' : EnumT} {i j a : Nat} (hi : e.value i = some (.auto a))
    (h : Val.eq W L (.enum e i) (.enum e' j) = true) : e'.value j = some (.auto a) := by
  rw [Val.eq, Val.eqv] at h
  split at h
  · rw [← of_decide_eq_true h, hi]
  · cases h

/-- A member cannot be reached through a member; other attributes are found as usual. -/
theorem C58_access {α : Type} (e : EnumT) (n : Name) (ordinary : PyM α) :
    ((∃ v, (n, v) ∈ e.members) → e.getattr n ordinary = .error .attributeError) ∧
    ((¬ ∃ v, (n, v) ∈ e.members) → e.getattr n ordinary = ordinary) := by
  unfold EnumT.getattr
  constructor
  · rintro ⟨v, hv⟩
    rw [if_pos]
    simp only [List.contains_eq_mem, decide_eq_true_eq, List.mem_map]
    exact ⟨_, hv, rfl⟩
  · intro h
    rw [if_neg]
    simp only [List.contains_eq_mem, decide_eq_true_eq, List.mem_map, not_exists, not_and]
    rintro ⟨n', v⟩ hv rfl
    exact h ⟨v, hv⟩

example : let e : EnumT := ⟨0, [(1, .int 5), (2, .int 5), (3, .auto 0)]⟩
    Val.eq W L (.enum e 0) (.enum e 1) = true ∧ Val.eq W L (.enum e 0) (.enum e 2) = false := by
  refine ⟨(C58_same _ _ _).2 rfl, ?_⟩
  by_contra h
  have := (C58_same (W := W) (L := L) ⟨0, [(1, .int 5), (2, .int 5), (3, .auto 0)]⟩ 0 2).1 (by simpa using h)
  simp [EnumT.value] at this

example : ∃ (W : World) (e e' : EnumT), e ≠ e' ∧ W.Antisymm ∧ W.sub (.enum e') (.enum e) = true ∧
    e.value 0 = e'.value 0 := by
  refine ⟨World.under (.enum ⟨0, [(1, .int 5)]⟩) [.enum ⟨1, [(1, .int 5)]⟩], ⟨0, [(1, .int 5)]⟩, ⟨1, [(1, .int 5)]⟩,
    by simp, under_antisymm (by simp), by simp [World.under], rfl⟩

end HW
