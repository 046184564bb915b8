import Verif.Lemmas.Adt.Enumerate

/-!
# `enumerate` (C57)
-/

namespace HW

open Adt

variable {W : World} {L : Leaves} {C : Calls}

/-- `T.enumerate()` yields every value made of exactly the declared classes, once, and nothing else; their number is
the sum, respectively the product, of the numbers for the fields. -/
theorem C57_enumerate_partial {T : Ty} (hT : Built W T) (hO : OverEnums T) :
    ∃ l, T.enumerate W C = .ok l ∧ l.Nodup ∧ (∀ v, v ∈ l ↔ Exact T v) ∧ l.length = T.card := by
  obtain ⟨h1, h2⟩ := enumAs_ok (W := W) C T hT hO
  have : ∃ l, Ty.enumAs W C T T = .ok l ∧ Lists T l ∧ l.length = T.card := by
    cases hv : T.view with
    | some p => exact h2 p.1 p.2 hv T p.1 hv rfl rfl
    | none =>
        cases hO with
        | enum e => exact h1 e rfl
        | node => cases hv
        | mod m u hu =>
            simp only [Ty.view, Option.map_eq_none_iff] at hv
            exact absurd hv hu
  obtain ⟨l, a, b, c⟩ := this
  exact ⟨l, a, b.1, b.2, c⟩

/-- Fields that are no ADT types: a sum or tagged union calls them without arguments, a tuple or product with 0, and
nothing else about them matters. -/
theorem C57_calls {C C' : Calls} {k : Con} {fs : List Ty} (hfs : ∀ t ∈ fs, t.isBound = false) :
    (k.shape = .sum ∨ k.shape = .tagged → (∀ t ∈ fs, C.none t = C'.none t) →
      (Ty.node k fs).enumerate W C = (Ty.node k fs).enumerate W C') ∧
    (k.shape ≠ .sum → k.shape ≠ .tagged → (∀ t ∈ fs, C.zero t = C'.zero t) →
      (Ty.node k fs).enumerate W C = (Ty.node k fs).enumerate W C') := by
  have key : ∀ z : Bool, (∀ t ∈ fs, (if z then C.zero t else C.none t) = if z then C'.zero t else C'.none t) →
      Ty.enumFields W C z fs = Ty.enumFields W C' z fs := by
    intro z
    induction fs with
    | nil => intro _; rfl
    | cons t ts ih =>
      intro h
      have ht := hfs t (by simp)
      simp only [Ty.enumFields, ht, h t (by simp), ih (fun t ht => hfs t (by simp [ht])) fun t ht => h t (by simp [ht]),
        Bool.false_eq_true, if_false]
  constructor
  · intro hs h
    have hz : k.zero = false := by rcases hs with hs | hs <;> simp [Con.zero, hs]
    simp only [Ty.enumerate, Ty.enumAs, hz, key false (by simpa using h)]
  · intro h1 h2 h
    have hz : k.zero = true := by simp [Con.zero, h1, h2]
    simp only [Ty.enumerate, Ty.enumAs, hz, key true (by simpa using h)]

example : ∀ t ∈ [Ty.leaf (.cls 0), Ty.leaf (.vec 1 (some 8))], t.isBound = false := by simp [Ty.isBound]

/-- What it yields is of type `T` and well typed throughout. -/
theorem C57_typed {T : Ty} {v : Val} (h : Exact T v) : v.cls = T ∧ v.WT W := by
  refine ⟨h.cls, ?_⟩
  induction h with
  | enum e i hi =>
      intro w hw
      cases hw
      exact hi
  | tup e1 e2 e3 e4 e5 ih =>
      intro w hw
      cases hw with
      | self =>
          exact ⟨_, _, e1, e2, e3, e4, fun i v t a b => by rw [(e5 i v t a b).cls]; exact W.sub_refl _⟩
      | tup hm hw =>
          obtain ⟨i, hi⟩ := List.mem_iff_getElem?.1 hm
          have hlt := (List.getElem?_eq_some_iff.1 hi).1
          rw [e4] at hlt
          exact ih i _ _ hi (List.getElem?_eq_getElem hlt) w hw
  | sum e1 e2 e3 e4 ih =>
      intro w hw
      cases hw with
      | self => exact ⟨_, _, e1, e2, _, e3, by rw [e4.cls]; exact W.sub_refl _⟩
      | sum hw => exact ih w hw
  | tag e1 e2 e3 e4 ih =>
      intro w hw
      cases hw with
      | self => exact ⟨_, _, _, e1, e2, e3, by rw [e4.cls]; exact W.sub_refl _⟩
      | tag hw => exact ih w hw

/-- Where the classes below `T` have no proper subclasses, that is every well-typed value of `T` made of enum members,
up to equality of assigned and fresh tuples (C52). -/
theorem C57_complete_partial {v : Val} : ∀ {T : Ty}, v.cls = T → v.WT W →
    (∀ T' vs, ¬ (Val.tup T' true vs).In v) → (∀ T' p, ¬ (Val.leaf T' p).In v) →
    (∀ t a, t.Below T → W.sub a t = true → a = t) → Exact T v := by
  induction v using Val.induct with
  | leaf T p => intro _ _ _ _ hl; exact absurd .self (hl T p)
  | enum e i =>
      intro T hc hw _ _ _
      subst hc
      exact .enum e i (hw _ .self)
  | tup T' a vs ih =>
      intro T hc hw hf hl hs
      subst hc
      cases a with
      | true => exact absurd .self (hf T' vs)
      | false =>
          obtain ⟨k, fs, e1, e2, e3, e4, e5⟩ := hw _ .self
          refine .tup e1 e2 e3 e4 fun i v t hi ht => ?_
          have hm := List.mem_of_getElem? hi
          have hfld : Ty.HasField T' t := ⟨k, fs, e1, List.mem_of_getElem? ht⟩
          exact ih v hm (hs t _ (.field hfld) (e5 i v t hi ht)) (fun w h => hw w (.tup hm h))
            (fun _ _ h => hf _ _ (.tup hm h)) (fun _ _ h => hl _ _ (.tup hm h))
            (fun u a hu => hs u a (.deep hfld hu))
  | sum T' v ih =>
      intro T hc hw hf hl hs
      subst hc
      obtain ⟨k, fs, e1, e2, t, e3, e4⟩ := hw _ .self
      have hfld : Ty.HasField T' t := ⟨k, fs, e1, e3⟩
      exact .sum e1 e2 e3 (ih (hs t _ (.field hfld) e4) (fun w h => hw w (.sum h))
            (fun _ _ h => hf _ _ (.sum h)) (fun _ _ h => hl _ _ (.sum h)) (fun u a hu => hs u a (.deep hfld hu)))
  | tag T' i v ih =>
      intro T hc hw hf hl hs
      subst hc
      obtain ⟨k, fs, t, e1, e2, e3, e4⟩ := hw _ .self
      have hfld : Ty.HasField T' t := ⟨k, fs, e1, List.mem_of_getElem? e3⟩
      exact .tag e1 e2 e3 (ih (hs t _ (.field hfld) e4) (fun w h => hw w (.tag h))
            (fun _ _ h => hf _ _ (.tag h)) (fun _ _ h => hl _ _ (.tag h)) (fun u a hu => hs u a (.deep hfld hu)))

theorem Adt.Distinct.fields {T : Ty} : Distinct W T → ∀ {k fs}, T.view = some (k, fs) →
    (k.shape = .sum → ∀ t ∈ fs, ∀ t' ∈ fs, W.sub t t' = true → t = t') ∧ ∀ t ∈ fs, Distinct W t := by
  intro h
  induction h with
  | leaf => nofun
  | enum => nofun
  | node k fs h1 h2 => intro k' fs' e; cases e; exact ⟨h1, h2⟩
  | mod m t _ ih =>
      intro k fs e
      simp only [Ty.view, Option.map_eq_some_iff] at e
      obtain ⟨⟨k0, fs0⟩, e1, e2⟩ := e
      cases e2
      exact ih (k := k0) e1

/-- With distinct member values and unrelated alternatives no two of them are equal. -/
theorem C57_distinct {T : Ty} {x : Val} (hx : Exact T x) : ∀ {y : Val} {f : Bool}, Exact T y → Distinct W T →
    Val.eqv W L f x y = true → x = y := by
  induction hx with
  | enum e i hi =>
      intro y f hy hd he
      cases hy with
      | tup h => cases h
      | sum h => cases h
      | tag h => cases h
      | enum _ j hj =>
          rw [Val.eqv] at he
          split at he
          · have hv := of_decide_eq_true he
            cases hd with
            | enum _ hn =>
                congr 1
                rw [EnumT.value, EnumT.value, ← List.getElem?_map, ← List.getElem?_map] at hv
                exact (List.getElem?_inj (by simpa using hi) hn).1 hv
          · cases he
  | @tup T k fs vs e1 e2 e3 e4 e5 ih =>
      intro y f hy hd he
      cases hy with
      | enum => cases e1
      | sum h1 h2 => rw [e1] at h1; cases h1; exact absurd h2 e2
      | tag h1 h2 => rw [e1] at h1; cases h1; exact absurd h2 e3
      | @tup _ _ _ ws h1 h2 h3 h4 h5 =>
          rw [e1] at h1
          cases h1
          rw [Val.eqv] at he
          split at he
          · rename_i g hg
            simp only [decide_true, Bool.true_and, eqvs_iff] at he
            congr 1
            apply List.ext_getElem?
            intro i
            by_cases hi : i < fs.length
            · have a1 : vs[i]? = some vs[i] := List.getElem?_eq_getElem (by omega)
              have a2 : ws[i]? = some ws[i] := List.getElem?_eq_getElem (by omega)
              have a3 : fs[i]? = some fs[i] := List.getElem?_eq_getElem hi
              rw [a1, a2]
              congr 1
              exact ih i _ _ a1 a3 (h5 i _ _ a2 a3) ((hd.fields e1).2 _ (List.mem_of_getElem? a3)) (he.2 i _ _ a1 a2)
            · rw [List.getElem?_eq_none (by omega), List.getElem?_eq_none (by omega)]
          · cases he
  | @sum T k fs t v e1 e2 e3 e4 ih =>
      intro y f hy hd he
      cases hy with
      | enum => cases e1
      | tup h1 h2 => rw [e1] at h1; cases h1; exact absurd e2 h2
      | tag h1 h2 => rw [e1] at h1; cases h1; rw [e2] at h2; cases h2
      | @sum _ _ _ t' w h1 h2 h3 h4 =>
          rw [e1] at h1
          cases h1
          rw [Val.eqv] at he
          split at he
          · rename_i g hg
            have hrel : W.sub t t' = true ∨ W.sub t' t = true := by
              have := eqv_rel e4 he
              rwa [e4.cls, h4.cls] at this
            have ht : t = t' := by
              rcases hrel with h | h
              · exact (hd.fields e1).1 e2 t e3 t' h3 h
              · exact ((hd.fields e1).1 e2 t' h3 t e3 h).symm
            subst ht
            rw [ih h4 ((hd.fields e1).2 _ e3) he]
          · cases he
  | @tag T k fs i t v e1 e2 e3 e4 ih =>
      intro y f hy hd he
      cases hy with
      | enum => cases e1
      | tup h1 _ h2 => rw [e1] at h1; cases h1; exact absurd e2 h2
      | sum h1 h2 => rw [e1] at h1; cases h1; rw [e2] at h2; cases h2
      | @tag _ _ _ j t' w h1 h2 h3 h4 =>
          rw [e1] at h1
          cases h1
          rw [Val.eqv] at he
          split at he
          · simp only [Bool.and_eq_true, decide_eq_true_eq] at he
            obtain ⟨rfl, he⟩ := he
            rw [e3] at h3
            cases h3
            rw [ih h4 ((hd.fields e1).2 _ (List.mem_of_getElem? e3)) he]
          · cases he

/-- Classes without fields count as one value: in a `Tuple`, an `AnonymousProduct` or a `Product` that of the call
`field(0)`, in a `Sum` or a `TaggedUnion` that of `field()`. -/
theorem C57_plain {T : Ty} {k : Con} {fs : List Ty} (hT : Built W T) (hv : T = .node k fs)
    (hb : ∀ t ∈ fs, t.isBound = false) {g : Ty → Val} (hg : ∀ t ∈ fs, (g t).cls = t) :
    (k.shape ≠ .sum → k.shape ≠ .tagged → (∀ t ∈ fs, C.zero t = .ok (g t)) →
      T.enumerate W C = .ok [.tup T false (fs.map g)]) ∧
    (k.shape = .sum → (∀ t ∈ fs, C.none t = .ok (g t)) →
      T.enumerate W C = .ok (fs.map fun t => .sum T (g t))) ∧
    (k.shape = .tagged → (∀ t ∈ fs, C.none t = .ok (g t)) →
      T.enumerate W C = .ok (fs.zipIdx.map fun p => .tag T p.2 (g p.1))) := by
  subst hv
  have hf : ∀ zero, (∀ t ∈ fs, (if zero then C.zero t else C.none t) = .ok (g t)) →
      Ty.enumFields W C zero fs = .ok (fs.map fun t => [g t]) := by
    intro zero h
    clear hT hg
    induction fs with
    | nil => rw [Ty.enumFields]; rfl
    | cons t ts ih =>
        rw [Ty.enumFields, hb t (by simp), ih (fun t ht => hb t (by simp [ht])) fun t ht => h t (by simp [ht])]
        simp only [Bool.false_eq_true, if_false, h t (by simp)]
        rfl
  have hi : ∀ t ∈ fs, Val.isinst W (g t) t = true := by
    intro t ht
    simp only [Val.isinst, hg t ht, W.sub_refl]
  refine ⟨?_, ?_, ?_⟩
  · intro h1 h2 h
    rw [Ty.enumerate, Ty.enumAs, hf k.zero (by simpa [Con.zero, h1, h2] using h), pyBindOk]
    have hp : product (fs.map fun t => [g t]) = [fs.map g] := by
      clear hf hi hT hb hg h
      induction fs with
      | nil => rfl
      | cons t ts ih => simp [product, ih]
    have hc : ∀ l : List Ty, (∀ t ∈ l, Val.isinst W (g t) t = true) → checkFields (Val.isinst W) (l.map g) l = true := by
      intro l
      induction l with
      | nil => intro _; rfl
      | cons t ts ih =>
          intro h
          rw [List.map_cons, checkFields, h t (by simp), ih fun t ht => h t (by simp [ht])]
          rfl
    have hinit : initTuple (Val.isinst W) fs (fs.map g) = .ok (fs.map g) := by
      simp [initTuple, hc fs hi]
    have hcall : callTuple (Val.isinst W) k fs (fs.map g) [] = .ok (fs.map g) := by
      unfold callTuple
      split
      · rw [if_pos rfl, hinit]
      · rename_i hs
        have hcan := hT.canon
        have hl : k.names.length = fs.length := by
          obtain ⟨shape, base, name, ns, names⟩ := k
          cases shape <;> simp_all [Canon]
        have hbind : bindArgs k.names (fs.map g) [] = .ok (fs.map g) := by
          unfold bindArgs
          rw [if_neg (by simp [hl]), List.drop_of_length_le (by simp [hl])]
          simp
        rw [hbind, pyBindOk, hinit]
    have hcon : constructV W (.node k fs) (fs.map g) [] = .ok (.tup (.node k fs) false (fs.map g)) := by
      unfold constructV
      obtain ⟨shape, base, name, ns, names⟩ := k
      cases shape <;> simp_all [Ty.view]
    unfold enumerateWith
    obtain ⟨shape, base, name, ns, names⟩ := k
    cases shape <;> simp_all [List.mapM_cons]
  · intro h1 h
    rw [Ty.enumerate, Ty.enumAs, hf k.zero (by simpa [Con.zero, h1] using h), pyBindOk]
    unfold enumerateWith
    simp only [h1]
    have : ∀ l : List Ty, (∀ t ∈ l, t ∈ fs) →
        ((l.map fun t => [g t]).flatten).mapM (fun v => constructV W (.node k fs) [v] []) =
          .ok (l.map fun t => Val.sum (.node k fs) (g t)) := by
      intro l
      induction l with
      | nil => intro _; rfl
      | cons t ts ih =>
          intro hm
          have h3 : constructV W (.node k fs) [g t] [] = .ok (.sum (.node k fs) (g t)) := by
            simp [constructV, Ty.view, h1, callSum, hg t (hm t (by simp)), hm t (by simp)]
          rw [List.map_cons, List.flatten_cons, List.singleton_append, List.mapM_cons, h3,
            ih fun t ht => hm t (by simp [ht])]
          rfl
    exact this fs fun _ h => h
  · intro h1 h
    rw [Ty.enumerate, Ty.enumAs, hf k.zero (by simpa [Con.zero, h1] using h), pyBindOk]
    unfold enumerateWith
    simp only [h1]
    have hcan := hT.canon
    obtain ⟨hl, hn⟩ : k.names.length = fs.length ∧ k.names.Nodup := by
      obtain ⟨shape, base, name, ns, names⟩ := k
      cases shape <;> simp_all [Canon]
    have : ∀ n j : Nat, fs.length - j = n →
        (((k.names.drop j).zip ((fs.drop j).map fun t => [g t])).flatMap fun p => p.2.map fun v => (p.1, v)).mapM
          (fun p => constructV W (.node k fs) [] [p]) =
          .ok (((fs.drop j).zipIdx j).map fun p => Val.tag (.node k fs) p.2 (g p.1)) := by
      intro n
      induction n with
      | zero => intro j hj; rw [List.drop_of_length_le (l := fs) (by omega)]; simp; rfl
      | succ n ih =>
          intro j hj
          have hj1 : j < fs.length := by omega
          have hj2 : j < k.names.length := by omega
          have h3 : constructV W (.node k fs) [] [(k.names[j], g fs[j])] = .ok (.tag (.node k fs) j (g fs[j])) := by
            simp [constructV, Ty.view, h1, callTagged, hn.idxOf_getElem, List.getElem?_eq_getElem hj1,
              hi fs[j] (List.getElem_mem _)]
          rw [List.drop_eq_getElem_cons hj1, List.drop_eq_getElem_cons hj2, List.map_cons, List.zip_cons_cons,
            List.flatMap_cons, List.map_cons, List.map_nil, List.singleton_append, List.mapM_cons, h3, ih (j + 1) (by omega)]
          rfl
    exact this _ 0 rfl

example : (mkTuple (.user 0) [.leaf (.cls 0), .leaf (.cls 1)]).enumerate World.std
    ⟨fun t => .ok (.leaf t 0), fun t => .ok (.leaf t 1)⟩ = .ok [.tup (mkTuple (.user 0) [.leaf (.cls 0), .leaf (.cls 1)])
      false [.leaf (.leaf (.cls 0)) 0, .leaf (.leaf (.cls 1)) 0]] :=
  (C57_plain (g := fun t => .leaf t 0) (.tuple _ _ (by simp [Built.leaf])) rfl (by simp [Ty.isBound])
    (by simp [Val.cls])).1 (by simp) (by simp) (by simp)

/-- A field of a modified enum: `M(E).enumerate()` yields members of `E`, which `Tuple[M(E)]` refuses. -/
theorem C57_modified_negation {m : ModId} {e : EnumT} (he : e.members ≠ [])
    (hs : W.sub (.enum e) (.mod m (.enum e)) = false) (b : Base) :
    (mkTuple b [.mod m (.enum e)]).enumerate W C = .error .typeError := by
  obtain ⟨n, hn⟩ : ∃ n, e.members.length = n + 1 := by
    cases h : e.members with
    | nil => exact absurd h he
    | cons => exact ⟨_, rfl⟩
  simp [Ty.enumerate, mkTuple, Ty.enumAs, Ty.enumFields, Ty.isBound, hn, List.range_succ_eq_map, enumerateWith, product,
    constructV, Ty.view, callTuple, initTuple, checkFields, Val.isinst, Val.cls, hs, List.mapM_cons, bind, Except.bind,
    pure, Except.pure]

/-- `Tuple[E]` accepts the members of an enum `F` deriving from `E`; they are not enumerated. -/
theorem C57_derived_negation {e e' : EnumT} (hne : e ≠ e') (hs : W.sub (.enum e') (.enum e) = true)
    (hm : 0 < e'.members.length) (b : Base) : ∃ x l, constructV W (mkTuple b [.enum e]) [.enum e' 0] [] = .ok x ∧
      x.cls = mkTuple b [.enum e] ∧ x.WT W ∧ (mkTuple b [.enum e]).enumerate W C = .ok l ∧ x ∉ l := by
  have hT : Built W (mkTuple b [.enum e]) := .tuple _ _ (by simpa using Built.enum e)
  obtain ⟨l, h1, -, h2, -⟩ := C57_enumerate_partial (C := C) hT (.node _ _ (by simpa using OverEnums.enum e))
  refine ⟨.tup (mkTuple b [.enum e]) false [.enum e' 0], l, ?_, rfl, ?_, h1, ?_⟩
  · simp [constructV, mkTuple, Ty.view, callTuple, initTuple, checkFields, Val.isinst, Val.cls, hs, pure, Except.pure]
  · intro w hw
    cases hw with
    | self =>
        refine ⟨_, _, rfl, by simp, by simp, rfl, ?_⟩
        intro i v t a c
        cases i with
        | zero => simp at a c; subst a c; exact hs
        | succ i => simp at a
    | tup hm' hw =>
        simp only [List.mem_singleton] at hm'
        subst hm'
        cases hw
        exact hm
  · rw [h2]
    intro hx
    cases hx with
    | tup e1 _ _ _ e2 =>
        cases e1
        cases e2 0 _ _ rfl rfl
        exact hne rfl

/-- `Sum[E, Tuple[E, E]]` over an enum with three members has 3 + 9 values. -/
example {W : World} : ∃ T : Ty, Built W T ∧ OverEnums T ∧ T.card = 12 := by
  let e : EnumT := ⟨0, [(1, .int 0), (2, .int 1), (3, .auto 0)]⟩
  have hp : (W.canon [.enum e, mkTuple (.user 0) [.enum e, .enum e]]).Perm
      [.enum e, mkTuple (.user 0) [.enum e, .enum e]] := by
    rw [List.perm_ext_iff_of_nodup (W.nodup_canon _) (by simp [mkTuple])]
    exact W.mem_canon _
  have hfs : ∀ t ∈ W.canon [.enum e, mkTuple (.user 0) [.enum e, .enum e]],
      t = .enum e ∨ t = mkTuple (.user 0) [.enum e, .enum e] := by
    intro t ht
    simpa using (W.mem_canon _ _).1 ht
  refine ⟨mkSum W (.user 1) [.enum e, mkTuple (.user 0) [.enum e, .enum e]], .sum _ _ ?_, .node _ _ ?_, ?_⟩
  · intro t ht
    simp only [List.mem_cons, List.not_mem_nil, or_false] at ht
    rcases ht with rfl | rfl
    · exact .enum _
    · exact .tuple _ _ (by simp [Built.enum])
  · intro t ht
    rcases hfs t ht with rfl | rfl
    · exact .enum _
    · exact .node _ _ (by simp [OverEnums.enum])
  · rw [mkSum, Ty.card, if_pos (.inl rfl)]
    have hc : ∀ l : List Ty, Ty.card.cards l = l.map Ty.card := by
      intro l
      induction l with
      | nil => rfl
      | cons t ts ih => rw [Ty.card.cards, ih]; rfl
    rw [hc, (hp.map Ty.card).sum_nat]
    simp [mkTuple, Ty.card, Ty.card.cards, e]

/-- Distinct values, in any world without related classes. -/
example : Distinct World.std (mkTuple (.user 0) [.enum ⟨0, [(1, .int 0), (2, .int 1), (3, .auto 0)]⟩]) := by
  refine .node _ _ (by simp) ?_
  intro t ht
  simp only [List.mem_singleton] at ht
  subst ht
  exact .enum _ (by simp)

end HW
