import Verif.Model.Protocol
import Verif.Props.Ite
import Mathlib.Tactic.IntervalCases

/-!
# C145: which objects follow the bit-vector protocol
-/

namespace HW
open Protocol

variable (U : Universe)

theorem Protocol.self_mem (c : Nat) : c ∈ U.mro c := List.mem_of_head? (U.mro_self c)

theorem Protocol.own_of {c d : Nat} {a : Attr} (h : d ∈ U.mro c) (hd : U.dict d a = true) : U.own c a = true :=
  List.any_eq_true.2 ⟨d, h, hd⟩

theorem Protocol.dict_pmeta' : U.dict U.pmeta .bvT = true := by rw [U.dict_pmeta]; rfl

theorem Protocol.own_iff {c : Nat} {a : Attr} : U.own c a = true ↔ ∃ d ∈ U.mro c, U.dict d a = true := by
  simp [Universe.own]

/-- The checks of classes whose type derives from one of the two metaclasses only. -/
theorem Protocol.check_pmeta {C : Nat} (h : U.pmeta ∈ U.mro (U.ty C)) (hm : U.metaMeta ∉ U.mro (U.ty C)) :
    U.check C = .pmeta := by
  unfold Universe.check
  cases hf : (U.mro (U.ty C)).find? fun d => d == U.pmeta || d == U.metaMeta with
  | none =>
    have := List.find?_eq_none.1 hf _ h
    simp at this
  | some d =>
    have h1 := List.find?_some hf
    have h2 := List.mem_of_find?_eq_some hf
    simp only [Bool.or_eq_true, beq_iff_eq] at h1
    rcases h1 with rfl | rfl
    · simp
    · exact absurd h2 hm

theorem Protocol.check_metaMeta {C : Nat} (h : U.metaMeta ∈ U.mro (U.ty C)) (hm : U.pmeta ∉ U.mro (U.ty C)) :
    U.check C = .metaMeta := by
  unfold Universe.check
  cases hf : (U.mro (U.ty C)).find? fun d => d == U.pmeta || d == U.metaMeta with
  | none =>
    have := List.find?_eq_none.1 hf _ h
    simp at this
  | some d =>
    have h1 := List.find?_some hf
    have h2 := List.mem_of_find?_eq_some hf
    simp only [Bool.or_eq_true, beq_iff_eq] at h1
    rcases h1 with rfl | rfl
    · exact absurd h2 hm
    · have : U.metaMeta ≠ U.pmeta := fun h' => hm (h' ▸ h)
      simp [this]

theorem Protocol.no_pmeta {c : Nat} (h : U.own c .bvT = false) : U.pmeta ∉ U.mro c := fun h1 => by
  rw [own_of U h1 (dict_pmeta' U)] at h; cases h

theorem Protocol.pmeta_ne_type : U.pmeta ≠ U.type := by
  have h := U.distinct; simp at h; tauto

theorem Protocol.proto_ne_type : U.proto ≠ U.type := by
  have h := U.distinct; simp at h; tauto

theorem Protocol.not_mem : U.pmeta ∉ U.mro U.metaMeta ∧ U.pmeta ∉ U.mro U.type ∧ U.metaMeta ∉ U.mro U.pmeta := by
  have h := U.distinct
  rw [U.mro_metaMeta, U.mro_type, U.mro_pmeta]
  simp at h ⊢
  tauto

theorem Protocol.check_of_pmeta : U.check U.pmeta = .metaMeta :=
  check_metaMeta U (by rw [U.ty_pmeta]; exact self_mem U _) (by rw [U.ty_pmeta]; exact (not_mem U).1)

/-- `issubclass(s, M)` for a class `M` with the checks of `_BitVectorProtocolMetaMeta`, if the type of `s` has no
`_bitvector_t_`. -/
theorem Protocol.sub_metaMeta {s M : Nat} (hM : U.check M = .metaMeta) (hMt : M ≠ U.type) (hMb : U.own M .bvT = true)
    (hs : U.hasattr (U.ty s) .bvT = false) : U.issubclass s M = U.own s .bvT := by
  have h1 : U.own (U.ty s) .bvT = false := by
    unfold Universe.hasattr at hs
    rw [Bool.or_eq_false_iff] at hs
    exact hs.1
  have h2 : U.ty s ≠ M := fun h => by rw [h, hMb] at h1; cases h1
  have h3 : U.issubclass (U.ty s) M = false := by
    rw [Universe.issubclass, dif_neg hMt, hM]
    simp only [hs, Bool.false_and]
  rw [Universe.issubclass, dif_neg hMt, hM]
  simp only [h2, h3, decide_false, Bool.false_or, dite_eq_ite, ite_self, Bool.not_false, Bool.and_true]
  unfold Universe.hasattr
  rw [h1, Bool.or_false]

/-- **C145** a class is an instance of `BitVectorProtocolMeta` exactly if its metaclass, or a base of its metaclass,
defines `_bitvector_t_`.  Missing: metaclasses that are themselves made by a class with `_bitvector_t_`
(`C145_tower_refuted`). -/
theorem C145_meta_partial {c : Nat} (hc : U.hasattr (U.ty (U.ty c)) .bvT = false) :
    U.isinstance (U.ty c) U.pmeta = true ↔ ∃ d ∈ U.mro (U.ty c), U.dict d .bvT = true := by
  have hb : U.own U.pmeta .bvT = true := own_of U (self_mem U _) (dict_pmeta' U)
  rw [← own_iff, Universe.isinstance, sub_metaMeta U (check_of_pmeta U) (pmeta_ne_type U) hb hc, Bool.or_eq_true, decide_eq_true_iff]
  exact ⟨fun h => h.elim (fun h => h ▸ hb) id, .inr⟩

theorem Protocol.sub_pmeta {c D : Nat} (hD : U.pmeta ∈ U.mro (U.ty D)) (hm : U.metaMeta ∉ U.mro (U.ty D))
    (hDt : D ≠ U.type) (hM : U.own (U.ty (U.ty D)) .bvT = false) (hc : U.hasattr (U.ty (U.ty c)) .bvT = false) :
    U.issubclass c D = (U.own (U.ty c) .bvT && U.hasattr c .fromBV && U.hasattr c .toBV) := by
  have hb : U.own (U.ty D) .bvT = true := own_of U hD (dict_pmeta' U)
  have hMt : U.ty D ≠ U.type := fun h => (not_mem U).2.1 (h ▸ hD)
  have h1 : U.metaMeta ∈ U.mro (U.ty (U.ty D)) := by
    have := U.mro_ty _ _ hD
    rw [U.ty_pmeta] at this
    exact this
  have h2 := sub_metaMeta U (check_metaMeta U h1 (no_pmeta U hM)) hMt hb hc
  rw [Universe.issubclass, dif_neg hDt, check_pmeta U hD hm]
  simp only [h2]
  by_cases h3 : U.ty c = U.ty D
  · rw [h3, hb]; simp
  · simp [h3]

theorem Protocol.proto_facts : U.pmeta ∈ U.mro (U.ty U.proto) ∧ U.metaMeta ∉ U.mro (U.ty U.proto) ∧
    U.own (U.ty (U.ty U.proto)) .bvT = false := by
  rw [U.ty_proto, U.ty_pmeta]
  refine ⟨self_mem U _, (not_mem U).2.2, ?_⟩
  simp [Universe.own, U.mro_metaMeta, U.dict_builtin]

theorem Protocol.sub_proto {c : Nat} (hc : U.hasattr (U.ty (U.ty c)) .bvT = false) :
    U.issubclass c U.proto = (U.own (U.ty c) .bvT && U.hasattr c .fromBV && U.hasattr c .toBV) :=
  sub_pmeta U (proto_facts U).1 (proto_facts U).2.1 (proto_ne_type U) (proto_facts U).2.2 hc

theorem Protocol.hasattr_iff {c : Nat} {a : Attr} :
    U.hasattr c a = true ↔ ∃ d ∈ U.mro c ++ U.mro (U.ty c), U.dict d a = true := by
  rw [Universe.hasattr, Bool.or_eq_true, own_iff, own_iff]
  simp only [List.mem_append]
  constructor
  · rintro (⟨d, h, h'⟩ | ⟨d, h, h'⟩)
    · exact ⟨d, .inl h, h'⟩
    · exact ⟨d, .inr h, h'⟩
  · rintro ⟨d, h | h, h'⟩
    · exact .inl ⟨d, h, h'⟩
    · exact .inr ⟨d, h, h'⟩

/-- **C145** an object is an instance of `BitVectorProtocol` exactly if it is one by construction, or its metaclass
provides `_bitvector_t_` and its class (or, again, its metaclass) `_from_bitvector_` and `_to_bitvector_`; no
inheritance is asked for.  Missing: as in `C145_meta_partial`. -/
theorem C145_object_partial {t : Nat} (ht : U.hasattr (U.ty (U.ty t)) .bvT = false) :
    U.isinstance t U.proto = true ↔ (∃ d ∈ U.mro (U.ty t), U.dict d .bvT = true) ∧
      ∀ a ∈ [Attr.fromBV, .toBV], ∃ d ∈ U.mro t ++ U.mro (U.ty t), U.dict d a = true := by
  rw [Universe.isinstance, sub_proto U ht, Bool.or_eq_true, decide_eq_true_iff, Bool.and_eq_true, Bool.and_eq_true, own_iff]
  have hall : (∀ a ∈ [Attr.fromBV, .toBV], ∃ d ∈ U.mro t ++ U.mro (U.ty t), U.dict d a = true) ↔
      U.hasattr t .fromBV = true ∧ U.hasattr t .toBV = true := by
    simp only [List.forall_mem_cons, List.not_mem_nil, false_implies, implies_true, and_true, hasattr_iff]
  rw [hall, and_assoc]
  refine ⟨fun h => h.elim (fun h => ?_) id, .inr⟩
  subst h
  refine ⟨⟨U.pmeta, by rw [U.ty_proto]; exact self_mem U _, dict_pmeta' U⟩, ?_, ?_⟩ <;>
  · rw [hasattr_iff]
    exact ⟨U.proto, List.mem_append_left _ (self_mem U _), by rw [U.dict_proto]; rfl⟩

/-- **C145** classes that derive from `BitVectorProtocol` follow the protocol, also without overriding anything. -/
theorem C145_derived {t : Nat} (hp : U.proto ∈ U.mro t) (ht : U.hasattr (U.ty (U.ty t)) .bvT = false) :
    U.isinstance t U.proto = true := by
  rw [C145_object_partial U ht]
  have h1 := U.mro_ty _ _ hp
  rw [U.ty_proto] at h1
  refine ⟨⟨U.pmeta, h1, dict_pmeta' U⟩, fun a ha => ⟨U.proto, List.mem_append_left _ hp, ?_⟩⟩
  rw [U.dict_proto]
  simp only [List.mem_cons, List.not_mem_nil, or_false] at ha
  rcases ha with rfl | rfl <;> rfl

/-- **C145 refuted** for classes with a `_bitvector_t_` of their own: "any type that has `_bitvector_t_`"
(bit_vector_util.py:25-26) is not so; a class made by `type` never follows the protocol, whatever it defines. -/
theorem C145_comment_refuted {c : Nat} (hc : U.ty c = U.type) :
    U.isinstance (U.ty c) U.pmeta = false ∧ U.issubclass c U.proto = false := by
  have ht : U.own U.type .bvT = false := by simp [Universe.own, U.mro_type, U.dict_builtin]
  have hh : U.hasattr (U.ty (U.ty c)) .bvT = false := by
    rw [hc, U.ty_type, Universe.hasattr, U.ty_type, ht]; rfl
  constructor
  · rw [← Bool.not_eq_true, C145_meta_partial U hh, ← own_iff, hc, ht]; exact Bool.false_ne_true
  · rw [sub_proto U hh, hc, ht]; rfl

/-- **C145 refuted** for `isinstance` against a class derived from `BitVectorProtocol`: it inherits the structural check,
so that it accepts the objects of every class that follows the protocol, related or not. -/
theorem C145_structural_refuted {c D : Nat} (hD : U.proto ∈ U.mro D) (hm : U.metaMeta ∉ U.mro (U.ty D))
    (hM : U.hasattr (U.ty (U.ty D)) .bvT = false) (hc : U.hasattr (U.ty (U.ty c)) .bvT = false) :
    U.issubclass c D = U.issubclass c U.proto ∧ (U.proto ∈ U.mro c → U.isinstance c D = true) := by
  have h1 := U.mro_ty _ _ hD
  rw [U.ty_proto] at h1
  have hDt : D ≠ U.type := by
    rintro rfl
    have h2 := U.distinct
    rw [U.mro_type] at hD
    simp at h2 hD
    tauto
  have h2 : U.own (U.ty (U.ty D)) .bvT = false := by
    unfold Universe.hasattr at hM
    exact (Bool.or_eq_false_iff.1 hM).1
  have h3 : U.issubclass c D = U.issubclass c U.proto := by
    rw [sub_pmeta U h1 hm hDt h2 hc, sub_proto U hc]
  refine ⟨h3, fun hp => ?_⟩
  have h4 := C145_derived U hp hc
  unfold Universe.isinstance at h4 ⊢
  rw [h3]
  rw [Bool.or_eq_true, decide_eq_true_iff] at h4
  rcases h4 with rfl | h4
  · rw [sub_proto U hc]
    have := (C145_object_partial U hc).1 (C145_derived U hp hc)
    rw [← own_iff] at this
    rw [this.1, (hasattr_iff U).2 (this.2 .fromBV (by simp)), (hasattr_iff U).2 (this.2 .toBV (by simp))]
    simp
  · rw [h4]; simp

/-- **C145 refuted** for metaclasses whose own metaclass provides `_bitvector_t_` as well: their classes are not
recognised. -/
theorem C145_tower_refuted {c : Nat} (hn : U.ty c ≠ U.pmeta) (h2 : U.own (U.ty (U.ty c)) .bvT = true)
    (h3 : U.hasattr (U.ty (U.ty (U.ty c))) .bvT = false) : U.isinstance (U.ty c) U.pmeta = false := by
  have hb : U.own U.pmeta .bvT = true := own_of U (self_mem U _) (dict_pmeta' U)
  have h4 := sub_metaMeta U (check_of_pmeta U) (pmeta_ne_type U) hb h3
  have ht : U.own U.type .bvT = false := by simp [Universe.own, U.mro_type, U.dict_builtin]
  have hct : U.ty c ≠ U.type := fun h => by
    rw [h, U.ty_type, ht] at h2; cases h2
  unfold Universe.isinstance
  rw [Universe.issubclass, dif_neg (pmeta_ne_type U), check_of_pmeta U]
  simp only [h4, h2, hct, hn, decide_false, dif_neg, not_false_eq_true, Bool.or_true, Bool.not_true, Bool.and_false, Bool.or_false]

/-- **C145** what this decides: `ite` of two objects of one class that is no vector or bit takes the selected value if the
class follows the protocol, and raises `TypeError` if not. -/
theorem C145_ite {c : Nat} (hc : U.hasattr (U.ty (U.ty c)) .bvT = false) (k : Kind) (n : Nat) (sel : Bool) {x y : BVal}
    (hx : x.WF ∧ x.kind = k ∧ x.size = n) (hy : y.WF ∧ y.kind = k ∧ y.size = n) (i : Nat) :
    ite sel (U.branch c k n x) (U.branch c k n y) i =
      if U.isinstance c U.proto then .ok (.proto ⟨c, k, n⟩ (if sel then x else y), i) else .error .typeError := by
  have he : U.isinstance c U.proto = U.issubclass c U.proto := by
    by_cases h : c = U.proto
    · subst h
      have h1 := C145_derived U (self_mem U U.proto) hc
      have h2 := (C145_object_partial U hc).1 h1
      rw [h1, sub_proto U hc, (own_iff U).2 h2.1, (hasattr_iff U).2 (h2.2 .fromBV (by simp)), (hasattr_iff U).2 (h2.2 .toBV (by simp))]
      rfl
    · simp [Universe.isinstance, h]
  rw [he]
  unfold Universe.branch
  obtain ⟨hx, rfl, rfl⟩ := hx
  obtain ⟨hy, hk, hn⟩ := hy
  cases hs : U.issubclass c U.proto with
  | false => rfl
  | true =>
    have e1 := hx.mod_eq
    have e2 := hy.mod_eq
    cases sel
    · simp [ite, bind, StateT.bind, Except.bind, returnType, pushIte, coerceBranch, pyLift, Except.map, Branch.toObj, mkBV_bv,
        pure, StateT.pure, Except.pure, ← hn, e2]
      rw [← hk]
    · simp [ite, bind, StateT.bind, Except.bind, returnType, pushIte, coerceBranch, pyLift, Except.map, Branch.toObj, mkBV_bv,
        pure, StateT.pure, Except.pure, e1]

/-! ### Examples -/

/-- 5, 6: a metaclass and a class that only define the methods (tests/test_bv_protocol.py:10-28); 7 – 10: two unrelated
classes derived from `BitVectorProtocol`, with metaclasses derived from `BitVectorProtocolMeta`; 11: a class made by
`type` that defines all three methods; 12 – 14: a class whose metaclass has a metaclass with `_bitvector_t_`. -/
private def zoo : Universe where
  ty c := [1, 1, 1, 2, 3, 1, 5, 2, 7, 2, 9, 1, 1, 12, 13].getD c 1
  mro c := [[0], [1, 0], [2, 1, 0], [3, 1, 0], [4, 0], [5, 1, 0], [6, 0], [7, 3, 1, 0], [8, 4, 0], [9, 3, 1, 0],
    [10, 4, 0], [11, 0], [12, 1, 0], [13, 1, 0], [14, 0]].getD c [c, 0]
  dict c a := match a with
    | .bvT => [3, 5, 7, 11, 12, 13].contains c
    | .fromBV => [4, 6, 11].contains c
    | .toBV => [4, 6, 8, 11].contains c
  object := 0
  type := 1
  metaMeta := 2
  pmeta := 3
  proto := 4
  depth c := [1, 0, 1, 2, 3, 1, 2, 2, 3, 2, 3, 1, 1, 2, 3].getD c 1
  depth_ty c hc := by
    rcases Nat.lt_or_ge c 15 with h | h
    · interval_cases c <;> first | decide | exact absurd rfl hc
    · simp [List.getD, h]
  ty_type := rfl
  ty_metaMeta := rfl
  ty_pmeta := rfl
  ty_proto := rfl
  mro_self c := by
    rcases Nat.lt_or_ge c 15 with h | h
    · interval_cases c <;> rfl
    · simp [List.getD, h]
  mro_trans c := by
    rcases Nat.lt_or_ge c 15 with h | h
    · interval_cases c <;> decide
    · simp only [List.getD, List.length_cons, List.length_nil, Nat.reduceAdd, h, getElem?_neg, Nat.not_lt, Option.getD_none,
        List.mem_cons, List.not_mem_nil, or_false]
      rintro d (rfl | rfl) e he
      · simpa [List.getD, h] using he
      · simp at he; exact .inr he
  mro_ty c := by
    rcases Nat.lt_or_ge c 15 with h | h
    · interval_cases c <;> decide
    · intro d hd
      simp only [List.getD, List.length_cons, List.length_nil, Nat.reduceAdd, h, getElem?_neg, Nat.not_lt, Option.getD_none,
        List.mem_cons, List.not_mem_nil, or_false] at hd
      rcases hd with rfl | rfl
      · simp [List.getD, h]
      · simp [List.getD, h]
  type_mro c := by
    rcases Nat.lt_or_ge c 15 with h | h
    · interval_cases c <;> decide
    · simp [List.getD, h]
  distinct := by decide
  mro_type := rfl
  mro_metaMeta := rfl
  mro_pmeta := rfl
  mro_proto := rfl
  dict_builtin a := by cases a <;> decide
  dict_pmeta a := by cases a <;> rfl
  dict_proto a := by cases a <;> rfl

/-- `Counter` follows the protocol. -/
example : zoo.isinstance 5 zoo.pmeta = true ∧ zoo.isinstance 6 zoo.proto = true :=
  ⟨(C145_meta_partial zoo (c := 6) rfl).2 ⟨5, by decide, rfl⟩,
    (C145_object_partial zoo (t := 6) rfl).2 ⟨⟨5, by decide, rfl⟩, by decide⟩⟩
/-- `isinstance(B(), A)` for two unrelated classes. -/
example : 8 ∉ zoo.mro 10 ∧ zoo.isinstance 10 8 = true :=
  ⟨by decide, (C145_structural_refuted zoo (c := 10) (D := 8) (by decide) (by decide) rfl rfl).2 (by decide)⟩
/-- and `isinstance(Counter(), A)`. -/
example : zoo.issubclass 6 8 = true :=
  (C145_structural_refuted zoo (c := 6) (D := 8) (by decide) (by decide) rfl rfl).1.trans
    (by rw [sub_proto zoo rfl]; rfl)
example : (∀ a, zoo.hasattr 11 a = true) ∧ zoo.issubclass 11 zoo.proto = false :=
  ⟨fun a => by cases a <;> rfl, (C145_comment_refuted zoo rfl).2⟩
example : zoo.own 13 .bvT = true ∧ zoo.isinstance (zoo.ty 14) zoo.pmeta = false :=
  ⟨rfl, C145_tower_refuted zoo (c := 14) (by decide) rfl rfl⟩
example : ite true (zoo.branch 11 (.root .bv) 8 ⟨.root .bv, 8, 3⟩) (zoo.branch 11 (.root .bv) 8 ⟨.root .bv, 8, 4⟩) 0 =
    .error .typeError := by
  refine (C145_ite zoo (c := 11) rfl (.root .bv) 8 true (x := ⟨.root .bv, 8, 3⟩) (y := ⟨.root .bv, 8, 4⟩)
    ⟨by decide, rfl, rfl⟩ ⟨by decide, rfl, rfl⟩ 0).trans ?_
  rw [Universe.isinstance, (C145_comment_refuted zoo rfl).2]
  rfl

end HW
