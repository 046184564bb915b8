import Verif.Model.Smt.Derived
import Verif.Props.Derived
import Verif.Props.SmtPoly

/-!
# Symbolic vectors of user-defined classes (C138, pysmt)
-/

namespace HW.Smt.Der
open HW HW.Der Spec

variable {H : Hier} {S : Simplifier}

/-- The predefined class whose behaviour the class inherits. -/
def skindOf (c : H.C) : SKind := .root (if H.signed c then .sint else .bv)

/-- The symbolic vector of the predefined class with the same width and term. -/
def SInst.plain (x : SInst H) : SBV := ⟨skindOf x.cls, H.size x.cls, x.term⟩

def SHObj.plain : SHObj H → SObj
  | .int v => .int v
  | .bool b => .bool b
  | .bit t => .bit t
  | .bv x => .bv x.plain
  | .seq l => .seq l
  | .other i b => .other i b

/-- A result `r` of class `c` that has the term of the plain result `s`. -/
def SSame (c : H.C) (r : PyM (SInst H)) (s : PyM SBV) : Prop :=
  (∃ z : SInst H, r = .ok z ∧ z.cls = c ∧ s = .ok z.plain) ∨ ∃ e, r = .error e ∧ s = .error e

/-- A result of class `u[m]`, `m` its width. -/
def SSameU (u : H.U) (r : PyM (SInst H)) (s : PyM SBV) : Prop :=
  (∃ z : SInst H, r = .ok z ∧ z.cls = H.get u (H.size z.cls) ∧ s = .ok z.plain) ∨
    ∃ e, r = .error e ∧ s = .error e

/-- Objects the class can be built from without an `unsized_t` that is not there: sequences need one on
the class, vectors of another width on their own class. -/
def Conv (c : H.C) : SHObj H → Prop
  | .seq _ => (H.unsized c).isSome = true
  | .bv y => H.size y.cls = H.size c ∨ (H.unsized y.cls).isSome = true
  | _ => True

theorem ssame_err (c : H.C) (e : PyErr) : SSame c (.error e) (.error e) := .inr ⟨e, rfl, rfl⟩

theorem ssame_F (c : H.C) (t : Term) : SSame c (bvFH S c t) (bvF S (skindOf c) (H.size c) t) := by
  unfold bvFH bvF
  split
  · exact .inl ⟨_, rfl, rfl, rfl⟩
  · exact ssame_err _ _

theorem ssame_bind {α : Type} {c : H.C} (m : PyM α) {f : α → PyM (SInst H)} {g : α → PyM SBV}
    (h : ∀ a, SSame c (f a) (g a)) : SSame c (m >>= f) (m >>= g) := by
  cases m with
  | error e => exact ssame_err c e
  | ok a => exact h a

theorem ssameU_bind {α : Type} {u : H.U} (m : PyM α) {f : α → PyM (SInst H)} {g : α → PyM SBV}
    (h : ∀ a, SSameU u (f a) (g a)) : SSameU u (m >>= f) (m >>= g) := by
  cases m with
  | error e => exact .inr ⟨e, rfl, rfl⟩
  | ok a => exact h a

theorem skindOf_get (hH : H.Ok) {c : H.C} {u : H.U} (hu : H.unsized c = some u) (n : Nat) :
    skindOf (H.get u n) = skindOf c := by
  have := hH.get_unsized c u hu
  rw [skindOf, skindOf, hH.signed_get u n (H.size c), ← this]

theorem ssameU_F (hH : H.Ok) {c : H.C} {u : H.U} (hu : H.unsized c = some u) (n : Nat) (t : Term) :
    SSameU u (bvFH S (H.get u n) t) (bvF S (skindOf c) n t) := by
  have h := ssame_F (S := S) (H.get u n) t
  rw [skindOf_get hH hu, hH.size_get] at h
  rcases h with ⟨z, h1, h2, h3⟩ | h
  · exact .inl ⟨z, h1, by rw [h2, hH.size_get], h3⟩
  · exact .inr h

theorem ssameU_zext (hH : H.Ok) {x : SInst H} {u : H.U} (hu : H.unsized x.cls = some u) (k : Int) :
    SSameU u (x.zext S k) (x.plain.zext S k) := by
  unfold SInst.zext SBV.zext
  split
  · exact .inr ⟨_, rfl, rfl⟩
  · rw [unsizedT_some hu, ok_bind']
    exact ssameU_bind _ fun t => ssameU_F hH hu _ t

theorem ssameU_sext (hH : H.Ok) {x : SInst H} {u : H.U} (hu : H.unsized x.cls = some u) (k : Int) :
    SSameU u (x.sext S k) (x.plain.sext S k) := by
  unfold SInst.sext SBV.sext
  split
  · exact .inr ⟨_, rfl, rfl⟩
  · rw [unsizedT_some hu, ok_bind']
    exact ssameU_bind _ fun t => ssameU_F hH hu _ t

theorem ssameU_slice (hH : H.Ok) {x : SInst H} {u : H.U} (hu : H.unsized x.cls = some u) (s : PySlice) :
    SSameU u (x.getSlice S s) (x.plain.getSlice S s) := by
  unfold SInst.getSlice SBV.getSlice
  dsimp only
  split
  · exact .inr ⟨_, rfl, rfl⟩
  · refine ssameU_bind (bvExtract x.term _ _) fun v => ?_
    rw [unsizedT_some hu, ok_bind']
    cases v.ty? with
    | none => exact .inr ⟨_, rfl, rfl⟩
    | some ty => cases ty with
      | bv w => exact ssameU_F hH hu w v
      | _ => exact .inr ⟨_, rfl, rfl⟩

theorem splain_isSub (hH : H.Ok) {x y : SInst H} {u : H.U} (hu : H.unsized x.cls = some u)
    (hy : H.isSubU y.cls u = true) : y.plain.kind.isSub x.plain.kind = true := by
  have h := hH.subU_signed y.cls u (H.size x.cls) hy
  rw [← hH.get_unsized _ _ hu] at h
  cases hx : H.signed x.cls <;> cases hy' : H.signed y.cls <;>
    simp [SInst.plain, skindOf, SKind.isSub, SKind.base, Root.isSub, hx, hy'] at h ⊢

theorem ssameU_concat (hH : H.Ok) {x y : SInst H} {u : H.U} (hu : H.unsized x.cls = some u)
    (hy : H.isSubU y.cls u = true) : SSameU u (x.concat S y) (x.plain.concat S y.plain) := by
  have hp := splain_isSub hH hu hy
  simp only [SInst.concat, SBV.concat, unsizedT_some hu, ok_bind', hy, hp, not_true_eq_false, if_false]
  exact ssameU_bind _ fun t => ssameU_F hH hu _ t

theorem ssameU_elem (hH : H.Ok) {c : H.C} {u : H.U} (hu : H.unsized c = some u) (e : SElem) :
    SSameU u (mkElemH S (H.get u 1) e) (mkElem S (skindOf c) e) := by
  have h1 : (mkBV 1 1 : PyM Term) = .ok (.bvC 1 1) := rfl
  have h0 : (mkBV 0 1 : PyM Term) = .ok (.bvC 0 1) := rfl
  cases e with
  | bit t =>
    simp only [mkElemH, mkElem, hH.size_get, h1, h0, ok_bind']
    exact ssameU_bind _ fun t => ssameU_F hH hu 1 t
  | bool b =>
    simp only [mkElemH, mkElem, hH.size_get]
    exact ssameU_bind _ fun t => ssameU_F hH hu 1 t
  | int v =>
    simp only [mkElemH, mkElem, hH.size_get]
    exact ssameU_bind _ fun t => ssameU_F hH hu 1 t

theorem ssub_of_cls (hH : H.Ok) {z : SInst H} {u : H.U} (hz : z.cls = H.get u (H.size z.cls)) :
    H.isSubU z.cls u = true := by rw [hz]; exact hH.sub_get u _

theorem sunsized_of_cls (hH : H.Ok) {z : SInst H} {u : H.U} (hz : z.cls = H.get u (H.size z.cls)) :
    H.unsized z.cls = some u := by rw [hz, hH.unsized_get]

theorem ssameU_elems (hH : H.Ok) {c : H.C} {u : H.U} (hu : H.unsized c = some u) :
    ∀ (l : List SElem) (acc : SInst H), acc.cls = H.get u (H.size acc.cls) →
      SSameU u (concatElemsH S (H.get u 1) acc l) (concatElems S (skindOf c) acc.plain l)
  | [], acc, ha => .inl ⟨acc, rfl, ha, rfl⟩
  | e :: l, acc, ha => by
    unfold concatElemsH concatElems
    rcases ssameU_elem (S := S) hH hu e with ⟨z, h1, h2, h3⟩ | ⟨er, h1, h2⟩
    swap
    · rw [h1, h2]; exact .inr ⟨er, rfl, rfl⟩
    rw [h1, h3, ok_bind', ok_bind']
    rcases ssameU_concat (S := S) hH (sunsized_of_cls hH ha) (ssub_of_cls hH h2) with ⟨w, g1, g2, g3⟩ | ⟨er, g1, g2⟩
    swap
    · rw [g1, g2]; exact .inr ⟨er, rfl, rfl⟩
    rw [g1, g3, ok_bind', ok_bind']
    exact ssameU_elems hH hu l w g2

/-- Terms of related results agree. -/
theorem ssame_of_sameU_term {u : H.U} {c : H.C} {r : PyM (SInst H)} {s : PyM SBV} (h : SSameU u r s) :
    SSame c (do let y ← r; return ⟨c, S.run y.term⟩)
      (do let y ← s; return ⟨skindOf c, H.size c, S.run y.term⟩) := by
  rcases h with ⟨z, rfl, _, rfl⟩ | ⟨e, rfl, rfl⟩
  · exact .inl ⟨⟨c, S.run z.term⟩, rfl, rfl, rfl⟩
  · exact ssame_err _ _

theorem ssame_mk (hH : H.Ok) (c : H.C) (o : SHObj H) (h : Conv c o) :
    SSame c (mkSH S c o) (mkSBV S (skindOf c) (H.size c) o.plain) := by
  cases o with
  | int v => exact ssame_bind _ fun t => ssame_F c t
  | bool b => exact ssame_bind _ fun t => ssame_F c t
  | bit t => exact ssame_bind _ fun a => ssame_bind _ fun b => ssame_bind _ fun t => ssame_F c t
  | other i b => cases i with
    | none => exact ssame_err _ _
    | some v => exact ssame_bind _ fun t => ssame_F c t
  | bv x =>
    simp only [mkSH, mkSBV, SHObj.plain]
    have hsz : (x.plain.size : Int) = x.size := rfl
    rw [hsz]
    split
    · rename_i hlt
      rcases h with h | h
      · exact absurd h (by have := show x.size = H.size x.cls from rfl; omega)
      · obtain ⟨u, hu⟩ := Option.isSome_iff_exists.mp h
        exact ssame_of_sameU_term (ssameU_slice hH hu _)
    · split
      · rcases h with h | h
        · exact absurd h (by have := show x.size = H.size x.cls from rfl; omega)
        · obtain ⟨u, hu⟩ := Option.isSome_iff_exists.mp h
          exact ssame_of_sameU_term (ssameU_zext hH hu _)
      · exact .inl ⟨_, rfl, rfl, rfl⟩
  | seq l =>
    obtain ⟨u, hu⟩ := Option.isSome_iff_exists.mp h
    simp only [mkSH, mkSBV, SHObj.plain]
    split
    · exact ssame_err _ _
    rw [unsizedT_some hu, ok_bind']
    cases l with
    | nil => exact ssame_err _ _
    | cons e l =>
      rcases ssameU_elem (S := S) hH hu e with ⟨z, h1, h2, h3⟩ | ⟨er, h1, h2⟩
      swap
      · simp only [h1, h2]; exact ssame_err _ _
      simp only [h1, h3, ok_bind']
      rcases ssameU_elems (S := S) hH hu l z h2 with ⟨w, g1, g2, g3⟩ | ⟨er, g1, g2⟩
      · simp only [g1, g3, ok_bind']; exact ssame_F c w.term
      · simp only [g1, g2]; exact ssame_err _ _

/-- **C138** (pysmt; partial: not for sequences given to a class derived from a sized one, nor for vectors
of such a class given to a class of another width) construction gives the term of the predefined class. -/
theorem C138_smt_construct_partial (hH : H.Ok) (c : H.C) (o : SHObj H) (h : Conv c o) :
    SSame c (mkSH S c o) (mkSBV S (skindOf c) (H.size c) o.plain) := ssame_mk hH c o h

theorem slost_slice {x : SInst H} (hu : H.unsized x.cls = none) (s : PySlice) :
    Lost (x.getSlice S s) (x.plain.getSlice S s) := by
  unfold SInst.getSlice SBV.getSlice
  dsimp only
  split
  · exact .inr ⟨_, rfl, rfl⟩
  · refine lost_bind (bvExtract x.term _ _) fun v => ?_
    rw [unsizedT_none hu]; exact .inl rfl

theorem slost_zext {x : SInst H} (hu : H.unsized x.cls = none) (k : Int) :
    Lost (x.zext S k) (x.plain.zext S k) := by
  unfold SInst.zext SBV.zext
  split
  · exact .inr ⟨_, rfl, rfl⟩
  · rw [unsizedT_none hu]; exact .inl rfl

theorem slost_sext {x : SInst H} (hu : H.unsized x.cls = none) (k : Int) :
    Lost (x.sext S k) (x.plain.sext S k) := by
  unfold SInst.sext SBV.sext
  split
  · exact .inr ⟨_, rfl, rfl⟩
  · rw [unsizedT_none hu]; exact .inl rfl

theorem lost_map {α α' β β' : Type} {r : PyM α} {s : PyM α'} (h : Lost r s) (f : α → PyM β) (g : α' → PyM β') :
    Lost (r >>= f) (s >>= g) := by
  rcases h with rfl | ⟨e, rfl, rfl⟩
  · exact .inl rfl
  · exact .inr ⟨e, rfl, rfl⟩

/-- **C138** the remaining conversions raise `AttributeError`, unless the plain one raises first. -/
theorem C138_smt_construct_raises (c : H.C) (o : SHObj H) (h : ¬ Conv c o) :
    Lost (mkSH S c o) (mkSBV S (skindOf c) (H.size c) o.plain) := by
  cases o with
  | bv x =>
    simp only [Conv, not_or] at h
    have hu : H.unsized x.cls = none := by simpa using h.2
    have h1 := h.1
    simp only [mkSH, mkSBV, SHObj.plain]
    have hsz : (x.plain.size : Int) = x.size := rfl
    rw [hsz]
    split
    · exact lost_map (slost_slice hu _) _ _
    · split
      · exact lost_map (slost_zext hu _) _ _
      · exact absurd h1 (by have := show x.size = H.size x.cls from rfl; omega)
  | seq l =>
    have hu : H.unsized c = none := by simpa [Conv] using h
    simp only [mkSH, mkSBV, SHObj.plain]
    split
    · exact .inr ⟨_, rfl, rfl⟩
    · rw [unsizedT_none hu]; exact .inl rfl
  | _ => exact absurd trivial h

/-- Operands that need no conversion through an `unsized_t` which is not there. -/
def Opnd (c : H.C) : SHObj H → Prop
  | .seq _ => (H.unsized c).isSome = true
  | _ => True

theorem scoerce_cases (hH : H.Ok) (c : H.C) (o : SHObj H) (h : Opnd c o) :
    (∃ y : SInst H, scoerceH S c o = .ok y ∧ H.size y.cls = H.size c ∧ (o = .bv y ∨ y.cls = c) ∧
      scoerce S (skindOf c) (H.size c) o.plain = .ok y.plain) ∨
    ∃ e, scoerceH S c o = .error e ∧ scoerce S (skindOf c) (H.size c) o.plain = .error e := by
  have hm (o : SHObj H) (hc : Conv c o) (e1 : scoerceH S c o = mkSH S c o)
      (e2 : scoerce S (skindOf c) (H.size c) o.plain = mkSBV S (skindOf c) (H.size c) o.plain) :
      (∃ y : SInst H, scoerceH S c o = .ok y ∧ H.size y.cls = H.size c ∧ (o = .bv y ∨ y.cls = c) ∧
        scoerce S (skindOf c) (H.size c) o.plain = .ok y.plain) ∨
      ∃ e, scoerceH S c o = .error e ∧ scoerce S (skindOf c) (H.size c) o.plain = .error e := by
    rw [e1, e2]
    rcases ssame_mk (S := S) hH c o hc with ⟨z, h1, h2, h3⟩ | h
    · exact .inl ⟨z, h1, by rw [h2], .inr h2, h3⟩
    · exact .inr h
  cases o with
  | bv y =>
    by_cases hs : H.size y.cls = H.size c
    · exact .inl ⟨y, by simp [scoerceH, SInst.size, hs], hs, .inl rfl, by simp [scoerce, SHObj.plain, SInst.plain, hs]⟩
    · exact .inr ⟨.inconsistentSize, by simp [scoerceH, SInst.size, hs], by simp [scoerce, SHObj.plain, SInst.plain, hs]⟩
  | seq l => exact hm (.seq l) h rfl rfl
  | int v => exact hm (.int v) trivial rfl rfl
  | bool b => exact hm (.bool b) trivial rfl rfl
  | bit t => exact hm (.bit t) trivial rfl rfl
  | other i b => exact hm (.other i b) trivial rfl rfl

theorem ssame_cast (hH : H.Ok) {x : SInst H} {c : H.C} {o : SHObj H} (ho : Opnd x.cls o)
    {f : SInst H → PyM (SInst H)} {g : SBV → PyM SBV} (h : ∀ y : SInst H, SSame c (f y) (g y.plain)) :
    SSame c (x.cast S o f) (x.plain.cast S o.plain g) := by
  rcases scoerce_cases (S := S) hH x.cls o ho with ⟨y, e1, _, _, e2⟩ | ⟨e, e1, e2⟩
  · simp only [SInst.cast, SBV.cast, e1, show scoerce S x.plain.kind x.plain.size o.plain = _ from e2]
    exact h y
  · simp only [SInst.cast, SBV.cast, e1, show scoerce S x.plain.kind x.plain.size o.plain = _ from e2]
    exact ssame_err c e

theorem scast_plain (hH : H.Ok) {α : Type} {x : SInst H} {o : SHObj H} (ho : Opnd x.cls o)
    {f : SInst H → PyM α} {g : SBV → PyM α} (h : ∀ y : SInst H, f y = g y.plain) :
    x.cast S o f = x.plain.cast S o.plain g := by
  rcases scoerce_cases (S := S) hH x.cls o ho with ⟨y, e1, _, _, e2⟩ | ⟨e, e1, e2⟩
  · simp only [SInst.cast, SBV.cast, e1, show scoerce S x.plain.kind x.plain.size o.plain = _ from e2]
    exact h y
  · simp only [SInst.cast, SBV.cast, e1, show scoerce S x.plain.kind x.plain.size o.plain = _ from e2]
    rfl

theorem ssame_mk' (x : SInst H) (t : PyM Term) : SSame x.cls (x.mk' S t) (x.plain.mk' S t) :=
  ssame_bind _ fun t => ssame_F x.cls t

theorem ssame_bin (hH : H.Ok) (op : BOp) {x : SInst H} {o : SHObj H} (ho : Opnd x.cls o) :
    SSame x.cls (x.bin S op o) (x.plain.bin S op o.plain) := ssame_cast hH ho fun _ => ssame_mk' x _

theorem ssame_nbin (hH : H.Ok) (op : BOp) {x : SInst H} {o : SHObj H} (ho : Opnd x.cls o) :
    SSame x.cls (x.nbin S op o) (x.plain.nbin S op o.plain) := ssame_cast hH ho fun _ => ssame_mk' x _

/-! ## The predefined classes, methods by name -/

def plainU : UMeth → SBV → PyM SBV
  | .bvnot => SBV.bvnot S
  | .bvneg => SBV.bvneg S

def plainB : BMeth → SBV → SObj → PyM SBV
  | .bvand => SBV.bvand S | .bvor => SBV.bvor S | .bvxor => SBV.bvxor S
  | .bvnand => SBV.bvnand S | .bvnor => SBV.bvnor S | .bvxnor => SBV.bvxnor S
  | .bvshl => SBV.bvshl S | .bvlshr => SBV.bvlshr S | .bvashr => SBV.bvashr S
  | .bvrol => SBV.bvrol S | .bvror => SBV.bvror S | .bvcomp => SBV.bvcomp S
  | .bvadd => SBV.bvadd S | .bvsub => SBV.bvsub S | .bvmul => SBV.bvmul S
  | .bvudiv => SBV.bvudiv S | .bvurem => SBV.bvurem S
  | .bvsdiv => SBV.bvsdiv S | .bvsrem => SBV.bvsrem S

def plainC : CMeth → SBV → SObj → PyM Term
  | .bveq => SBV.bveq S | .bvne => SBV.bvne S | .bvult => SBV.bvult S | .bvule => SBV.bvule S
  | .bvugt => SBV.bvugt S | .bvuge => SBV.bvuge S | .bvslt => SBV.bvslt S | .bvsle => SBV.bvsle S
  | .bvsgt => SBV.bvsgt S | .bvsge => SBV.bvsge S

theorem intArg_plain (o : SHObj H) : SInst.intArg o = SBV.intArg o.plain := by
  cases o with
  | other i b => cases i <;> rfl
  | _ => rfl

/-- **C138** (pysmt; partial: no sequence operands on classes derived from a sized one, see
`C138_smt_operand_raises`) on instances of every class derived from a symbolic vector class, the arithmetic,
bitwise, shift and rotation methods, `repeat` and item assignment build the term they build on the
predefined class (or raise its exception), and the result belongs to the class of `self`. -/
theorem C138_smt_methods_partial (hH : H.Ok) (x : SInst H) {o : SHObj H} (ho : Opnd x.cls o) :
    (∀ m : UMeth, SSame x.cls (runU S m x) (plainU (S := S) m x.plain)) ∧
    (∀ m : BMeth, m ≠ .bvcomp → SSame x.cls (runB S m x o) (plainB (S := S) m x.plain o.plain)) ∧
    (∀ k, SSame x.cls (x.repeat_ S k) (x.plain.repeat_ S k)) := by
  refine ⟨fun m => ?_, fun m hm => ?_, fun k => ssame_mk' x _⟩
  · cases m <;> exact ssame_mk' x _
  cases m with
  | bvcomp => exact absurd rfl hm
  | bvrol =>
    simp only [runB, plainB, SInst.bvrol, SBV.bvrol, intArg_plain]
    exact ssame_bind _ fun k => ssame_mk' x _
  | bvror =>
    simp only [runB, plainB, SInst.bvror, SBV.bvror, intArg_plain]
    exact ssame_bind _ fun k => ssame_mk' x _
  | bvnand => exact ssame_nbin hH _ ho
  | bvnor => exact ssame_nbin hH _ ho
  | bvxnor => exact ssame_nbin hH _ ho
  | _ => exact ssame_bin hH _ ho

theorem mkSBitH_plain (o : SHObj H) : mkSBitH S o = mkSBit S o.plain := by
  cases o with
  | other i b => cases b <;> rfl
  | _ => rfl

theorem isBitLike_plain (o : SHObj H) : SInst.isBitLike o = SBV.isBitLike o.plain := by cases o <;> rfl

/-- **C138** item assignment. -/
theorem C138_smt_setitem (hH : H.Ok) (x : SInst H) (i : Int) (o : SHObj H) :
    SSame x.cls (x.setitem S i o) (x.plain.setitem S i o.plain) := by
  unfold SInst.setitem SBV.setitem
  rw [isBitLike_plain, mkSBitH_plain]
  split
  · exact ssame_err _ _
  simp only [show x.plain.size = x.size from rfl]
  generalize (if i < 0 then (x.size : Int) + i else i) = j
  split
  · exact ssame_err _ _
  refine ssame_bind _ fun one => ?_
  rcases ssame_mk (S := S) hH x.cls (.int one) trivial with ⟨m, m1, m2, m3⟩ | ⟨e, m1, m2⟩
  swap
  · rw [m1, show mkSBV S x.plain.kind x.size (.int one) = _ from m2]; exact ssame_err _ _
  rw [m1, show mkSBV S x.plain.kind x.size (.int one) = _ from m3, ok_bind', ok_bind']
  refine ssame_bind _ fun b => ?_
  rcases ssame_bin (S := S) hH .bvor (x := x) (o := .bv m) trivial with ⟨t, t1, t2, t3⟩ | ⟨e, t1, t2⟩
  swap
  · rw [t1, show x.plain.bvor S (.bv m.plain) = _ from t2]; exact ssame_err _ _
  rw [t1, show x.plain.bvor S (.bv m.plain) = _ from t3, ok_bind', ok_bind']
  rcases ssame_mk' (S := S) m (node (.un .bvnot m.term)) with ⟨nm, n1, n2, n3⟩ | ⟨e, n1, n2⟩
  swap
  · rw [show m.bvnot S = _ from n1, show m.plain.bvnot S = _ from n2]; exact ssame_err _ _
  rw [show m.bvnot S = _ from n1, show m.plain.bvnot S = _ from n3, ok_bind', ok_bind']
  rcases ssame_bin (S := S) hH .bvand (x := x) (o := .bv nm) trivial with ⟨f, f1, f2, f3⟩ | ⟨e, f1, f2⟩
  swap
  · rw [f1, show x.plain.bvand S (.bv nm.plain) = _ from f2]; exact ssame_err _ _
  rw [f1, show x.plain.bvand S (.bv nm.plain) = _ from f3, ok_bind', ok_bind']
  refine ssame_bind (node (.ite b t.term f.term)) fun v => ?_
  rcases ssame_F (S := S) x.cls v with ⟨r, r1, r2, r3⟩ | ⟨e, r1, r2⟩
  · rw [r1, show bvF S x.plain.kind x.size v = _ from r3, ok_bind', ok_bind']
    exact .inl ⟨⟨x.cls, r.term⟩, rfl, rfl, rfl⟩
  · rw [r1, show bvF S x.plain.kind x.size v = _ from r2]; exact ssame_err _ _

/-- **C138** (pysmt; partial as above) the comparison methods give the same bits, and so do indexing and
`as_uint`. -/
theorem C138_smt_comparisons_partial (hH : H.Ok) (m : CMeth) (x : SInst H) {o : SHObj H} (ho : Opnd x.cls o) :
    runC S m x o = plainC (S := S) m x.plain o.plain := by
  cases m <;> exact scast_plain hH ho fun y => rfl

theorem C138_smt_readings (x : SInst H) (i : Int) :
    x.getIdx S i = x.plain.getIdx S i ∧ x.asUint S = x.plain.asUint S := ⟨rfl, rfl⟩

theorem scoerce_lost {c : H.C} {l : List SElem} (hu : H.unsized c = none) :
    Lost (scoerceH S c (.seq l)) (scoerce S (skindOf c) (H.size c) (.seq l)) :=
  C138_smt_construct_raises c (.seq l) (by simp [Conv, hu])

/-- **C138** with a sequence of the right length as operand every binary method and comparison raises
`AttributeError` on a class derived from a sized one. -/
theorem C138_smt_operand_raises {x : SInst H} (hu : H.unsized x.cls = none) (l : List SElem) :
    (∀ m : BMeth, m ≠ .bvrol → m ≠ .bvror →
      Lost (runB S m x (.seq l)) (plainB (S := S) m x.plain (.seq l))) ∧
    (∀ m : CMeth, Lost (runC S m x (.seq l)) (plainC (S := S) m x.plain (.seq l))) := by
  have hc {α β : Type} (f : SInst H → PyM α) (g : SBV → PyM β) :
      Lost (x.cast S (.seq l) f) (x.plain.cast S (.seq l) g) := lost_map (scoerce_lost hu) f g
  constructor
  · intro m h1 h2
    cases m with
    | bvrol => exact absurd rfl h1
    | bvror => exact absurd rfl h2
    | _ => exact hc _ _
  · intro m; cases m <;> exact hc _ _

/-! ## Structural methods -/

/-- The methods that return a vector of another width, by name. -/
inductive SSMeth (H : Hier)
  | slice (s : PySlice)
  | zext (k : Int)
  | sext (k : Int)
  | ext (k : Int)
  | comp (o : SHObj H)

def runS (x : SInst H) : SSMeth H → PyM (SInst H)
  | .slice s => x.getSlice S s
  | .zext k => x.zext S k
  | .sext k => x.sext S k
  | .ext k => x.ext S k
  | .comp o => x.bvcomp S o

/-- On the predefined classes; `ext` is `sext` on `SMTSIntVector` (smt_bit_vector.py:571-572, 677-678). -/
def plainS (x : SBV) : SSMeth H → PyM SBV
  | .slice s => x.getSlice S s
  | .zext k => x.zext S k
  | .sext k => x.sext S k
  | .ext k => if x.kind = .root .sint then x.sext S k else x.zext S k
  | .comp o => x.bvcomp S o.plain

theorem plainS_ext (x : SInst H) (k : Int) : plainS (S := S) x.plain (SSMeth.ext (H := H) k) =
    if H.signed x.cls then x.plain.sext S k else x.plain.zext S k := by
  cases h : H.signed x.cls <;> simp [plainS, SInst.plain, skindOf, h]

/-- **C138** (pysmt; partial: classes `U[n]`, `U` possibly user-defined) slices, extensions, `bvcomp`,
concatenations and `as_sint` give the same terms, in classes `U[m]`; `concat` refuses exactly the vectors
that are not instances of `U`. -/
theorem C138_smt_structure_partial (hH : H.Ok) {x : SInst H} {u : H.U} (hu : H.unsized x.cls = some u) :
    (∀ m : SSMeth H, SSameU u (runS (S := S) x m) (plainS (S := S) x.plain m)) ∧
    (∀ y : SInst H, H.isSubU y.cls u = true → SSameU u (x.concat S y) (x.plain.concat S y.plain)) ∧
    (∀ y : SInst H, H.isSubU y.cls u = false → x.concat S y = .error .typeError) ∧
    x.asSint S = x.plain.asSint S := by
  refine ⟨fun m => ?_, fun y hy => ssameU_concat hH hu hy, fun y hy => ?_, ?_⟩
  · cases m with
    | slice s => exact ssameU_slice hH hu s
    | zext k => exact ssameU_zext hH hu k
    | sext k => exact ssameU_sext hH hu k
    | ext k =>
      rw [plainS_ext]
      show SSameU u (x.ext S k) _
      unfold SInst.ext
      split
      · exact ssameU_sext hH hu k
      · exact ssameU_zext hH hu k
    | comp o =>
      rcases scoerce_cases (S := S) hH x.cls o
        (by cases o <;> first | trivial | simp [Opnd, hu]) with ⟨y, e1, _, _, e2⟩ | ⟨e, e1, e2⟩
      · simp only [runS, plainS, SInst.bvcomp, SBV.bvcomp, SInst.cast, SBV.cast, e1,
          show scoerce S x.plain.kind x.plain.size o.plain = _ from e2, unsizedT_some hu, ok_bind']
        exact ssameU_bind _ fun t => ssameU_F hH hu 1 t
      · simp only [runS, plainS, SInst.bvcomp, SBV.bvcomp, SInst.cast, SBV.cast, e1,
          show scoerce S x.plain.kind x.plain.size o.plain = _ from e2]
        exact .inr ⟨e, rfl, rfl⟩
  · simp [SInst.concat, unsizedT_some hu, hy, ok_bind']
  · unfold SInst.asSint SBV.asSint
    rcases ssameU_slice (S := S) hH hu ⟨none, some (-1), none⟩ with ⟨z, h1, h2, h3⟩ | ⟨e, h1, h2⟩
    swap
    · rw [h1, h2]; rfl
    rw [h1, h3, ok_bind', ok_bind', show z.plain.asUint S = z.asUint S from rfl]
    cases z.asUint S with
    | error e => rfl
    | ok a =>
      rw [ok_bind', ok_bind', show (x.plain.size : Int) = x.size from rfl]
      cases pyShl 1 ((x.size : Int) - 1) with
      | error e => rfl
      | ok one =>
        rw [ok_bind', ok_bind']
        rcases ssame_bin (S := S) hH .bvand (x := x) (o := .int one) trivial with ⟨t, t1, t2, t3⟩ | ⟨e, t1, t2⟩
        · rw [t1, show x.plain.bvand S (.int one) = _ from t3]; rfl
        · rw [t1, show x.plain.bvand S (.int one) = _ from t2]; rfl

/-- **C138** (pysmt) an instance of a class derived from a sized class has none of these methods: wherever
the plain vector returns a value, it raises `AttributeError`. -/
theorem C138_smt_sized_subclass_raises (hH : H.Ok) {x : SInst H} (hu : H.unsized x.cls = none) :
    (∀ m : SSMeth H, Lost (runS (S := S) x m) (plainS (S := S) x.plain m)) ∧
    (∀ y : SInst H, x.concat S y = .error .attributeError) ∧ Lost (x.asSint S) (x.plain.asSint S) := by
  refine ⟨fun m => ?_, fun y => by simp [SInst.concat, unsizedT_none hu, err_bind'],
    lost_map (slost_slice hu _) _ _⟩
  cases m with
  | slice s => exact slost_slice hu s
  | zext k => exact slost_zext hu k
  | sext k => exact slost_sext hu k
  | ext k =>
    rw [plainS_ext]
    show Lost (x.ext S k) _
    unfold SInst.ext
    split
    · exact slost_sext hu k
    · exact slost_zext hu k
  | comp o =>
    by_cases ho : Opnd x.cls o
    · rcases scoerce_cases (S := S) hH x.cls o ho with ⟨y, e1, _, _, e2⟩ | ⟨e, e1, e2⟩
      · simp only [runS, plainS, SInst.bvcomp, SBV.bvcomp, SInst.cast, SBV.cast, e1,
          show scoerce S x.plain.kind x.plain.size o.plain = _ from e2, unsizedT_none hu, ok_bind']
        exact .inl rfl
      · simp only [runS, plainS, SInst.bvcomp, SBV.bvcomp, SInst.cast, SBV.cast, e1,
          show scoerce S x.plain.kind x.plain.size o.plain = _ from e2]
        exact .inr ⟨e, rfl, rfl⟩
    · cases o with
      | seq l => exact (C138_smt_operand_raises hu l).1 .bvcomp nofun nofun
      | _ => exact absurd trivial ho

/-! ## Addition with carry -/

/-- Not an instance of a class derived from a sized class. -/
def SHObj.Plain : SHObj H → Prop
  | .bv y => (H.unsized y.cls).isSome = true
  | _ => True

theorem scoerceU_cases (hH : H.Ok) {c : H.C} {u : H.U} (hu : H.unsized c = some u) (o : SHObj H) :
    (∃ y : SInst H, scoerceH S (H.get u 1) o = .ok y ∧ (o = .bv y ∨ y.cls = H.get u 1) ∧
      scoerce S (skindOf c) 1 o.plain = .ok y.plain) ∨
    ∃ e, scoerceH S (H.get u 1) o = .error e ∧ scoerce S (skindOf c) 1 o.plain = .error e := by
  have h := scoerce_cases (S := S) hH (H.get u 1) o
    (by cases o <;> first | trivial | simp [Opnd, hH.unsized_get])
  rw [skindOf_get hH hu, hH.size_get] at h
  rcases h with ⟨y, h1, _, h2, h3⟩ | h
  · exact .inl ⟨y, h1, h2, h3⟩
  · exact .inr h

/-- The results of `adc`: same terms, the vector in class `u[m]`. -/
def SSameA (u : H.U) (r : PyM (SInst H × Term)) (s : PyM (SBV × Term)) : Prop :=
  (∃ (z : SInst H) (t : Term), r = .ok (z, t) ∧ z.cls = H.get u (H.size z.cls) ∧ s = .ok (z.plain, t)) ∨
    ∃ e, r = .error e ∧ s = .error e

/-- **C138** (pysmt; partial: neither `self` nor the operands are of a class derived from a sized one):
`adc` returns the same sum, in class `U[n]`, and the same carry. -/
theorem C138_smt_adc_partial (hH : H.Ok) {x : SInst H} {u : H.U} (hu : H.unsized x.cls = some u)
    {o c : SHObj H} (ho : o.Plain) (hc : c.Plain) : SSameA u (x.adc S o c) (x.plain.adc S o.plain c.plain) := by
  have hadd {a b : SInst H} (ha : a.cls = H.get u (H.size a.cls)) :
      SSameU u (a.bin S .bvadd (.bv b)) (a.plain.bvadd S (.bv b.plain)) := by
    rcases ssame_bin (S := S) hH .bvadd (x := a) (o := .bv b) trivial with ⟨z, h1, h2, h3⟩ | h
    · exact .inl ⟨z, h1, by rw [h2]; exact ha, h3⟩
    · exact .inr h
  unfold SInst.adc SBV.adc
  rcases scoerce_cases (S := S) hH x.cls o (by cases o <;> first | trivial | simp [Opnd, hu]) with
    ⟨y, e1, hy, hy', e2⟩ | ⟨e, e1, e2⟩
  swap
  · rw [e1, show scoerce S x.plain.kind x.plain.size o.plain = _ from e2]; exact .inr ⟨e, rfl, rfl⟩
  rw [e1, show scoerce S x.plain.kind x.plain.size o.plain = _ from e2, unsizedT_some hu, ok_bind', ok_bind',
    ok_bind']
  rcases scoerceU_cases (S := S) hH hu c with ⟨d, e3, hd, e4⟩ | ⟨e, e3, e4⟩
  swap
  · rw [e3, show scoerce S x.plain.kind 1 c.plain = _ from e4]; exact .inr ⟨e, rfl, rfl⟩
  rw [e3, show scoerce S x.plain.kind 1 c.plain = _ from e4, ok_bind', ok_bind']
  have hyu : ∃ w, H.unsized y.cls = some w := by
    rcases hy' with rfl | h
    · exact Option.isSome_iff_exists.mp ho
    · exact ⟨u, by rw [h, hu]⟩
  have hdu : ∃ w, H.unsized d.cls = some w := by
    rcases hd with rfl | h
    · exact Option.isSome_iff_exists.mp hc
    · exact ⟨u, by rw [h, hH.unsized_get]⟩
  obtain ⟨w, hw⟩ := hyu
  obtain ⟨w', hw'⟩ := hdu
  rcases ssameU_zext (S := S) hH hu 1 with ⟨a, a1, a2, a3⟩ | ⟨e, a1, a2⟩
  swap
  · rw [a1, a2]; exact .inr ⟨e, rfl, rfl⟩
  rcases ssameU_zext (S := S) hH hw 1 with ⟨b, b1, b2, b3⟩ | ⟨e, b1, b2⟩
  swap
  · rw [a1, a3, b1, b2]; exact .inr ⟨e, rfl, rfl⟩
  rcases ssameU_zext (S := S) hH hw' x.size with ⟨g, g1, g2, g3⟩ | ⟨e, g1, g2⟩
  swap
  · rw [a1, a3, b1, b3, g1, show d.plain.zext S x.plain.size = _ from g2]; exact .inr ⟨e, rfl, rfl⟩
  rw [a1, a3, b1, b3, g1, show d.plain.zext S x.plain.size = _ from g3]
  simp only [ok_bind']
  rcases hadd (b := b) a2 with ⟨r, r1, r2, r3⟩ | ⟨e, r1, r2⟩
  swap
  · rw [r1, r2]; exact .inr ⟨e, rfl, rfl⟩
  rw [r1, r3]
  simp only [ok_bind']
  rcases hadd (b := g) r2 with ⟨s, s1, s2, s3⟩ | ⟨e, s1, s2⟩
  swap
  · rw [s1, s2]; exact .inr ⟨e, rfl, rfl⟩
  rw [s1, s3]
  simp only [ok_bind']
  rcases ssameU_slice (S := S) hH (sunsized_of_cls hH s2) ⟨some 0, some (-1), none⟩ with ⟨t, t1, t2, t3⟩ | ⟨e, t1, t2⟩
  swap
  · rw [t1, t2]; exact .inr ⟨e, rfl, rfl⟩
  rw [t1, t3, show s.plain.getIdx S (-1) = s.getIdx S (-1) from rfl]
  simp only [ok_bind']
  cases s.getIdx S (-1) with
  | error e => exact .inr ⟨e, rfl, rfl⟩
  | ok v => exact .inl ⟨t, v, rfl, t2, rfl⟩

/-- **C138** (pysmt) `adc` on an instance of a class derived from a sized class, or with such a second
summand, never returns. -/
theorem C138_smt_adc_raises {x : SInst H} {o c : SHObj H}
    (h : H.unsized x.cls = none ∨ (∃ y : SInst H, o = .bv y ∧ H.unsized y.cls = none)) :
    ∀ r, x.adc S o c ≠ .ok r := by
  intro r hr
  unfold SInst.adc at hr
  cases e1 : scoerceH S x.cls o with
  | error e => rw [e1] at hr; cases hr
  | ok y =>
    rw [e1, ok_bind'] at hr
    cases e2 : H.unsized x.cls with
    | none => rw [unsizedT_none e2] at hr; cases hr
    | some u =>
      rcases h with h | ⟨z, rfl, hz⟩
      · rw [h] at e2; cases e2
      have : y = z := by
        simp only [scoerceH] at e1
        split at e1
        · cases e1
        · cases e1; rfl
      subst this
      have hb : y.zext S 1 = .error .attributeError := by
        simp [SInst.zext, unsizedT_none hz, err_bind']
      rw [unsizedT_some e2, ok_bind', hb] at hr
      cases e3 : scoerceH S (H.get u 1) c with
      | error e => rw [e3] at hr; cases hr
      | ok d =>
        rw [e3, ok_bind'] at hr
        cases e4 : x.zext S 1 with
        | error e => rw [e4] at hr; cases hr
        | ok a => rw [e4] at hr; cases hr

/-! ## Operators -/

/-- The vector stands for the number `X` under the assignment `e`. -/
def Means (e : Env) (x : SInst H) (X : Int) : Prop :=
  ∃ b : BitVec (H.size x.cls), x.term.eval e = some (.bv (H.size x.cls) b) ∧ X = b.toNat

/-- The object stands for the number `X`, as an operand of width `n`. -/
def MeansObj (e : Env) (n : Nat) (o : SHObj H) (X : Int) : Prop :=
  ∃ O : Obj, DenObj e o.plain O ∧ o.plain.Fits n ∧ operand n O = .ok X

/-- The concrete vector of the predefined class. -/
def conc (x : SInst H) (X : Int) : BVal := ⟨HW.Der.kindOf x.cls, H.size x.cls, X⟩

theorem means_den {e : Env} {x : SInst H} {X : Int} : Means e x X ↔ Den e x.plain (conc x X) := by
  constructor
  · intro h; exact ⟨rfl, rfl, h⟩
  · intro h; exact h.2.2

theorem means_obj {e : Env} {n : Nat} {y : SInst H} {Y : Int} (hy : Means e y Y) (hs : H.size y.cls = n) :
    MeansObj e n (.bv y) Y :=
  ⟨.bv (conc y Y), .bv (means_den.mp hy), trivial, by simp [operand, conc, hs]⟩

theorem plainB_meth (op : AOp) (s : Bool) :
    plainB (S := S) (meth op s) = if s then AOp.smtS S op else AOp.smtU S op := by
  cases s <;> cases op <;> rfl

theorem plainC_meth (op : COp) (s : Bool) :
    plainC (S := S) (methC op s) = if s then COp.smtS S op else COp.smtU S op := by
  cases s <;> cases op <;> rfl

theorem meth_ne (op : AOp) (s : Bool) : meth op s ≠ .bvcomp := by cases s <;> cases op <;> nofun

theorem runB_sem (hH : H.Ok) (op : AOp) (s : Bool) {e : Env} {x : SInst H} {X : Int} (hx : Means e x X)
    (hn : 0 < H.size x.cls) {o : SHObj H} (ho : Opnd x.cls o) {b : Int} (hb : MeansObj e (H.size x.cls) o b) :
    ∃ z, runB S (meth op s) x o = .ok z ∧ z.cls = x.cls ∧ Means e z (refSmt s op (H.size x.cls) X b) := by
  obtain ⟨O, hO, hf, hop⟩ := hb
  have hx' := means_den.mp hx
  have key : RelM (fun v V => Den e v V ∧ v.kind = x.plain.kind ∧ v.size = x.plain.size)
      (plainB (S := S) (meth op s) x.plain o.plain)
      ((operand (H.size x.cls) O).map fun b =>
        ⟨HW.Der.kindOf x.cls, H.size x.cls, refSmt s op (H.size x.cls) X b⟩) := by
    rw [plainB_meth]
    cases s
    · exact smtU_ref op hx' hn hO hf
    · exact smtS_ref op hx' hn hO hf
  rw [hop] at key
  rcases (C138_smt_methods_partial (S := S) hH x ho).2.1 _ (meth_ne op s) with ⟨z, h1, h2, h3⟩ | ⟨er, _, h3⟩
  · rw [h3] at key
    refine ⟨z, h1, h2, ?_⟩
    obtain ⟨⟨_, hs, hd⟩, _⟩ := key
    exact hd
  · rw [h3] at key; cases key

theorem runC_sem (hH : H.Ok) (op : COp) (s : Bool) {e : Env} {x : SInst H} {X : Int} (hx : Means e x X)
    (hn : 0 < H.size x.cls) {o : SHObj H} (ho : Opnd x.cls o) {b : Int} (hb : MeansObj e (H.size x.cls) o b) :
    ∃ t, runC S (methC op s) x o = .ok t ∧ DenBit e t (refC s op (H.size x.cls) X b) := by
  obtain ⟨O, hO, hf, hop⟩ := hb
  have hx' := means_den.mp hx
  have key : RelM (DenBit e) (plainC (S := S) (methC op s) x.plain o.plain)
      ((operand (H.size x.cls) O).map fun b => refC s op (H.size x.cls) X b) := by
    rw [plainC_meth]
    cases s
    · exact smtCU_ref op hx' hn hO hf
    · exact smtCS_ref op hx' hn hO hf
  rw [hop] at key
  rw [C138_smt_comparisons_partial hH _ x ho]
  cases h : plainC (S := S) (methC op s) x.plain o.plain with
  | error er => rw [h] at key; cases key
  | ok t => rw [h] at key; exact ⟨t, rfl, key⟩

/-- Signedness of an operator between two vectors: signed if the left class is, or if the right one
is a signed subclass of the left one. -/
def ssignedVV (x y : SInst H) : Bool := H.signed x.cls || (H.isSub y.cls x.cls && H.signed y.cls)

theorem ssignedVV_eq (x y : SInst H) : ssignedVV x y = (H.signed x.cls || (properSub y x && H.signed y.cls)) := by
  unfold ssignedVV properSub
  by_cases h : y.cls = x.cls
  · cases hs : H.signed x.cls <;> simp [h, hs]
  · rw [show (y.cls != x.cls) = true from bne_iff_ne.mpr h, Bool.true_and]

theorem refSmt_dep (op : AOp) (s : Bool) (n : Nat) (a b : Int) :
    refSmt (op.signDep && s) op n a b = refSmt s op n a b := by
  cases h : op.signDep
  · exact refSmt_sign_irrelevant h _ _ _ _ _
  · rfl

theorem sproperSub_signed (hH : H.Ok) {x y : SInst H} (h : properSub y x = true) (hx : H.signed x.cls = true) :
    H.signed y.cls = true := by
  simp only [properSub, Bool.and_eq_true] at h
  exact hH.sub_signed _ _ h.2 hx

/-- **C138** (pysmt) the operators between two vectors of any classes: under every assignment the value is
that of the reference operation (`//` and `%` of signed classes as in SMT-LIB), signed if the left class is
or if the right one is a signed proper subclass of it, and the result has the class of the left operand. -/
theorem C138_smt_operators (hH : H.Ok) {e : Env} {x y : SInst H} {X Y : Int} (hx : Means e x X) (hy : Means e y Y)
    (hn : 0 < H.size x.cls) (hs : H.size y.cls = H.size x.cls) :
    (∀ op, ∃ z, opVV S op x y = .ok z ∧ z.cls = x.cls ∧
      Means e z (refSmt (ssignedVV x y) op (H.size x.cls) X Y)) ∧
    (∀ op, ∃ t, cmpVV S op x y = .ok (.sym t) ∧ DenBit e t (refC (ssignedVV x y) op (H.size x.cls) X Y)) := by
  have hn' : 0 < H.size y.cls := by omega
  constructor
  · intro op
    have hf (s : Bool) := runB_sem (S := S) hH op s hx hn (o := .bv y) trivial (means_obj hy hs)
    unfold opVV
    cases hp : properSub y x
    · obtain ⟨z, h1, h2, h3⟩ := hf (op.signDep && H.signed x.cls)
      refine ⟨z, ?_, h2, ?_⟩
      · simp only [Bool.false_and, Bool.false_eq_true, if_false, h1, tryOper, ok_bind']; rfl
      · rw [refSmt_dep] at h3
        simpa [ssignedVV_eq, hp] using h3
    · by_cases he : (op.signDep && H.signed x.cls) = (op.signDep && H.signed y.cls)
      · obtain ⟨z, h1, h2, h3⟩ := hf (op.signDep && H.signed x.cls)
        refine ⟨z, ?_, h2, ?_⟩
        · simp only [Bool.true_and, ← he, bne_self_eq_false, Bool.false_eq_true, if_false, h1, tryOper, ok_bind']; rfl
        · rw [refSmt_dep] at h3
          simp only [ssignedVV_eq, hp, Bool.true_and]
          cases hd : op.signDep
          · rw [refSmt_sign_irrelevant hd _ (H.signed x.cls)]; exact h3
          · simp only [hd, Bool.true_and] at he
            rw [← he, Bool.or_self]; exact h3
      · have hd : op.signDep = true := by
          cases hd : op.signDep
          · exact absurd (by rw [hd]; rfl) he
          · rfl
        simp only [hd, Bool.true_and] at he
        have hx' : H.signed x.cls = false := by
          by_contra h
          simp only [Bool.not_eq_false] at h
          exact he (by rw [h, sproperSub_signed hH hp h])
        have hy' : H.signed y.cls = true := by
          by_contra h
          simp only [Bool.not_eq_true] at h
          exact he (by rw [h, hx'])
        have hc : scoerceH S y.cls (.bv x) = .ok x := by simp [scoerceH, SInst.size, hs]
        obtain ⟨z, h1, h2, h3⟩ := hf true
        refine ⟨z, ?_, h2, ?_⟩
        · simp [hx', hy', hd, rev, hc, h1, tryOper, ok_bind']; rfl
        · simpa [ssignedVV_eq, hp, hx', hy'] using h3
  · intro op
    unfold cmpVV
    cases hp : properSub y x
    · obtain ⟨t, h1, h2⟩ := runC_sem (S := S) hH op (op.signDep && H.signed x.cls) hx hn (o := .bv y) trivial
        (means_obj hy hs)
      refine ⟨t, ?_, ?_⟩
      · simp only [Bool.false_eq_true, if_false, h1, tryOper, ok_bind']; rfl
      · rw [refC_dep] at h2
        simpa [ssignedVV_eq, hp] using h2
    · obtain ⟨t, h1, h2⟩ := runC_sem (S := S) hH op.swap (op.swap.signDep && H.signed y.cls) hy hn' (o := .bv x)
        trivial (means_obj hx hs.symm)
      refine ⟨t, ?_, ?_⟩
      · simp only [if_true, h1, tryOper, ok_bind']; rfl
      · rw [refC_dep, refC_swap, hs] at h2
        simp only [ssignedVV_eq, hp, Bool.true_and]
        cases hx' : H.signed x.cls
        · simpa using h2
        · rw [sproperSub_signed hH hp hx'] at h2
          simpa using h2

/-- **C138** (pysmt) operators between vectors of different widths raise `InconsistentSizeError`. -/
theorem C138_smt_operators_widths (hH : H.Ok) {x y : SInst H} (hs : H.size y.cls ≠ H.size x.cls) :
    (∀ op, opVV S op x y = .error .inconsistentSize) ∧ (∀ op, cmpVV S op x y = .error .inconsistentSize) := by
  have hp : properSub y x = false := by
    cases h : properSub y x
    · rfl
    · simp only [properSub, Bool.and_eq_true] at h
      exact absurd (hH.sub_size _ _ h.2) hs
  have hc {α : Type} (f : SInst H → PyM α) : x.cast S (.bv y) f = .error .inconsistentSize := by
    simp [SInst.cast, scoerceH, SInst.size, hs, err_bind']
  constructor
  · intro op
    have hf (s : Bool) : runB S (meth op s) x (.bv y) = .error .inconsistentSize := by
      cases s <;> cases op <;> exact hc _
    simp only [opVV, hp, Bool.false_and, Bool.false_eq_true, if_false, hf, tryOper, err_bind']
  · intro op
    have hf (s : Bool) : runC S (methC op s) x (.bv y) = .error .inconsistentSize := by
      cases s <;> cases op <;> exact hc _
    simp only [cmpVV, hp, Bool.false_eq_true, if_false, hf, tryOper, err_bind']

/-- Neither a vector nor an `SMTBit`. -/
def SHObj.foreign : SHObj H → Prop
  | .bv _ => False
  | .bit _ => False
  | _ => True

/-- **C138** (pysmt; partial: not `o >> x` with unsigned `x`, see C23) the operators between a vector of any
class and an int (or other number, or a sequence if the class has an `unsized_t`), on either side. -/
theorem C138_smt_operators_int_partial (hH : H.Ok) {e : Env} {x : SInst H} {X : Int} (hx : Means e x X)
    (hn : 0 < H.size x.cls) {o : SHObj H} (hf : o.foreign) (ho : Opnd x.cls o) {b : Int}
    (hb : MeansObj e (H.size x.cls) o b) :
    (∀ op, ∃ z, opVO S op x o = .ok z ∧ z.cls = x.cls ∧
      Means e z (refSmt (H.signed x.cls) op (H.size x.cls) X b)) ∧
    (∀ op, (op = .shr → H.signed x.cls = true) → ∃ z, opOV S op o x = .ok z ∧ z.cls = x.cls ∧
      Means e z (refSmt (H.signed x.cls) op (H.size x.cls) b X)) := by
  constructor
  · intro op
    obtain ⟨z, h1, h2, h3⟩ := runB_sem (S := S) hH op (op.signDep && H.signed x.cls) hx hn ho hb
    refine ⟨z, ?_, h2, by rwa [refSmt_dep] at h3⟩
    simp only [opVO, h1, tryOper, ok_bind']; rfl
  · intro op hop
    obtain ⟨O, hO, hfit, hopd⟩ := hb
    have hc : ∃ y : SInst H, scoerceH S x.cls o = .ok y ∧ y.cls = x.cls ∧ Means e y b := by
      have hk := soperand_rel (S := S) (e := e) (k := skindOf x.cls) (K := HW.Der.kindOf x.cls) hn rfl hO hfit
      rw [hopd] at hk
      rcases scoerce_cases (S := S) hH x.cls o ho with ⟨y, h1, _, h2, h3⟩ | ⟨er, _, h3⟩
      · rw [h3] at hk
        obtain ⟨v, hv, hb⟩ := hk
        have h4 : y.cls = x.cls := by
          rcases h2 with rfl | h
          · exact hf.elim
          · exact h
        refine ⟨y, h1, h4, ?_⟩
        unfold Means
        rw [h4]
        exact ⟨v, hv, hb.symm⟩
      · rw [h3] at hk; cases hk
    obtain ⟨y, h1, h2, h3⟩ := hc
    have hop' : ¬ (op = .shr ∧ (op.signDep && H.signed x.cls) = false) := by
      rintro ⟨rfl, h⟩
      simp [AOp.signDep, hop rfl] at h
    obtain ⟨z, g1, g2, g3⟩ := runB_sem (S := S) hH op (op.signDep && H.signed x.cls) h3 (by rw [h2]; exact hn)
      (o := .bv x) trivial (means_obj hx (by rw [h2]))
    refine ⟨z, ?_, g2.trans h2, by rwa [refSmt_dep, h2] at g3⟩
    simp only [opOV, rev, if_neg hop', h1, g1, tryOper, ok_bind']; rfl

/-- **C138** (pysmt) with an object that is not a number `x op o` is a `TypeError`. -/
theorem C138_smt_operators_raise (op : AOp) (x : SInst H) (t : Option Bool) :
    opVO S op x (.other none t) = .error .typeError := by
  have hf (s : Bool) : runB S (meth op s) x (.other none t) = .error .typeError := by cases s <;> cases op <;> rfl
  simp only [opVO, hf, tryOper]
  rfl

/-- **C138** (pysmt) `o >> x` with an unsigned `x` computes `x >> o` (the finding of C23). -/
theorem C138_smt_rrshift (hH : H.Ok) {e : Env} {x : SInst H} {X : Int} (hx : Means e x X)
    (hn : 0 < H.size x.cls) (hu : H.signed x.cls = false) {o : SHObj H} (ho : Opnd x.cls o) {b : Int}
    (hb : MeansObj e (H.size x.cls) o b) :
    ∃ z, opOV S .shr o x = .ok z ∧ z.cls = x.cls ∧ Means e z (refSmt false .shr (H.size x.cls) X b) := by
  obtain ⟨z, h1, h2, h3⟩ := runB_sem (S := S) hH .shr false hx hn ho hb
  refine ⟨z, ?_, h2, h3⟩
  simp [opOV, rev, hu, h1, tryOper, ok_bind']; rfl

/-! ## `ite` -/

/-- **C138** (pysmt) `ite` on two vectors of one class, whatever the class, returns a vector of that class
standing for the selected value; on vectors of a class and a subclass of it, a vector of a new class below
the unsized class, or `TypeError` if there is none. -/
theorem C138_smt_ite {e : Env} {sel : Term} {b : Bool} (hb : DenBit e sel b) {t f : SInst H} {X Y : Int}
    (ht : Means e t X) (hf : Means e f Y) (rest : List H.C) :
    (t.cls = f.cls → ∃ z, iteSH S sel t f rest = .ok (.inst z) ∧ z.cls = t.cls ∧ Means e z (if b then X else Y)) ∧
    (t.cls ≠ f.cls → H.size t.cls = H.size f.cls → ∀ d, (H.isSub t.cls f.cls = true ∧ d = f.cls) ∨
        (H.isSub t.cls f.cls = false ∧ H.isSub f.cls t.cls = true ∧ d = t.cls) →
      (∀ u, H.unsized d = some u → ∃ (v : Term) (w : BitVec (H.size t.cls)),
        iteSH S sel t f rest = .ok (.poly [u] (H.size t.cls) v) ∧ v.eval e = some (.bv _ w) ∧
        (w.toNat : Int) = if b then X else Y) ∧
      (H.unsized d = none → iteSH S sel t f rest = .error .typeError)) ∧
    (H.size t.cls ≠ H.size f.cls → iteSH S sel t f rest = .error .inconsistentSize) ∧
    (H.size t.cls = H.size f.cls → H.isSub t.cls f.cls = false → H.isSub f.cls t.cls = false → t.cls ≠ f.cls →
      ∀ us : List H.U, rest.map H.unsized = us.map some → ∃ (v : Term) (w : BitVec (H.size t.cls)),
        iteSH S sel t f rest = .ok (.poly us (H.size t.cls) v) ∧ v.eval e = some (.bv _ w) ∧
        (w.toNat : Int) = if b then X else Y) := by
  obtain ⟨c, T⟩ := t
  obtain ⟨d, F⟩ := f
  obtain ⟨x, hx, rfl⟩ := ht
  obtain ⟨y, hy, rfl⟩ := hf
  dsimp only at *
  have key (hs : H.size c = H.size d) : ∃ w : BitVec (H.size c), (Term.ite sel T F).eval e = some (.bv _ w) ∧
      (w.toNat : Int) = if b then (x.toNat : Int) else y.toNat := by
    refine ⟨if b then x else y.cast hs.symm, ?_, by cases b <;> simp⟩
    have hy' : F.eval e = some (.bv (H.size c) (y.cast hs.symm)) := by
      rw [hy]
      generalize H.size c = n at hs
      subst hs
      rfl
    simp only [DenBit] at hb
    cases b <;> simp [Term.eval, hb, hx, hy', Val.ty]
  have hpoly (hs : H.size c = H.size d) (hne : c ≠ d) {us : List H.U} (hp : polyClass c d rest = .ok us) :
      ∃ (v : Term) (w : BitVec (H.size c)), iteSH S sel ⟨c, T⟩ ⟨d, F⟩ rest = .ok (.poly us (H.size c) v) ∧
        v.eval e = some (.bv _ w) ∧ (w.toNat : Int) = if b then (x.toNat : Int) else y.toNat := by
    obtain ⟨w, h1, h2⟩ := key hs
    refine ⟨S.run (.ite sel T F), w, ?_, S.eval _ _ _ h1, h2⟩
    have hty : (Term.ite sel T F).ty? = some (.bv (H.size c)) := eval_ty h1
    simp only [iteSH, if_neg hne, hp, ok_bind', node_ok h1, SInst.size, hty, if_true]
    rfl
  refine ⟨?_, ?_, ?_, ?_⟩
  · rintro rfl
    obtain ⟨w, h1, h2⟩ := key rfl
    have hty : (Term.ite sel T F).ty? = some (.bv (H.size c)) := eval_ty h1
    refine ⟨⟨c, S.run (.ite sel T F)⟩, ?_, rfl, w, S.eval _ _ _ h1, h2.symm⟩
    simp only [iteSH, if_true, node_ok h1, ok_bind', bvFH, hty]
    rfl
  · intro hne hs g hg
    have hc : commonBases c d rest = [g] := by
      unfold commonBases
      rcases hg with ⟨h1, rfl⟩ | ⟨h1, h2, rfl⟩
      · rw [if_pos h1]
      · rw [if_neg (by rw [h1]; decide), if_pos h2]
    constructor
    · intro u hu
      exact hpoly hs hne (by simp [polyClass, hs, hc, hu])
    · intro hu
      simp only [iteSH, if_neg hne, polyClass, hs, ne_eq, not_true_eq_false, if_false, hc, List.map_cons,
        List.map_nil, hu, List.all_cons, Option.isSome_none, Bool.false_and, Bool.false_eq_true, err_bind']
  · intro h
    have hne : c ≠ d := fun h' => h (by rw [h'])
    simp only [iteSH, if_neg hne, polyClass, if_pos h, err_bind']
  · intro hs h1 h2 hne us hus
    exact hpoly hs hne (by
      have h3 : (us.map some).all Option.isSome = true := by simp
      have h4 : (us.map some).filterMap id = us := by simp
      simp only [polyClass, if_neg (fun h => h hs : ¬ H.size c ≠ H.size d), commonBases, h1, h2, Bool.false_eq_true,
        if_false, hus, h3, if_true, h4])

/-! ## Examples and refutations -/

/-- `x : Word`, with `class Word(SMTBitVector[8])`. -/
def wordX : SInst exH := ⟨.word 8, .sym ['x'] (.bv 8)⟩
/-- `y` of class `c`. -/
def vecY (c : ExC) : SInst exH := ⟨c, .sym ['y'] (.bv 8)⟩

theorem wordX_means : Means env200 wordX 200 := ⟨200#8, by decide, by decide⟩
theorem vecY_means (u : ExU) : Means env200 (vecY (.get u 8)) 200 := ⟨200#8, rfl, rfl⟩

example := C138_smt_construct_partial (S := noSimp) exH_ok (c := ExC.word 8) (o := .int 300) trivial
example := C138_smt_construct_raises (S := noSimp) (H := exH) (ExC.get .bv 16) (.bv wordX) (by simp [Conv, wordX, exH])
example := C138_smt_operand_raises (S := noSimp) (x := wordX) rfl [.bool true]
example := C138_smt_methods_partial (S := noSimp) exH_ok wordX (o := .bv (vecY (.get .foo 8))) trivial
example := C138_smt_setitem (S := noSimp) exH_ok wordX 3 (.bool true)
example := C138_smt_comparisons_partial (S := noSimp) exH_ok .bvslt wordX (o := .int 5) trivial
example := C138_smt_structure_partial (S := noSimp) exH_ok (x := vecY (.get .foo 8)) (u := .foo) rfl
example := C138_smt_sized_subclass_raises (S := noSimp) exH_ok (x := wordX) rfl
example := C138_smt_adc_partial (S := noSimp) exH_ok (x := vecY (.get .foo 8)) (u := .foo) rfl
  (o := .bv (vecY (.get .bv 8))) (c := .int 1) rfl trivial
example := C138_smt_adc_raises (S := noSimp) (x := vecY (.get .foo 8)) (o := .bv wordX) (c := .int 1) (.inr ⟨_, rfl, rfl⟩)
example := C138_smt_operators (S := noSimp) exH_ok wordX_means (vecY_means .sint) (show 0 < 8 by decide) rfl
example := C138_smt_operators_widths (S := noSimp) exH_ok (x := wordX) (y := ⟨.get .bv 9, .sym ['z'] (.bv 9)⟩)
  (show (9 : Nat) ≠ 8 by decide)
example := C138_smt_operators_int_partial (S := noSimp) exH_ok wordX_means (show 0 < 8 by decide) (o := .int 300)
  trivial trivial (b := 44) ⟨_, .int, trivial, rfl⟩
example := C138_smt_rrshift (S := noSimp) exH_ok wordX_means (show 0 < 8 by decide) rfl (o := .int 300)
  trivial (b := 44) ⟨_, .int, trivial, rfl⟩
example := (C138_smt_ite (S := noSimp) (sel := .sym ['c'] .bool) (b := false) (e := env200) rfl wordX_means
  (vecY_means .bv) []).2.1 (by decide) rfl (.get .bv 8) (.inl ⟨rfl, rfl⟩)

/-- **C138 refuted** (witness): with `class Word(SMTBitVector[8])`, the slice `x[0:4]` of `x : Word`
raises `AttributeError` though the plain vector has one. -/
theorem C138_smt_refuted :
    ¬ ∀ (H : Hier), H.Ok → ∀ (x : SInst H) (m : SSMeth H), x.term.ty? = some (.bv (H.size x.cls)) →
      (∃ z, runS (S := noSimp) x m = .ok z) ∨ ∃ e, plainS (S := noSimp) x.plain m = .error e := by
  intro h
  rcases h exH exH_ok wordX (.slice ⟨some 0, some 4, none⟩) rfl with ⟨z, hz⟩ | ⟨e, he⟩
  · cases hz
  · cases he

/-- **C138 refuted** (witness): `SMTBitVector[16](x)` with `x : Word` raises `AttributeError`; with a
concrete `class Word(BitVector[8])`, `BitVector[16](Word(200))` is 200. -/
theorem C138_smt_convert_refuted :
    mkSH noSimp (H := exH) (ExC.get .bv 16) (.bv wordX) = .error .attributeError ∧
    HW.Der.mkH (H := exH) (ExC.get .bv 16) (.bv (⟨.word 8, 200⟩ : Inst exH)) = .ok (⟨.get .bv 16, 200⟩ : Inst exH) := by
  exact ⟨rfl, rfl⟩

/-- **C138 refuted** (witness): `ite` on `Word` and `class Sub(Word)` raises `TypeError`. -/
theorem C138_smt_ite_refuted :
    ¬ ∀ (H : Hier), H.Ok → ∀ (t f : SInst H) (sel : Term) (rest : List H.C), sel.ty? = some .bool →
      t.term.ty? = some (.bv (H.size t.cls)) → f.term.ty? = some (.bv (H.size f.cls)) →
      H.size t.cls = H.size f.cls → H.isSub f.cls t.cls = true → ∃ r, iteSH noSimp sel t f rest = .ok r := by
  intro h
  obtain ⟨r, hr⟩ := h exH exH_ok wordX (vecY (.sub 8)) (.boolC true) [] rfl rfl rfl rfl rfl
  cases hr

end HW.Smt.Der
