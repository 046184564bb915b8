import Verif.Model.Z3.Derived
import Verif.Props.Derived
import Verif.Props.Z3Ops

/-!
# z3 vectors of user-defined classes (C138, z3)
-/

namespace HW.Z3.Der
open HW HW.Der Spec

variable {H : Hier}

/-- The predefined class whose behaviour the class inherits. -/
def rootOf (c : H.C) : Root := if H.signed c then .sint else .bv

/-- The vector of the predefined class with the same width and expression. -/
def ZInst.plain (x : ZInst H) : ZBV := ⟨rootOf x.cls, H.size x.cls, x.expr⟩

def ZHObj.plain : ZHObj H → ZObj
  | .int v => .int v
  | .bool b => .bool b
  | .bit b => .bit b
  | .bv x => .bv x.plain
  | .boolRef b => .boolRef b
  | .bvRef x => .bvRef x
  | .seq l => .seq l
  | .other i b => .other i b

/-- A result `r` of class `c` that has the expression of the plain result `s`. -/
def ZSame (c : H.C) (r : PyM (ZInst H)) (s : PyM ZBV) : Prop :=
  (∃ z : ZInst H, r = .ok z ∧ z.cls = c ∧ s = .ok z.plain) ∨ ∃ e, r = .error e ∧ s = .error e

/-- A result of class `u[m]`, `m` its width. -/
def ZSameU (u : H.U) (r : PyM (ZInst H)) (s : PyM ZBV) : Prop :=
  (∃ z : ZInst H, r = .ok z ∧ z.cls = H.get u (H.size z.cls) ∧ s = .ok z.plain) ∨
    ∃ e, r = .error e ∧ s = .error e

/-- Objects the class can be built from without an `unsized_t` that is not there. -/
def Conv (c : H.C) : ZHObj H → Prop
  | .seq _ => (H.unsized c).isSome = true
  | .bv y => H.size y.cls = H.size c ∨ (H.unsized y.cls).isSome = true
  | _ => True

theorem zsame_err (c : H.C) (e : PyErr) : ZSame c (.error e) (.error e) := .inr ⟨e, rfl, rfl⟩

theorem zsame_bind {α : Type} {c : H.C} (m : PyM α) {f : α → PyM (ZInst H)} {g : α → PyM ZBV}
    (h : ∀ a, ZSame c (f a) (g a)) : ZSame c (m >>= f) (m >>= g) := by
  cases m with
  | error e => exact zsame_err c e
  | ok a => exact h a

theorem zsameU_bind {α : Type} {u : H.U} (m : PyM α) {f : α → PyM (ZInst H)} {g : α → PyM ZBV}
    (h : ∀ a, ZSameU u (f a) (g a)) : ZSameU u (m >>= f) (m >>= g) := by
  cases m with
  | error e => exact .inr ⟨e, rfl, rfl⟩
  | ok a => exact h a

theorem zsame_F (c : H.C) (x : BVE) : ZSame c (bvFH c x) (bvF (rootOf c) (H.size c) x) := by
  refine zsame_bind _ fun _ => ?_
  split
  · exact .inl ⟨_, rfl, rfl, rfl⟩
  · exact zsame_err _ _

theorem zsame_boolF (c : H.C) (b : BoolE) : ZSame c (boolFH c b) (boolF (rootOf c) (H.size c) b) :=
  zsame_bind _ fun _ => zsame_bind _ fun _ => zsame_bind _ fun _ => zsame_bind _ fun _ => .inl ⟨_, rfl, rfl, rfl⟩

theorem zsame_intF (c : H.C) (v : Int) : ZSame c (intFH c v) (intF (rootOf c) (H.size c) v) :=
  zsame_bind _ fun _ => zsame_bind _ fun _ => .inl ⟨_, rfl, rfl, rfl⟩

theorem rootOf_get (hH : H.Ok) {c : H.C} {u : H.U} (hu : H.unsized c = some u) (n : Nat) :
    rootOf (H.get u n) = rootOf c := by
  have := hH.get_unsized c u hu
  rw [rootOf, rootOf, hH.signed_get u n (H.size c), ← this]

theorem zsameU_of (hH : H.Ok) {u : H.U} {n : Nat} {r : PyM (ZInst H)} {s : PyM ZBV} (h : ZSame (H.get u n) r s) :
    ZSameU u r s := by
  rcases h with ⟨z, h1, h2, h3⟩ | h
  · exact .inl ⟨z, h1, by rw [h2, hH.size_get], h3⟩
  · exact .inr h

theorem zsameU_F (hH : H.Ok) {c : H.C} {u : H.U} (hu : H.unsized c = some u) (n : Nat) (x : BVE) :
    ZSameU u (bvFH (H.get u n) x) (bvF (rootOf c) n x) := by
  have h := zsame_F (H.get u n) x
  rw [rootOf_get hH hu, hH.size_get] at h
  exact zsameU_of hH h

theorem zsameU_zext (hH : H.Ok) {x : ZInst H} {u : H.U} (hu : H.unsized x.cls = some u) (k : Int) :
    ZSameU u (x.zext k) (x.plain.zext k) := by
  unfold ZInst.zext ZBV.zext
  split
  · exact .inr ⟨_, rfl, rfl⟩
  · rw [unsizedT_some hu, ok_bind']
    exact zsameU_F hH hu _ _

theorem zsameU_sext (hH : H.Ok) {x : ZInst H} {u : H.U} (hu : H.unsized x.cls = some u) (k : Int) :
    ZSameU u (x.sext k) (x.plain.sext k) := by
  unfold ZInst.sext ZBV.sext
  split
  · exact .inr ⟨_, rfl, rfl⟩
  · rw [unsizedT_some hu, ok_bind']
    exact zsameU_F hH hu _ _

theorem zsameU_slice (hH : H.Ok) {x : ZInst H} {u : H.U} (hu : H.unsized x.cls = some u) (s : PySlice) :
    ZSameU u (x.getSlice s) (x.plain.getSlice s) := by
  unfold ZInst.getSlice ZBV.getSlice
  dsimp only
  split
  · exact .inr ⟨_, rfl, rfl⟩
  · refine zsameU_bind (zExtract _ _ x.expr) fun v => ?_
    rw [unsizedT_some hu, ok_bind']
    exact zsameU_F hH hu _ v

theorem zplain_isSub (hH : H.Ok) {x y : ZInst H} {u : H.U} (hu : H.unsized x.cls = some u)
    (hy : H.isSubU y.cls u = true) : y.plain.root.isSub x.plain.root = true := by
  have h := hH.subU_signed y.cls u (H.size x.cls) hy
  rw [← hH.get_unsized _ _ hu] at h
  cases hx : H.signed x.cls <;> cases hy' : H.signed y.cls <;>
    simp [ZInst.plain, rootOf, Root.isSub, hx, hy'] at h ⊢

theorem zsameU_concat (hH : H.Ok) {x y : ZInst H} {u : H.U} (hu : H.unsized x.cls = some u)
    (hy : H.isSubU y.cls u = true) : ZSameU u (x.concat y) (x.plain.concat y.plain) := by
  have hp := zplain_isSub hH hu hy
  simp only [ZInst.concat, ZBV.concat, unsizedT_some hu, ok_bind', hy, hp, not_true_eq_false, if_false]
  exact zsameU_F hH hu _ _

theorem zsameU_elem (hH : H.Ok) {c : H.C} {u : H.U} (hu : H.unsized c = some u) (e : ZElem) :
    ZSameU u (mkElemH (H.get u 1) e) (mkElem (rootOf c) e) := by
  have hb (b : BoolE) := zsame_boolF (H.get u 1) b
  have hi (v : Int) := zsame_intF (H.get u 1) v
  simp only [rootOf_get hH hu, hH.size_get] at hb hi
  cases e with
  | bit b => exact zsameU_of hH (hb b)
  | bool b => exact zsameU_of hH (hi _)
  | int v => exact zsameU_of hH (hi v)

theorem zsub_of_cls (hH : H.Ok) {z : ZInst H} {u : H.U} (hz : z.cls = H.get u (H.size z.cls)) :
    H.isSubU z.cls u = true := by rw [hz]; exact hH.sub_get u _

theorem zunsized_of_cls (hH : H.Ok) {z : ZInst H} {u : H.U} (hz : z.cls = H.get u (H.size z.cls)) :
    H.unsized z.cls = some u := by rw [hz, hH.unsized_get]

theorem zsameU_elems (hH : H.Ok) {c : H.C} {u : H.U} (hu : H.unsized c = some u) :
    ∀ (l : List ZElem) (acc : ZInst H), acc.cls = H.get u (H.size acc.cls) →
      ZSameU u (concatElemsH (H.get u 1) acc l) (concatElems (rootOf c) acc.plain l)
  | [], acc, ha => .inl ⟨acc, rfl, ha, rfl⟩
  | e :: l, acc, ha => by
    unfold concatElemsH concatElems
    rcases zsameU_elem hH hu e with ⟨z, h1, h2, h3⟩ | ⟨er, h1, h2⟩
    swap
    · rw [h1, h2]; exact .inr ⟨er, rfl, rfl⟩
    rw [h1, h3, ok_bind', ok_bind']
    rcases zsameU_concat hH (zunsized_of_cls hH ha) (zsub_of_cls hH h2) with ⟨w, g1, g2, g3⟩ | ⟨er, g1, g2⟩
    swap
    · rw [g1, g2]; exact .inr ⟨er, rfl, rfl⟩
    rw [g1, g3, ok_bind', ok_bind']
    exact zsameU_elems hH hu l w g2

theorem zsame_assert (c : H.C) (x : BVE) :
    ZSame c (assertH c x) (if x.w = H.size c then pure ⟨rootOf c, H.size c, x⟩ else .error .assertionError) := by
  unfold assertH
  split
  · exact .inl ⟨_, rfl, rfl, rfl⟩
  · exact zsame_err _ _

theorem zsame_of_sameU {u : H.U} {c : H.C} {r : PyM (ZInst H)} {s : PyM ZBV} (h : ZSameU u r s) :
    ZSame c (do let y ← r; assertH c y.expr)
      (do let y ← s; if y.expr.w = H.size c then pure ⟨rootOf c, H.size c, y.expr⟩ else .error .assertionError) := by
  rcases h with ⟨z, rfl, _, rfl⟩ | ⟨e, rfl, rfl⟩
  · exact zsame_assert c z.expr
  · exact zsame_err _ _

theorem zsame_mk (hH : H.Ok) (c : H.C) (o : ZHObj H) (h : Conv c o) :
    ZSame c (mkZH c o) (mkZBV (rootOf c) (H.size c) o.plain) := by
  unfold mkZH mkZBV
  refine zsame_bind _ fun _ => ?_
  cases o with
  | int v => exact zsame_intF c v
  | bool b => exact zsame_intF c _
  | bit t => exact zsame_boolF c t
  | boolRef t => exact zsame_boolF c t
  | bvRef x => exact zsame_F c x
  | other i b => cases i with
    | none => exact zsame_err _ _
    | some v => exact zsame_intF c v
  | bv x =>
    simp only [ZHObj.plain]
    have hsz : (x.plain.size : Int) = x.size := rfl
    rw [hsz]
    split
    · rename_i hlt
      rcases h with h | h
      · exact absurd h (by have := show x.size = H.size x.cls from rfl; omega)
      · obtain ⟨u, hu⟩ := Option.isSome_iff_exists.mp h
        exact zsame_of_sameU (zsameU_slice hH hu _)
    · split
      · rcases h with h | h
        · exact absurd h (by have := show x.size = H.size x.cls from rfl; omega)
        · obtain ⟨u, hu⟩ := Option.isSome_iff_exists.mp h
          exact zsame_of_sameU (zsameU_zext hH hu _)
      · exact zsame_assert c x.expr
  | seq l =>
    obtain ⟨u, hu⟩ := Option.isSome_iff_exists.mp h
    simp only [ZHObj.plain]
    split
    · exact zsame_err _ _
    rw [unsizedT_some hu, ok_bind']
    cases l with
    | nil => exact zsame_err _ _
    | cons e l =>
      rcases zsameU_elem hH hu e with ⟨z, h1, h2, h3⟩ | ⟨er, h1, h2⟩
      swap
      · simp only [h1, h2]; exact zsame_err _ _
      simp only [h1, h3, ok_bind']
      exact zsame_of_sameU (zsameU_elems hH hu l z h2)

/-- **C138** (z3; partial: not for sequences given to a class derived from a sized one, nor for vectors of
such a class given to a class of another width) construction gives the expression of the predefined class. -/
theorem C138_z3_construct_partial (hH : H.Ok) (c : H.C) (o : ZHObj H) (h : Conv c o) :
    ZSame c (mkZH c o) (mkZBV (rootOf c) (H.size c) o.plain) := zsame_mk hH c o h

theorem lost_bind' {α β γ : Type} (m : PyM γ) {f : γ → PyM α} {g : γ → PyM β} (h : ∀ a, Lost (f a) (g a)) :
    Lost (m >>= f) (m >>= g) := by
  cases m with
  | error e => exact .inr ⟨e, rfl, rfl⟩
  | ok a => exact h a

theorem lost_map {α α' β β' : Type} {r : PyM α} {s : PyM α'} (h : Lost r s) (f : α → PyM β) (g : α' → PyM β') :
    Lost (r >>= f) (s >>= g) := by
  rcases h with rfl | ⟨e, rfl, rfl⟩
  · exact .inl rfl
  · exact .inr ⟨e, rfl, rfl⟩

theorem zlost_slice {x : ZInst H} (hu : H.unsized x.cls = none) (s : PySlice) :
    Lost (x.getSlice s) (x.plain.getSlice s) := by
  unfold ZInst.getSlice ZBV.getSlice
  dsimp only
  split
  · exact .inr ⟨_, rfl, rfl⟩
  · refine lost_bind' (zExtract _ _ x.expr) fun v => ?_
    rw [unsizedT_none hu]; exact .inl rfl

theorem zlost_zext {x : ZInst H} (hu : H.unsized x.cls = none) (k : Int) :
    Lost (x.zext k) (x.plain.zext k) := by
  unfold ZInst.zext ZBV.zext
  split
  · exact .inr ⟨_, rfl, rfl⟩
  · rw [unsizedT_none hu]; exact .inl rfl

theorem zlost_sext {x : ZInst H} (hu : H.unsized x.cls = none) (k : Int) :
    Lost (x.sext k) (x.plain.sext k) := by
  unfold ZInst.sext ZBV.sext
  split
  · exact .inr ⟨_, rfl, rfl⟩
  · rw [unsizedT_none hu]; exact .inl rfl

/-- **C138** (z3) the remaining conversions raise `AttributeError`, unless the plain one raises first. -/
theorem C138_z3_construct_raises (c : H.C) (o : ZHObj H) (h : ¬ Conv c o) :
    Lost (mkZH c o) (mkZBV (rootOf c) (H.size c) o.plain) := by
  unfold mkZH mkZBV
  refine lost_bind' _ fun _ => ?_
  cases o with
  | bv x =>
    simp only [Conv, not_or] at h
    have hu : H.unsized x.cls = none := by simpa using h.2
    have h1 := h.1
    simp only [ZHObj.plain]
    have hsz : (x.plain.size : Int) = x.size := rfl
    rw [hsz]
    split
    · exact lost_map (zlost_slice hu _) _ _
    · split
      · exact lost_map (zlost_zext hu _) _ _
      · exact absurd h1 (by have := show x.size = H.size x.cls from rfl; omega)
  | seq l =>
    have hu : H.unsized c = none := by simpa [Conv] using h
    simp only [ZHObj.plain]
    split
    · exact .inr ⟨_, rfl, rfl⟩
    · rw [unsizedT_none hu]; exact .inl rfl
  | _ => exact absurd trivial h

/-- Operands that need no conversion through an `unsized_t` which is not there. -/
def Opnd (c : H.C) : ZHObj H → Prop
  | .seq _ => (H.unsized c).isSome = true
  | _ => True

theorem zcoerce_cases (hH : H.Ok) (c : H.C) (o : ZHObj H) (h : Opnd c o) :
    (∃ y : ZInst H, zcoerceH c o = .ok y ∧ H.size y.cls = H.size c ∧ (o = .bv y ∨ y.cls = c) ∧
      zcoerce (rootOf c) (H.size c) o.plain = .ok y.plain) ∨
    ∃ e, zcoerceH c o = .error e ∧ zcoerce (rootOf c) (H.size c) o.plain = .error e := by
  have hm (o : ZHObj H) (hc : Conv c o) (e1 : zcoerceH c o = mkZH c o)
      (e2 : zcoerce (rootOf c) (H.size c) o.plain = mkZBV (rootOf c) (H.size c) o.plain) :
      (∃ y : ZInst H, zcoerceH c o = .ok y ∧ H.size y.cls = H.size c ∧ (o = .bv y ∨ y.cls = c) ∧
        zcoerce (rootOf c) (H.size c) o.plain = .ok y.plain) ∨
      ∃ e, zcoerceH c o = .error e ∧ zcoerce (rootOf c) (H.size c) o.plain = .error e := by
    rw [e1, e2]
    rcases zsame_mk hH c o hc with ⟨z, h1, h2, h3⟩ | h
    · exact .inl ⟨z, h1, by rw [h2], .inr h2, h3⟩
    · exact .inr h
  cases o with
  | bv y =>
    by_cases hs : H.size y.cls = H.size c
    · exact .inl ⟨y, by simp [zcoerceH, ZInst.size, hs], hs, .inl rfl, by simp [zcoerce, ZHObj.plain, ZInst.plain, hs]⟩
    · exact .inr ⟨.typeError, by simp [zcoerceH, ZInst.size, hs], by simp [zcoerce, ZHObj.plain, ZInst.plain, hs]⟩
  | seq l => exact hm (.seq l) h rfl rfl
  | int v => exact hm (.int v) trivial rfl rfl
  | bool b => exact hm (.bool b) trivial rfl rfl
  | bit t => exact hm (.bit t) trivial rfl rfl
  | boolRef t => exact hm (.boolRef t) trivial rfl rfl
  | bvRef t => exact hm (.bvRef t) trivial rfl rfl
  | other i b => exact hm (.other i b) trivial rfl rfl

theorem zsame_cast (hH : H.Ok) {x : ZInst H} {c : H.C} {o : ZHObj H} (ho : Opnd x.cls o)
    {f : ZInst H → PyM (ZInst H)} {g : ZBV → PyM ZBV} (h : ∀ y : ZInst H, ZSame c (f y) (g y.plain)) :
    ZSame c (x.cast o f) (x.plain.cast o.plain g) := by
  rcases zcoerce_cases hH x.cls o ho with ⟨y, e1, _, _, e2⟩ | ⟨e, e1, e2⟩
  · simp only [ZInst.cast, ZBV.cast, e1, show zcoerce x.plain.root x.plain.size o.plain = _ from e2]
    exact h y
  · simp only [ZInst.cast, ZBV.cast, e1, show zcoerce x.plain.root x.plain.size o.plain = _ from e2]
    exact zsame_err c e

theorem zcast_plain (hH : H.Ok) {α : Type} {x : ZInst H} {o : ZHObj H} (ho : Opnd x.cls o)
    {f : ZInst H → PyM α} {g : ZBV → PyM α} (h : ∀ y : ZInst H, f y = g y.plain) :
    x.cast o f = x.plain.cast o.plain g := by
  rcases zcoerce_cases hH x.cls o ho with ⟨y, e1, _, _, e2⟩ | ⟨e, e1, e2⟩
  · simp only [ZInst.cast, ZBV.cast, e1, show zcoerce x.plain.root x.plain.size o.plain = _ from e2]
    exact h y
  · simp only [ZInst.cast, ZBV.cast, e1, show zcoerce x.plain.root x.plain.size o.plain = _ from e2]
    rfl

theorem zsame_bin (hH : H.Ok) (op : BVE → BVE → PyM BVE) {x : ZInst H} {o : ZHObj H} (ho : Opnd x.cls o) :
    ZSame x.cls (x.bin op o) (x.plain.bin op o.plain) :=
  zsame_cast hH ho fun _ => zsame_bind _ fun v => zsame_F x.cls v

theorem zsame_nbin (hH : H.Ok) (op : BVE → BVE → PyM BVE) {x : ZInst H} {o : ZHObj H} (ho : Opnd x.cls o) :
    ZSame x.cls (x.nbin op o) (x.plain.nbin op o.plain) :=
  zsame_cast hH ho fun _ => zsame_bind _ fun _ => zsame_F x.cls _

/-! ## The predefined classes, methods by name -/

def plainU : UMeth → ZBV → PyM ZBV
  | .bvnot => ZBV.bvnot
  | .bvneg => ZBV.bvneg

def plainB : BMeth → ZBV → ZObj → PyM ZBV
  | .bvand => ZBV.bvand | .bvor => ZBV.bvor | .bvxor => ZBV.bvxor
  | .bvnand => ZBV.bvnand | .bvnor => ZBV.bvnor | .bvxnor => ZBV.bvxnor
  | .bvshl => ZBV.bvshl | .bvlshr => ZBV.bvlshr | .bvashr => ZBV.bvashr
  | .bvrol => ZBV.bvrol | .bvror => ZBV.bvror | .bvcomp => ZBV.bvcomp
  | .bvadd => ZBV.bvadd | .bvsub => ZBV.bvsub | .bvmul => ZBV.bvmul
  | .bvudiv => ZBV.bvudiv | .bvurem => ZBV.bvurem
  | .bvsdiv => ZBV.bvsdiv | .bvsrem => ZBV.bvsrem

def plainC : CMeth → ZBV → ZObj → PyM BoolE
  | .bveq => ZBV.bveq | .bvne => ZBV.bvne | .bvult => ZBV.bvult | .bvule => ZBV.bvule
  | .bvugt => ZBV.bvugt | .bvuge => ZBV.bvuge | .bvslt => ZBV.bvslt | .bvsle => ZBV.bvsle
  | .bvsgt => ZBV.bvsgt | .bvsge => ZBV.bvsge

/-- **C138** (z3; partial: no sequence operands on classes derived from a sized one, see
`C138_z3_operand_raises`) on instances of every class derived from a z3 vector class, the arithmetic,
bitwise, shift and rotation methods and `repeat` give the expression they give on the predefined class (or
raise its exception), in the class of `self`. -/
theorem C138_z3_methods_partial (hH : H.Ok) (x : ZInst H) {o : ZHObj H} (ho : Opnd x.cls o) :
    (∀ m : UMeth, ZSame x.cls (runU m x) (plainU m x.plain)) ∧
    (∀ m : BMeth, m ≠ .bvcomp → ZSame x.cls (runB m x o) (plainB m x.plain o.plain)) ∧
    (∀ k, ZSame x.cls (x.repeat_ k) (x.plain.repeat_ k)) := by
  refine ⟨fun m => ?_, fun m hm => ?_, fun k => zsame_bind _ fun v => zsame_F x.cls v⟩
  · cases m <;> exact zsame_F x.cls _
  cases m with
  | bvcomp => exact absurd rfl hm
  | bvnand => exact zsame_nbin hH _ ho
  | bvnor => exact zsame_nbin hH _ ho
  | bvxnor => exact zsame_nbin hH _ ho
  | _ => exact zsame_bin hH _ ho

theorem mkZBitH_plain (o : ZHObj H) : mkZBitH o = mkZBit o.plain := by
  cases o with
  | other i b => cases b <;> rfl
  | _ => rfl

theorem isBitLike_plain (o : ZHObj H) : ZInst.isBitLike o = ZBV.isBitLike o.plain := by cases o <;> rfl

theorem zsame_ite (b : BoolE) {t f : ZInst H} (h : t.cls = f.cls) :
    ZSame t.cls (iteZH b t f) (zIte b (.bv t.plain) (.bv f.plain)) := by
  have h1 : t.plain.root = f.plain.root ∧ t.plain.size = f.plain.size := by
    simp [ZInst.plain, h]
  simp only [iteZH, h, ne_eq, not_true_eq_false, if_false, zIte, h1, and_self, iteF]
  exact zsame_bind _ fun v => zsame_F f.cls v

/-- **C138** (z3) item assignment. -/
theorem C138_z3_setitem (hH : H.Ok) (x : ZInst H) (i : Int) (o : ZHObj H) :
    ZSame x.cls (x.setitem i o) (x.plain.setitem i o.plain) := by
  unfold ZInst.setitem ZBV.setitem
  rw [isBitLike_plain, mkZBitH_plain]
  split
  · exact zsame_err _ _
  simp only [show x.plain.size = x.size from rfl]
  generalize (if i < 0 then (x.size : Int) + i else i) = j
  split
  · exact zsame_err _ _
  refine zsame_bind _ fun one => ?_
  rcases zsame_mk hH x.cls (.int one) trivial with ⟨m, m1, m2, m3⟩ | ⟨e, m1, m2⟩
  swap
  · rw [m1, show mkZBV x.plain.root x.size (.int one) = _ from m2]; exact zsame_err _ _
  rw [m1, show mkZBV x.plain.root x.size (.int one) = _ from m3, ok_bind', ok_bind']
  refine zsame_bind _ fun b => ?_
  rcases zsame_bin hH zOr (x := x) (o := .bv m) trivial with ⟨t, t1, t2, t3⟩ | ⟨e, t1, t2⟩
  swap
  · rw [t1, show x.plain.bvor (.bv m.plain) = _ from t2]; exact zsame_err _ _
  rw [t1, show x.plain.bvor (.bv m.plain) = _ from t3, ok_bind', ok_bind']
  rcases zsame_F m.cls (zNot m.expr) with ⟨nm, n1, n2, n3⟩ | ⟨e, n1, n2⟩
  swap
  · rw [show m.bvnot = _ from n1, show m.plain.bvnot = _ from n2]; exact zsame_err _ _
  rw [show m.bvnot = _ from n1, show m.plain.bvnot = _ from n3, ok_bind', ok_bind']
  rcases zsame_bin hH zAnd (x := x) (o := .bv nm) trivial with ⟨f, f1, f2, f3⟩ | ⟨e, f1, f2⟩
  swap
  · rw [f1, show x.plain.bvand (.bv nm.plain) = _ from f2]; exact zsame_err _ _
  rw [f1, show x.plain.bvand (.bv nm.plain) = _ from f3, ok_bind', ok_bind']
  rcases zsame_ite b (t2.trans f2.symm) with ⟨r, r1, r2, r3⟩ | ⟨e, r1, r2⟩
  · rw [r1, r3, ok_bind', ok_bind']
    exact .inl ⟨⟨x.cls, r.expr⟩, rfl, rfl, rfl⟩
  · rw [r1, r2]; exact zsame_err _ _

/-- **C138** (z3; partial as above) the comparison methods give the same bits, and so does indexing. -/
theorem C138_z3_comparisons_partial (hH : H.Ok) (m : CMeth) (x : ZInst H) {o : ZHObj H} (ho : Opnd x.cls o) :
    runC m x o = plainC m x.plain o.plain := by
  cases m <;> exact zcast_plain hH ho fun y => rfl

theorem C138_z3_readings (x : ZInst H) (i : Int) : x.getIdx i = x.plain.getIdx i := rfl

/-- **C138** (z3) with a sequence as operand every binary method and comparison raises `AttributeError` on a
class derived from a sized one, unless the plain one raises first. -/
theorem C138_z3_operand_raises {x : ZInst H} (hu : H.unsized x.cls = none) (l : List ZElem) :
    (∀ m : BMeth, Lost (runB m x (.seq l)) (plainB m x.plain (.seq l))) ∧
    (∀ m : CMeth, Lost (runC m x (.seq l)) (plainC m x.plain (.seq l))) := by
  have hc {α β : Type} (f : ZInst H → PyM α) (g : ZBV → PyM β) :
      Lost (x.cast (.seq l) f) (x.plain.cast (.seq l) g) :=
    lost_map (C138_z3_construct_raises x.cls (.seq l) (by simp [Conv, hu])) f g
  constructor <;> intro m <;> cases m <;> exact hc _ _

/-! ## Structural methods -/

/-- The methods that return a vector of another width, by name. -/
inductive ZSMeth (H : Hier)
  | slice (s : PySlice)
  | zext (k : Int)
  | sext (k : Int)
  | comp (o : ZHObj H)

def runS (x : ZInst H) : ZSMeth H → PyM (ZInst H)
  | .slice s => x.getSlice s
  | .zext k => x.zext k
  | .sext k => x.sext k
  | .comp o => x.bvcomp o

def plainS (x : ZBV) : ZSMeth H → PyM ZBV
  | .slice s => x.getSlice s
  | .zext k => x.zext k
  | .sext k => x.sext k
  | .comp o => x.bvcomp o.plain

/-- **C138** (z3; partial: classes `U[n]`, `U` possibly user-defined) slices, extensions, `bvcomp` and
concatenations give the same expressions, in classes `U[m]`; `concat` refuses exactly the vectors that are
not instances of `U`. -/
theorem C138_z3_structure_partial (hH : H.Ok) {x : ZInst H} {u : H.U} (hu : H.unsized x.cls = some u) :
    (∀ m : ZSMeth H, ZSameU u (runS x m) (plainS x.plain m)) ∧
    (∀ y : ZInst H, H.isSubU y.cls u = true → ZSameU u (x.concat y) (x.plain.concat y.plain)) ∧
    (∀ y : ZInst H, H.isSubU y.cls u = false → x.concat y = .error .typeError) ∧
    (∀ o n, Conv (H.get u n) o → ∀ s, n = Option.getD s x.size →
      ZSameU u (x.makeConstant o s) (mkZBV x.plain.root n o.plain)) := by
  refine ⟨fun m => ?_, fun y hy => zsameU_concat hH hu hy, fun y hy => ?_, fun o n ho s hs => ?_⟩
  · cases m with
    | slice s => exact zsameU_slice hH hu s
    | zext k => exact zsameU_zext hH hu k
    | sext k => exact zsameU_sext hH hu k
    | comp o =>
      rcases zcoerce_cases hH x.cls o
        (by cases o <;> first | trivial | simp [Opnd, hu]) with ⟨y, e1, _, _, e2⟩ | ⟨e, e1, e2⟩
      · simp only [runS, plainS, ZInst.bvcomp, ZBV.bvcomp, ZInst.cast, ZBV.cast, e1,
          show zcoerce x.plain.root x.plain.size o.plain = _ from e2, unsizedT_some hu, ok_bind']
        refine zsameU_bind (zEq x.expr y.expr) fun t => ?_
        have h := zsame_boolF (H.get u 1) t
        rw [rootOf_get hH hu, hH.size_get] at h
        exact zsameU_of hH h
      · simp only [runS, plainS, ZInst.bvcomp, ZBV.bvcomp, ZInst.cast, ZBV.cast, e1,
          show zcoerce x.plain.root x.plain.size o.plain = _ from e2]
        exact .inr ⟨e, rfl, rfl⟩
  · simp [ZInst.concat, unsizedT_some hu, hy, ok_bind']
  · have h := zsame_mk hH (H.get u n) o ho
    rw [rootOf_get hH hu, hH.size_get] at h
    rw [ZInst.makeConstant, unsizedT_some hu, ok_bind', ← hs]
    exact zsameU_of hH h

/-- **C138** (z3) an instance of a class derived from a sized class has none of these methods: wherever the
plain vector returns a value, it raises `AttributeError`. -/
theorem C138_z3_sized_subclass_raises (hH : H.Ok) {x : ZInst H} (hu : H.unsized x.cls = none) :
    (∀ m : ZSMeth H, Lost (runS x m) (plainS x.plain m)) ∧
    (∀ y : ZInst H, x.concat y = .error .attributeError) ∧
    (∀ o s, x.makeConstant o s = .error .attributeError) := by
  refine ⟨fun m => ?_, fun y => by simp [ZInst.concat, unsizedT_none hu, err_bind'],
    fun o s => by simp [ZInst.makeConstant, unsizedT_none hu, err_bind']⟩
  cases m with
  | slice s => exact zlost_slice hu s
  | zext k => exact zlost_zext hu k
  | sext k => exact zlost_sext hu k
  | comp o =>
    by_cases ho : Opnd x.cls o
    · rcases zcoerce_cases hH x.cls o ho with ⟨y, e1, _, _, e2⟩ | ⟨e, e1, e2⟩
      · simp only [runS, plainS, ZInst.bvcomp, ZBV.bvcomp, ZInst.cast, ZBV.cast, e1,
          show zcoerce x.plain.root x.plain.size o.plain = _ from e2, unsizedT_none hu, ok_bind']
        exact .inl rfl
      · simp only [runS, plainS, ZInst.bvcomp, ZBV.bvcomp, ZInst.cast, ZBV.cast, e1,
          show zcoerce x.plain.root x.plain.size o.plain = _ from e2]
        exact .inr ⟨e, rfl, rfl⟩
    · cases o with
      | seq l => exact (C138_z3_operand_raises hu l).1 .bvcomp
      | _ => exact absurd trivial ho

/-! ## Addition with carry -/

/-- Not an instance of a class derived from a sized class. -/
def ZHObj.Plain : ZHObj H → Prop
  | .bv y => (H.unsized y.cls).isSome = true
  | _ => True

/-- The results of `adc`: same expressions, the vector in class `u[m]`. -/
def ZSameA (u : H.U) (r : PyM (ZInst H × BoolE)) (s : PyM (ZBV × BoolE)) : Prop :=
  (∃ (z : ZInst H) (t : BoolE), r = .ok (z, t) ∧ z.cls = H.get u (H.size z.cls) ∧ s = .ok (z.plain, t)) ∨
    ∃ e, r = .error e ∧ s = .error e

/-- **C138** (z3; partial: neither `self` nor the operands are of a class derived from a sized one): `adc`
returns the same sum, in class `U[n]`, and the same carry. -/
theorem C138_z3_adc_partial (hH : H.Ok) {x : ZInst H} {u : H.U} (hu : H.unsized x.cls = some u)
    {o c : ZHObj H} (ho : o.Plain) (hc : c.Plain) : ZSameA u (x.adc o c) (x.plain.adc o.plain c.plain) := by
  have hadd {a b : ZInst H} (ha : a.cls = H.get u (H.size a.cls)) :
      ZSameU u (a.bin zAdd (.bv b)) (a.plain.bvadd (.bv b.plain)) := by
    rcases zsame_bin hH zAdd (x := a) (o := .bv b) trivial with ⟨z, h1, h2, h3⟩ | h
    · exact .inl ⟨z, h1, by rw [h2]; exact ha, h3⟩
    · exact .inr h
  unfold ZInst.adc ZBV.adc
  rcases zcoerce_cases hH x.cls o (by cases o <;> first | trivial | simp [Opnd, hu]) with
    ⟨y, e1, hy, hy', e2⟩ | ⟨e, e1, e2⟩
  swap
  · rw [e1, show zcoerce x.plain.root x.plain.size o.plain = _ from e2]; exact .inr ⟨e, rfl, rfl⟩
  rw [e1, show zcoerce x.plain.root x.plain.size o.plain = _ from e2, unsizedT_some hu, ok_bind', ok_bind',
    ok_bind']
  have hc1 := zcoerce_cases hH (H.get u 1) c
    (by cases c <;> first | trivial | simp [Opnd, hH.unsized_get])
  rw [rootOf_get hH hu, hH.size_get] at hc1
  rcases hc1 with ⟨d, e3, _, hd, e4⟩ | ⟨e, e3, e4⟩
  swap
  · rw [e3, show zcoerce x.plain.root 1 c.plain = _ from e4]; exact .inr ⟨e, rfl, rfl⟩
  rw [e3, show zcoerce x.plain.root 1 c.plain = _ from e4, ok_bind', ok_bind']
  have hyu : ∃ w, H.unsized y.cls = some w := by
    rcases hy' with rfl | h
    · exact Option.isSome_iff_exists.mp ho
    · exact ⟨u, by rw [h, hu]⟩
  have hdu : ∃ w, H.unsized d.cls = some w := by
    rcases hd with rfl | h
    · exact Option.isSome_iff_exists.mp hc
    · exact ⟨u, by rw [h, hH.unsized_get]⟩
  obtain ⟨w, hw⟩ := hyu
  obtain ⟨w', hw'⟩ := hdu
  rcases zsameU_zext hH hu 1 with ⟨a, a1, a2, a3⟩ | ⟨e, a1, a2⟩
  swap
  · rw [a1, a2]; exact .inr ⟨e, rfl, rfl⟩
  rcases zsameU_zext hH hw 1 with ⟨b, b1, b2, b3⟩ | ⟨e, b1, b2⟩
  swap
  · rw [a1, a3, b1, b2]; exact .inr ⟨e, rfl, rfl⟩
  rcases zsameU_zext hH hw' x.size with ⟨g, g1, g2, g3⟩ | ⟨e, g1, g2⟩
  swap
  · rw [a1, a3, b1, b3, g1, show d.plain.zext x.plain.size = _ from g2]; exact .inr ⟨e, rfl, rfl⟩
  rw [a1, a3, b1, b3, g1, show d.plain.zext x.plain.size = _ from g3]
  simp only [ok_bind']
  rcases hadd (b := b) a2 with ⟨r, r1, r2, r3⟩ | ⟨e, r1, r2⟩
  swap
  · rw [r1, r2]; exact .inr ⟨e, rfl, rfl⟩
  rw [r1, r3]
  simp only [ok_bind']
  rcases hadd (b := g) r2 with ⟨s, s1, s2, s3⟩ | ⟨e, s1, s2⟩
  swap
  · rw [s1, s2]; exact .inr ⟨e, rfl, rfl⟩
  rw [s1, s3]
  simp only [ok_bind']
  rcases zsameU_slice hH (zunsized_of_cls hH s2) ⟨some 0, some (-1), none⟩ with ⟨t, t1, t2, t3⟩ | ⟨e, t1, t2⟩
  swap
  · rw [t1, t2]; exact .inr ⟨e, rfl, rfl⟩
  rw [t1, t3, show s.plain.getIdx (-1) = s.getIdx (-1) from rfl]
  simp only [ok_bind']
  cases s.getIdx (-1) with
  | error e => exact .inr ⟨e, rfl, rfl⟩
  | ok v => exact .inl ⟨t, v, rfl, t2, rfl⟩

/-- **C138** (z3) `adc` on an instance of a class derived from a sized class, or with such a second summand,
never returns. -/
theorem C138_z3_adc_raises {x : ZInst H} {o c : ZHObj H}
    (h : H.unsized x.cls = none ∨ (∃ y : ZInst H, o = .bv y ∧ H.unsized y.cls = none)) :
    ∀ r, x.adc o c ≠ .ok r := by
  intro r hr
  unfold ZInst.adc at hr
  cases e1 : zcoerceH x.cls o with
  | error e => rw [e1] at hr; cases hr
  | ok y =>
    rw [e1, ok_bind'] at hr
    cases e2 : H.unsized x.cls with
    | none => rw [unsizedT_none e2] at hr; cases hr
    | some u =>
      rcases h with h | ⟨z, rfl, hz⟩
      · rw [h] at e2; cases e2
      have : y = z := by
        simp only [zcoerceH] at e1
        split at e1
        · cases e1
        · cases e1; rfl
      subst this
      have hb : y.zext 1 = .error .attributeError := by
        simp [ZInst.zext, unsizedT_none hz, err_bind']
      rw [unsizedT_some e2, ok_bind', hb] at hr
      cases e3 : zcoerceH (H.get u 1) c with
      | error e => rw [e3] at hr; cases hr
      | ok d =>
        rw [e3, ok_bind'] at hr
        cases e4 : x.zext 1 with
        | error e => rw [e4] at hr; cases hr
        | ok a => rw [e4] at hr; cases hr

/-! ## Operators -/

/-- The vector stands for the number `X` under the assignment `e`; its expression has the sort of its class,
which is not empty. -/
def Means (e : Env) (x : ZInst H) (X : Int) : Prop :=
  0 < H.size x.cls ∧ ∃ d : Env → BitVec (H.size x.cls), x.expr = ⟨H.size x.cls, d⟩ ∧ X = (d e).toNat

/-- The object stands for the number `X`, as an operand of width `n`. -/
def MeansObj (e : Env) (n : Nat) (o : ZHObj H) (X : Int) : Prop :=
  ∃ O : Obj, DenObj e o.plain O ∧ o.plain.Fits n ∧ operand n O = .ok X

/-- The concrete vector of the predefined class. -/
def conc (x : ZInst H) (X : Int) : BVal := ⟨HW.Der.kindOf x.cls, H.size x.cls, X⟩

theorem means_den {e : Env} {x : ZInst H} {X : Int} : Means e x X ↔ Den e x.plain (conc x X) := by
  constructor
  · rintro ⟨h0, h⟩; exact ⟨rfl, rfl, h0, h⟩
  · rintro ⟨_, _, h0, h⟩; exact ⟨h0, h⟩

theorem means_obj {e : Env} {n : Nat} {y : ZInst H} {Y : Int} (hy : Means e y Y) (hs : H.size y.cls = n) :
    MeansObj e n (.bv y) Y :=
  ⟨.bv (conc y Y), .bv (means_den.mp hy), trivial, by simp [operand, conc, hs]⟩

theorem decide_rootOf (c : H.C) : decide (rootOf c = .sint) = H.signed c := by
  cases h : H.signed c <;> simp [rootOf, h]

theorem plainB_meth (op : AOp) (c : H.C) : plainB (meth op (H.signed c)) = zA op (rootOf c) := by
  cases h : H.signed c <;> simp only [rootOf, h] <;> cases op <;> rfl

theorem plainC_meth (op : COp) (c : H.C) : plainC (methC op (H.signed c)) = zC op (rootOf c) := by
  cases h : H.signed c <;> simp only [rootOf, h] <;> cases op <;> rfl

theorem meth_ne (op : AOp) (s : Bool) : meth op s ≠ .bvcomp := by cases s <;> cases op <;> nofun

/-- **C138** (z3) `x op o`: under every assignment the value is that of the reference operation of the class
of `x` (its signedness decides, whatever the right operand; `//` of signed classes is
`C138_z3_sdiv`), and the result has the class of `x`.  No operand is converted through a class that is
not there (`Opnd`). -/
theorem C138_z3_operators_partial (hH : H.Ok) {e : Env} {x : ZInst H} {X : Int} (hx : Means e x X)
    {o : ZHObj H} (ho : Opnd x.cls o) {b : Int} (hb : MeansObj e (H.size x.cls) o b) :
    ∀ op, ¬ (H.signed x.cls = true ∧ op = .fdiv) → ∃ z, opV op x o = .ok z ∧ z.cls = x.cls ∧
      Means e z (refA (H.signed x.cls) op (H.size x.cls) X b) := by
  intro op hop
  obtain ⟨O, hO, hf, hopd⟩ := hb
  have key := zA_ref op (means_den.mp hx) hO hf (by
    rintro ⟨h1, h2⟩
    refine hop ⟨?_, h2⟩
    rw [← decide_rootOf]
    exact decide_eq_true h1)
  rw [show (conc x X).size = H.size x.cls from rfl, hopd] at key
  rw [show x.plain.root = rootOf x.cls from rfl, ← plainB_meth, decide_rootOf] at key
  rcases (C138_z3_methods_partial hH x ho).2.1 _ (meth_ne op (H.signed x.cls)) with ⟨z, h1, h2, h3⟩ | ⟨er, _, h3⟩
  · rw [h3] at key
    exact ⟨z, h1, h2, key.2.2⟩
  · rw [h3] at key; cases key

/-- **C138** (z3) `//` of a signed class is the SMT-LIB division, as in C93. -/
theorem C138_z3_sdiv (hH : H.Ok) {e : Env} {x y : ZInst H} {X Y : Int} (hx : Means e x X) (hy : Means e y Y)
    (hs : H.size y.cls = H.size x.cls) (hsx : H.signed x.cls = true) :
    ∃ z, opV .fdiv x (.bv y) = .ok z ∧ z.cls = x.cls ∧
      Means e z (wrap (H.size x.cls) (smtSdiv (signed (H.size x.cls) X) (signed (H.size x.cls) Y))) := by
  have key := C93_sdiv_is_smtlib (means_den.mp hx) (means_den.mp hy) hs
  rcases (C138_z3_methods_partial hH x (o := .bv y) trivial).2.1 .bvsdiv nofun with ⟨z, h1, h2, h3⟩ | ⟨er, _, h3⟩
  · rw [show x.plain.bvsdiv (.bv y.plain) = _ from h3] at key
    exact ⟨z, by rw [opV, hsx]; exact h1, h2, key.2.2⟩
  · rw [show x.plain.bvsdiv (.bv y.plain) = _ from h3] at key; cases key

/-- Signedness of a comparison of two vectors: signed if the left class is, or if the right one is a signed
proper subclass of the left one. -/
def zsignedVV (x y : ZInst H) : Bool := H.signed x.cls || (H.isSub y.cls x.cls && H.signed y.cls)

theorem zsignedVV_eq (x y : ZInst H) : zsignedVV x y = (H.signed x.cls || (properSub y x && H.signed y.cls)) := by
  unfold zsignedVV properSub
  by_cases h : y.cls = x.cls
  · cases hs : H.signed x.cls <;> simp [h, hs]
  · rw [show (y.cls != x.cls) = true from bne_iff_ne.mpr h, Bool.true_and]

theorem runC_sem (hH : H.Ok) (op : COp) {e : Env} {x : ZInst H} {X : Int} (hx : Means e x X)
    {o : ZHObj H} (ho : Opnd x.cls o) {b : Int} (hb : MeansObj e (H.size x.cls) o b) :
    ∃ t, cmpVO op x o = .ok t ∧ DenBit e t (refC (H.signed x.cls) op (H.size x.cls) X b) := by
  obtain ⟨O, hO, hf, hopd⟩ := hb
  have key := zC_ref op (means_den.mp hx) hO hf
  rw [show (conc x X).size = H.size x.cls from rfl, hopd, show x.plain.root = rootOf x.cls from rfl,
    ← plainC_meth, decide_rootOf, ← C138_z3_comparisons_partial hH _ x ho] at key
  unfold cmpVO
  cases h : runC (methC op (H.signed x.cls)) x o with
  | error er => rw [h] at key; cases key
  | ok t => rw [h] at key; exact ⟨t, rfl, key⟩

/-- **C138** (z3) comparisons of two vectors of any classes, and of a vector and another object. -/
theorem C138_z3_compare (hH : H.Ok) {e : Env} {x : ZInst H} {X : Int} (hx : Means e x X) :
    (∀ (y : ZInst H) (Y : Int), Means e y Y → H.size y.cls = H.size x.cls → ∀ op, ∃ t, cmpVV op x y = .ok t ∧
      DenBit e t (refC (zsignedVV x y) op (H.size x.cls) X Y)) ∧
    (∀ (o : ZHObj H) (b : Int), Opnd x.cls o → MeansObj e (H.size x.cls) o b → ∀ op, ∃ t, cmpVO op x o = .ok t ∧
      DenBit e t (refC (H.signed x.cls) op (H.size x.cls) X b)) := by
  refine ⟨fun y Y hy hs op => ?_, fun o b ho hb op => runC_sem hH op hx ho hb⟩
  unfold cmpVV
  cases hp : properSub y x
  · obtain ⟨t, h1, h2⟩ := runC_sem hH op hx (o := .bv y) trivial (means_obj hy hs)
    exact ⟨t, h1, by simpa [zsignedVV_eq, hp] using h2⟩
  · obtain ⟨t, h1, h2⟩ := runC_sem hH op.swap hy (o := .bv x) trivial (means_obj hx hs.symm)
    refine ⟨t, h1, ?_⟩
    rw [refC_swap, hs] at h2
    simp only [zsignedVV_eq, hp, Bool.true_and]
    cases hx' : H.signed x.cls
    · simpa using h2
    · simp only [properSub, Bool.and_eq_true] at hp
      rw [hH.sub_signed _ _ hp.2 hx'] at h2
      simpa using h2

/-- **C138** (z3) operators between vectors of different widths raise `TypeError`. -/
theorem C138_z3_operators_widths (hH : H.Ok) {x y : ZInst H} (hs : H.size y.cls ≠ H.size x.cls) :
    (∀ op, opV op x (.bv y) = .error .typeError) ∧ (∀ op, cmpVV op x y = .error .typeError) := by
  have hp : properSub y x = false := by
    cases h : properSub y x
    · rfl
    · simp only [properSub, Bool.and_eq_true] at h
      exact absurd (hH.sub_size _ _ h.2) hs
  have hc {α : Type} (f : ZInst H → PyM α) : x.cast (.bv y) f = .error .typeError := by
    simp [ZInst.cast, zcoerceH, ZInst.size, hs, err_bind']
  constructor
  · intro op
    unfold opV
    cases H.signed x.cls <;> cases op <;> exact hc _
  · intro op
    simp only [cmpVV, hp, Bool.false_eq_true, if_false]
    cases H.signed x.cls <;> cases op <;> exact hc _

/-! ## `ite` -/

/-- **C138** (z3) `ite` on two vectors of one class, whatever the class, returns a vector of that class
standing for the selected value; on vectors of different classes it raises `TypeError`.  With another
object on one side the class is that of the vector. -/
theorem C138_z3_ite (hH : H.Ok) {e : Env} {c : BoolE} {b : Bool} (hb : DenBit e c b) {t : ZInst H} {X : Int}
    (ht : Means e t X) :
    (∀ (f : ZInst H) (Y : Int), Means e f Y →
      (t.cls = f.cls → ∃ z, iteZH c t f = .ok z ∧ z.cls = t.cls ∧ Means e z (if b then X else Y)) ∧
      (t.cls ≠ f.cls → iteZH c t f = .error .typeError)) ∧
    (∀ (o : ZHObj H) (Y : Int), Opnd t.cls o → (∀ y, o ≠ .bv y) → MeansObj e (H.size t.cls) o Y →
      (∃ z, iteVO c t o = .ok z ∧ z.cls = t.cls ∧ Means e z (if b then X else Y)) ∧
      (∃ z, iteOV c o t = .ok z ∧ z.cls = t.cls ∧ Means e z (if b then Y else X))) := by
  have key {b : Bool} {C : BoolE} (hb : C e = b) {t f : ZInst H} {X Y : Int} (ht : Means e t X) (hf : Means e f Y)
      (h : t.cls = f.cls) :
      ∃ z, (do bvFH t.cls (← zIf C t.expr f.expr)) = .ok z ∧ z.cls = t.cls ∧ Means e z (if b then X else Y) := by
    obtain ⟨tc, tx⟩ := t
    obtain ⟨fc, fx⟩ := f
    obtain ⟨hn, d, hd, rfl⟩ := ht
    obtain ⟨_, d', hd', rfl⟩ := hf
    dsimp only at h hn d hd d' hd' ⊢
    subst h hd hd'
    refine ⟨⟨tc, ⟨H.size tc, fun e => if C e then d e else d' e⟩⟩, ?_, rfl, hn, _, rfl, ?_⟩
    · simp [zIf, bvFH, bitVecSort, Nat.pos_iff_ne_zero.mp hn, ok_bind']; rfl
    · dsimp only
      rw [hb]
      cases b <;> rfl
  refine ⟨fun f Y hf => ⟨fun h => ?_, fun h => by simp [iteZH, h]⟩, fun o Y ho hno hY => ?_⟩
  · obtain ⟨z, h1, h2, h3⟩ := key hb ht hf h
    exact ⟨z, by rw [iteZH, if_neg (not_not_intro h)]; exact h1, h2, h3⟩
  · obtain ⟨O, hO, hfit, hopd⟩ := hY
    have hc : ∃ y : ZInst H, mkZH t.cls o = .ok y ∧ y.cls = t.cls ∧ Means e y Y := by
      have hk := zoperand_rel (rootOf t.cls) ht.1 hO hfit
      rw [hopd] at hk
      have heq : zcoerceH t.cls o = mkZH t.cls o := by
        cases o with
        | bv y => exact absurd rfl (hno y)
        | _ => rfl
      rcases zcoerce_cases hH t.cls o ho with ⟨y, h1, _, h2, h3⟩ | ⟨er, _, h3⟩
      · rw [h3] at hk
        have h4 : y.cls = t.cls := by
          rcases h2 with rfl | h
          · exact absurd rfl (hno y)
          · exact h
        obtain ⟨d, hd, hv⟩ := hk
        refine ⟨y, heq ▸ h1, h4, ?_⟩
        unfold Means
        rw [h4]
        exact ⟨ht.1, d, hd, hv.symm⟩
      · rw [h3] at hk; cases hk
    obtain ⟨y, h1, h2, h3⟩ := hc
    constructor
    · obtain ⟨z, g1, g2, g3⟩ := key hb ht h3 h2.symm
      exact ⟨z, by rw [iteVO, h1, ok_bind']; exact g1, g2, g3⟩
    · obtain ⟨z, g1, g2, g3⟩ := key hb h3 ht h2
      exact ⟨z, by rw [iteOV, h1, ok_bind', ← h2]; exact g1, g2.trans h2, g3⟩

/-! ## Examples and refutations -/

/-- `x : Word`, with `class Word(z3BitVector[8])`. -/
def wordX : ZInst exH := ⟨.word 8, ⟨8, fun e => e.bv ['x'] 8⟩⟩
/-- `y` of class `c`. -/
def vecY (c : ExC) : ZInst exH := ⟨c, ⟨8, fun e => e.bv ['y'] 8⟩⟩

/-- Every vector is 200. -/
def zEnv200 : Env := ⟨fun _ => false, fun _ w => BitVec.ofNat w 200⟩

theorem wordX_means : Means zEnv200 wordX 200 := ⟨by decide, _, rfl, rfl⟩
theorem vecY_means (u : ExU) : Means zEnv200 (vecY (.get u 8)) 200 := ⟨show 0 < 8 by decide, _, rfl, rfl⟩

example := C138_z3_construct_partial exH_ok (c := ExC.word 8) (o := .int 300) trivial
example := C138_z3_construct_raises (H := exH) (ExC.get .bv 16) (.bv wordX) (by simp [Conv, wordX, exH])
example := C138_z3_methods_partial exH_ok wordX (o := .bv (vecY (.get .foo 8))) trivial
example := C138_z3_setitem exH_ok wordX 3 (.bool true)
example := C138_z3_comparisons_partial exH_ok .bvslt wordX (o := .int 5) trivial
example := C138_z3_operand_raises (x := wordX) rfl [.bool true]
example := C138_z3_structure_partial exH_ok (x := vecY (.get .foo 8)) (u := .foo) rfl
example := C138_z3_sized_subclass_raises exH_ok (x := wordX) rfl
example := C138_z3_adc_partial exH_ok (x := vecY (.get .foo 8)) (u := .foo) rfl
  (o := .bv (vecY (.get .bv 8))) (c := .int 1) rfl trivial
example := C138_z3_adc_raises (x := vecY (.get .foo 8)) (o := .bv wordX) (c := .int 1) (.inr ⟨_, rfl, rfl⟩)
example := C138_z3_operators_partial exH_ok wordX_means (o := .bv (vecY (.get .sint 8))) trivial
  (means_obj (vecY_means .sint) rfl) .shr (by rintro ⟨h, _⟩; cases h)
example := C138_z3_operators_partial exH_ok wordX_means (o := .int 300) trivial (b := 44) ⟨_, .int, trivial, rfl⟩
  .add (by rintro ⟨h, _⟩; cases h)
example := C138_z3_sdiv exH_ok (vecY_means .sint) wordX_means rfl rfl
example := (C138_z3_compare exH_ok wordX_means).1 _ _ (vecY_means .sint) rfl .lt
example := C138_z3_operators_widths exH_ok (x := wordX) (y := ⟨.get .bv 9, ⟨9, fun e => e.bv ['z'] 9⟩⟩)
  (show (9 : Nat) ≠ 8 by decide)
example := ((C138_z3_ite exH_ok (c := fun e => e.bool ['c']) (b := false) (e := zEnv200) rfl wordX_means).1 _ _
  (vecY_means .bv)).2 (by decide)
example := (C138_z3_ite exH_ok (c := fun e => e.bool ['c']) (b := false) (e := zEnv200) rfl wordX_means).2
  (.int 300) 44 trivial nofun ⟨_, .int, trivial, rfl⟩

/-- **C138 refuted** (z3; witness): with `class Word(z3BitVector[8])`, the slice `x[0:4]` of `x : Word` raises
`AttributeError` though the plain vector has one. -/
theorem C138_z3_refuted :
    ¬ ∀ (H : Hier), H.Ok → ∀ (x : ZInst H) (m : ZSMeth H), x.expr.w = H.size x.cls →
      (∃ z, runS x m = .ok z) ∨ ∃ e, plainS x.plain m = .error e := by
  intro h
  rcases h exH exH_ok wordX (.slice ⟨some 0, some 4, none⟩) rfl with ⟨z, hz⟩ | ⟨e, he⟩
  · cases hz
  · cases he

/-- **C138 refuted** (z3; witness): `z3BitVector[16](x)` with `x : Word` raises `AttributeError`. -/
theorem C138_z3_convert_refuted : mkZH (H := exH) (ExC.get .bv 16) (.bv wordX) = .error .attributeError := rfl

end HW.Z3.Der
