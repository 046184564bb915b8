import Verif.Model.Derived
import Verif.Props.Operators

/-!
# Vectors of user-defined classes (C131)
-/

namespace HW.Der
open Spec

variable {H : Hier}

/-- The predefined class whose behaviour the class inherits. -/
def kindOf (c : H.C) : Kind := .root (if H.signed c then .sint else .bv)

/-- The vector of the predefined class with the same width and value. -/
def Inst.plain (x : Inst H) : BVal := ⟨kindOf x.cls, H.size x.cls, x.value⟩

def HObj.plain : HObj H → Obj
  | .int v => .int v
  | .bool b => .bool b
  | .bit b => .bit b
  | .bv x => .bv x.plain
  | .seq l => .seq l
  | .other i b => .other i b

/-- A result `r` of class `c` that stands for the plain result `s`. -/
def Same (c : H.C) (r : PyM (Inst H)) (s : PyM BVal) : Prop :=
  (∃ z : Inst H, r = .ok z ∧ z.cls = c ∧ s = .ok z.plain) ∨ ∃ e, r = .error e ∧ s = .error e

theorem same_mk (c : H.C) (o : HObj H) : Same c (mkH c o) (mkBV (kindOf c) (H.size c) o.plain) := by
  cases o with
  | other i b => cases i with
    | none => exact .inr ⟨_, rfl, rfl⟩
    | some v => exact .inl ⟨_, rfl, rfl, rfl⟩
  | _ => exact .inl ⟨_, rfl, rfl, rfl⟩

theorem coerce_cases (c : H.C) (o : HObj H) :
    (∃ y : Inst H, coerceH c o = .ok y ∧ H.size y.cls = H.size c ∧
      coerce (kindOf c) (H.size c) o.plain = .ok y.plain) ∨
    ∃ e, coerceH c o = .error e ∧ coerce (kindOf c) (H.size c) o.plain = .error e := by
  cases o with
  | bv y =>
    by_cases h : H.size y.cls = H.size c
    · exact .inl ⟨y, by simp [coerceH, h], h, by simp [coerce, HObj.plain, Inst.plain, h]⟩
    · exact .inr ⟨_, by simp [coerceH, h]; rfl, by simp [coerce, HObj.plain, Inst.plain, h]⟩
  | other i b => cases i with
    | none => exact .inr ⟨_, rfl, rfl⟩
    | some v => exact .inl ⟨_, rfl, rfl, rfl⟩
  | _ => exact .inl ⟨_, rfl, rfl, rfl⟩

theorem asSint_plain (x : Inst H) : x.asSint = x.plain.asSint := rfl

/-- The binary methods that stay within the class of `self`. -/
def inClass : BMeth → Bool
  | .bvrol | .bvror | .bvcomp => false
  | _ => true

theorem same_mk' (x : Inst H) (v : Int) : Same x.cls (x.mk' v) (x.plain.mk' v) := same_mk x.cls (.int v)

theorem same_err (c : H.C) (e : PyErr) : Same c (.error e) (.error e) := .inr ⟨e, rfl, rfl⟩

theorem same_bind {α : Type} {c : H.C} (m : PyM α) {f : α → PyM (Inst H)} {g : α → PyM BVal}
    (h : ∀ a, Same c (f a) (g a)) : Same c (m >>= f) (m >>= g) := by
  cases m with
  | error e => exact same_err c e
  | ok a => exact h a

theorem same_cast {x : Inst H} {c : H.C} (o : HObj H) {f : Inst H → PyM (Inst H)} {g : BVal → PyM BVal}
    (h : ∀ y : Inst H, H.size y.cls = H.size x.cls → Same c (f y) (g y.plain)) :
    Same c (x.cast o f) (x.plain.cast o.plain g) := by
  rcases coerce_cases x.cls o with ⟨y, e1, hs, e2⟩ | ⟨e, e1, e2⟩
  · simp only [Inst.cast, BVal.cast, e1, show coerce x.plain.kind x.plain.size o.plain = _ from e2]
    exact h y hs
  · simp only [Inst.cast, BVal.cast, e1, show coerce x.plain.kind x.plain.size o.plain = _ from e2]
    exact same_err c e

theorem same_not {x : Inst H} {r : PyM (Inst H)} {s : PyM BVal} (h : Same x.cls r s) :
    Same x.cls (r >>= Inst.bvnot) (s >>= BVal.bvnot) := by
  rcases h with ⟨z, rfl, hc, rfl⟩ | ⟨e, rfl, rfl⟩
  · rw [← hc]; exact same_mk' z _
  · exact same_err _ e

/-- **C131** for every class derived from a vector class, the arithmetic and bitwise methods compute
what they compute on the predefined class (same value, or same exception), and the result belongs to
the class of `self`. -/
theorem C131_methods (x : Inst H) (o : HObj H) :
    (∀ m : UMeth, Same x.cls (runU m x) (m.run x.plain)) ∧
    (∀ m : BMeth, inClass m = true → Same x.cls (runB m x o) (m.run x.plain o.plain)) := by
  constructor
  · intro m; cases m <;> exact same_mk' x _
  intro m hm
  have hand : Same x.cls (x.bvand o) (x.plain.bvand o.plain) := same_cast o fun y _ => same_mk' x _
  have hor : Same x.cls (x.bvor o) (x.plain.bvor o.plain) := same_cast o fun y _ => same_mk' x _
  have hxor : Same x.cls (x.bvxor o) (x.plain.bvxor o.plain) := same_cast o fun y _ => same_mk' x _
  cases m with
  | bvand => exact hand
  | bvor => exact hor
  | bvxor => exact hxor
  | bvnand => exact same_not hand
  | bvnor => exact same_not hor
  | bvxnor => exact same_not hxor
  | bvshl => exact same_cast o fun y _ => same_bind _ fun v => same_mk' x _
  | bvlshr => exact same_cast o fun y _ => same_bind _ fun v => same_mk' x _
  | bvashr => exact same_cast o fun y _ => same_bind x.asSint fun v => same_bind _ fun w => same_mk' x _
  | bvrol => cases hm
  | bvror => cases hm
  | bvcomp => cases hm
  | bvadd => exact same_cast o fun y _ => same_mk' x _
  | bvsub => exact same_cast o fun y _ => same_mk' x _
  | bvmul => exact same_cast o fun y _ => same_mk' x _
  | bvudiv =>
    refine same_cast o fun y _ => ?_
    simp only [show y.plain.asUint = y.asUint from rfl]
    split
    · exact same_mk' x _
    · exact same_bind _ fun v => same_mk' x _
  | bvurem =>
    refine same_cast o fun y _ => ?_
    simp only [show y.plain.asUint = y.asUint from rfl]
    split
    · exact .inl ⟨x, rfl, rfl, rfl⟩
    · exact same_bind _ fun v => same_mk' x _
  | bvsdiv =>
    refine same_cast o fun y _ => same_bind y.asSint fun v => ?_
    split
    · exact same_mk' x _
    · exact same_bind x.asSint fun w => same_bind _ fun v => same_mk' x _
  | bvsrem =>
    refine same_cast o fun y _ => same_bind y.asSint fun v => ?_
    split
    · exact .inl ⟨x, rfl, rfl, rfl⟩
    · exact same_bind x.asSint fun w => same_bind _ fun v => same_mk' x _

theorem cast_plain {x : Inst H} (o : HObj H) {f : Inst H → PyM Bool} {g : BVal → PyM Bool}
    (h : ∀ y : Inst H, f y = g y.plain) : x.cast o f = x.plain.cast o.plain g := by
  rcases coerce_cases x.cls o with ⟨y, e1, hs, e2⟩ | ⟨e, e1, e2⟩
  · simp only [Inst.cast, BVal.cast, e1, show coerce x.plain.kind x.plain.size o.plain = _ from e2]
    exact h y
  · simp only [Inst.cast, BVal.cast, e1, show coerce x.plain.kind x.plain.size o.plain = _ from e2]
    rfl

/-- **C131** the comparison methods give the same bits. -/
theorem C131_comparisons (m : CMeth) (x : Inst H) (o : HObj H) :
    runC m x o = m.run x.plain o.plain := by
  have hlt : x.bvslt o = x.plain.bvslt o.plain := cast_plain o fun y => rfl
  have heq : x.bveq o = x.plain.bveq o.plain := cast_plain o fun y => rfl
  cases m with
  | bveq => exact heq
  | bvslt => exact hlt
  | bvsle => simp only [runC, CMeth.run, Inst.bvsle, BVal.bvsle, hlt, heq]
  | bvsgt => simp only [runC, CMeth.run, Inst.bvsgt, BVal.bvsgt, Inst.bvsle, BVal.bvsle, hlt, heq]
  | bvsge => simp only [runC, CMeth.run, Inst.bvsge, BVal.bvsge, hlt]
  | _ => exact cast_plain o fun y => rfl

/-- **C131** so do the readings. -/
theorem C131_readings (x : Inst H) (i : Int) :
    x.asSint = x.plain.asSint ∧ x.toInt = x.plain.toInt ∧ x.toBool = x.plain.toBool ∧
    x.getIdx i = x.plain.getIdx i ∧ x.asBoolList = x.plain.asBoolList ∧
    x.binaryString = x.plain.binaryString := by
  have : x.toInt = x.plain.toInt := by
    cases h : H.signed x.cls <;> simp [Inst.toInt, BVal.toInt, Inst.plain, kindOf, Kind.base, h] <;> rfl
  exact ⟨rfl, this, by simp only [Inst.toBool, BVal.toBool, this], rfl, rfl, rfl⟩

/-! ## Structural methods -/

/-- A result of class `u[m]`, `m` its width, that stands for the plain result `s`. -/
def SameU (u : H.U) (r : PyM (Inst H)) (s : PyM BVal) : Prop :=
  (∃ z : Inst H, r = .ok z ∧ z.cls = H.get u (H.size z.cls) ∧ s = .ok z.plain) ∨
    ∃ e, r = .error e ∧ s = .error e

/-- `AttributeError`, unless the plain call raises an exception of its own first. -/
def Lost {α β : Type} (r : PyM α) (s : PyM β) : Prop :=
  r = .error .attributeError ∨ ∃ e, r = .error e ∧ s = .error e

theorem kindOf_get (hH : H.Ok) {c : H.C} {u : H.U} (hu : H.unsized c = some u) (n : Nat) :
    kindOf (H.get u n) = kindOf c := by
  have := hH.get_unsized c u hu
  rw [kindOf, kindOf, hH.signed_get u n (H.size c), ← this]

theorem sameU_mk (hH : H.Ok) {c : H.C} {u : H.U} (hu : H.unsized c = some u) (n : Nat) (o : HObj H) :
    SameU u (mkH (H.get u n) o) (mkBV (kindOf c) n o.plain) := by
  have h := same_mk (H.get u n) o
  rw [kindOf_get hH hu, hH.size_get] at h
  rcases h with ⟨z, h1, h2, h3⟩ | h
  · exact .inl ⟨z, h1, by rw [h2, hH.size_get], h3⟩
  · exact .inr h

theorem unsizedT_some {c : H.C} {u : H.U} (hu : H.unsized c = some u) : unsizedT c = .ok u := by
  simp [unsizedT, hu]

theorem unsizedT_none {c : H.C} (hu : H.unsized c = none) : unsizedT c = .error .attributeError := by
  simp [unsizedT, hu]

theorem sameU_unsized {u : H.U} {z : Inst H} (hH : H.Ok) (hz : z.cls = H.get u (H.size z.cls)) :
    H.unsized z.cls = some u := by rw [hz, hH.unsized_get]

theorem ok_bind' {α β : Type} (a : α) (f : α → PyM β) : ((Except.ok a : PyM α) >>= f) = f a := rfl
theorem err_bind' {α β : Type} (e : PyErr) (f : α → PyM β) :
    ((Except.error e : PyM α) >>= f) = .error e := rfl

theorem sameU_slice (hH : H.Ok) {x : Inst H} {u : H.U} (hu : H.unsized x.cls = some u) (s : PySlice) :
    SameU u (x.getSlice s) (x.plain.getSlice s) := by
  simp only [Inst.getSlice, BVal.getSlice, unsizedT_some hu, show x.plain.bits = x.bits from rfl]
  cases pySliceList x.bits s with
  | error e => exact .inr ⟨e, rfl, rfl⟩
  | ok v => exact sameU_mk hH hu v.length (.seq (v.map truthy))

/-- Is an instance of the unsized class: the plain values are compatible. -/
theorem plain_isSub (hH : H.Ok) {x y : Inst H} {u : H.U} (hu : H.unsized x.cls = some u)
    (hy : H.isSubU y.cls u = true) : y.plain.kind.isSub x.plain.kind = true := by
  have h := hH.subU_signed y.cls u (H.size x.cls) hy
  rw [← hH.get_unsized _ _ hu] at h
  cases hx : H.signed x.cls <;> cases hy' : H.signed y.cls <;>
    simp [Inst.plain, kindOf, Kind.isSub, Kind.base, Root.isSub, hx, hy'] at h ⊢

theorem sameU_concat (hH : H.Ok) {x y : Inst H} {u : H.U} (hu : H.unsized x.cls = some u)
    (hy : H.isSubU y.cls u = true) : SameU u (x.concat y) (x.plain.concat y.plain) := by
  have hp := plain_isSub hH hu hy
  simp only [Inst.concat, BVal.concat, unsizedT_some hu, ok_bind', hy, hp, not_true_eq_false, if_false]
  show SameU u (pyShl y.value x.size >>= _) (pyShl y.value x.size >>= _)
  cases pyShl y.value x.size with
  | error e => exact .inr ⟨e, rfl, rfl⟩
  | ok v => exact sameU_mk hH hu (x.size + y.size) (.int (pyOr x.value v))

theorem sub_of_cls (hH : H.Ok) {z : Inst H} {u : H.U} (hz : z.cls = H.get u (H.size z.cls)) :
    H.isSubU z.cls u = true := by rw [hz]; exact hH.sub_get u _

theorem sameU_rot (hH : H.Ok) {x : Inst H} {u : H.U} (hu : H.unsized x.cls = some u) (s t : PySlice) :
    SameU u (do (← x.getSlice s).concat (← x.getSlice t))
      (do (← x.plain.getSlice s).concat (← x.plain.getSlice t)) := by
  rcases sameU_slice hH hu s with ⟨z, h1, h2, h3⟩ | ⟨e, h1, h2⟩
  · rcases sameU_slice hH hu t with ⟨w, g1, g2, g3⟩ | ⟨e, g1, g2⟩
    · simp only [h1, h3, g1, g3, ok_bind']
      exact sameU_concat hH (sameU_unsized hH h2) (sub_of_cls hH g2)
    · simp only [h1, h3, g1, g2, ok_bind']; exact .inr ⟨e, rfl, rfl⟩
  · simp only [h1, h2]; exact .inr ⟨e, rfl, rfl⟩

theorem sameU_cast {x : Inst H} {u : H.U} (o : HObj H) {f : Inst H → PyM (Inst H)} {g : BVal → PyM BVal}
    (h : ∀ y : Inst H, SameU u (f y) (g y.plain)) : SameU u (x.cast o f) (x.plain.cast o.plain g) := by
  rcases coerce_cases x.cls o with ⟨y, e1, hs, e2⟩ | ⟨e, e1, e2⟩
  · simp only [Inst.cast, BVal.cast, e1, show coerce x.plain.kind x.plain.size o.plain = _ from e2]
    exact h y
  · simp only [Inst.cast, BVal.cast, e1, show coerce x.plain.kind x.plain.size o.plain = _ from e2]
    exact .inr ⟨e, rfl, rfl⟩

theorem sameU_bind {α : Type} {u : H.U} (m : PyM α) {f : α → PyM (Inst H)} {g : α → PyM BVal}
    (h : ∀ a, SameU u (f a) (g a)) : SameU u (m >>= f) (m >>= g) := by
  cases m with
  | error e => exact .inr ⟨e, rfl, rfl⟩
  | ok a => exact h a

theorem sameU_repeat (hH : H.Ok) {x : Inst H} {u : H.U} (hu : H.unsized x.cls = some u) (k : Int) :
    SameU u (x.repeat_ k) (x.plain.repeat_ k) := by
  unfold Inst.repeat_ BVal.repeat_
  split
  · exact .inr ⟨_, rfl, rfl⟩
  · rw [unsizedT_some hu]
    exact sameU_mk hH hu (k.toNat * x.size) (.seq ((BVal.listRepeat k x.bits).map truthy))

theorem sameU_zext (hH : H.Ok) {x : Inst H} {u : H.U} (hu : H.unsized x.cls = some u) (k : Int) :
    SameU u (x.zext k) (x.plain.zext k) := by
  unfold Inst.zext BVal.zext
  split
  · exact .inr ⟨_, rfl, rfl⟩
  · rw [unsizedT_some hu, ok_bind']
    rcases sameU_mk hH hu k.toNat (.int 0) with ⟨z, h1, h2, h3⟩ | ⟨e, h1, h2⟩
    · rw [h1, show mkBV x.plain.kind k.toNat (.int 0) = _ from h3]
      exact sameU_concat hH hu (sub_of_cls hH h2)
    · rw [h1, show mkBV x.plain.kind k.toNat (.int 0) = _ from h2]; exact .inr ⟨e, rfl, rfl⟩

theorem sameU_sext (hH : H.Ok) {x : Inst H} {u : H.U} (hu : H.unsized x.cls = some u) (k : Int) :
    SameU u (x.sext k) (x.plain.sext k) := by
  unfold Inst.sext BVal.sext
  split
  · exact .inr ⟨_, rfl, rfl⟩
  rw [unsizedT_some hu, ok_bind', show x.plain.getIdx (-1) = x.getIdx (-1) from rfl]
  refine sameU_bind _ fun b => ?_
  rcases sameU_mk hH hu 1 (.bit b) with ⟨z, h1, h2, h3⟩ | ⟨e, h1, h2⟩
  · rw [h1, show mkBV x.plain.kind 1 (.bit b) = _ from h3, ok_bind', ok_bind']
    rcases sameU_repeat hH (sameU_unsized hH h2) k with ⟨w, g1, g2, g3⟩ | ⟨e, g1, g2⟩
    · rw [g1, g3]; exact sameU_concat hH hu (sub_of_cls hH g2)
    · rw [g1, g2]; exact .inr ⟨e, rfl, rfl⟩
  · rw [h1, show mkBV x.plain.kind 1 (.bit b) = _ from h2]; exact .inr ⟨e, rfl, rfl⟩

/-- The methods that return a vector of another width, by name. -/
inductive SMeth (H : Hier)
  | slice (s : PySlice)
  | rep (k : Int)
  | zext (k : Int)
  | sext (k : Int)
  | ext (k : Int)
  | rol (o : HObj H)
  | ror (o : HObj H)
  | comp (o : HObj H)

def runS (x : Inst H) : SMeth H → PyM (Inst H)
  | .slice s => x.getSlice s
  | .rep k => x.repeat_ k
  | .zext k => x.zext k
  | .sext k => x.sext k
  | .ext k => x.ext k
  | .rol o => x.bvrol o
  | .ror o => x.bvror o
  | .comp o => x.bvcomp o

def plainS (x : BVal) : SMeth H → PyM BVal
  | .slice s => x.getSlice s
  | .rep k => x.repeat_ k
  | .zext k => x.zext k
  | .sext k => x.sext k
  | .ext k => (x.ext k 0).map (·.1)
  | .rol o => x.bvrol o.plain
  | .ror o => x.bvror o.plain
  | .comp o => x.bvcomp o.plain

theorem plainS_ext (x : Inst H) (k : Int) : plainS x.plain (SMeth.ext (H := H) k) =
    if H.signed x.cls then x.plain.sext k else x.plain.zext k := by
  cases h : H.signed x.cls with
  | true =>
    have : x.plain.kind.slot = .sgn := by simp [Inst.plain, kindOf, h, Kind.slot]
    simp only [plainS, BVal.ext, this, extImpl, pyLift, if_true]
    cases x.plain.sext k <;> rfl
  | false =>
    have : x.plain.kind.slot = .uns := by simp [Inst.plain, kindOf, h, Kind.slot]
    simp only [plainS, BVal.ext, this, extImpl, pyLift, Bool.false_eq_true, if_false]
    cases x.plain.zext k <;> rfl

/-- **C131** (partial: classes with an `unsized_t`, that is classes of the form `U[n]`, `U` possibly
user-defined): slices, repetitions, extensions, rotations, `bvcomp` and concatenations give the same
values, in classes `U[m]`; `concat` refuses exactly the vectors that are not instances of `U`. -/
theorem C131_structure_partial (hH : H.Ok) {x : Inst H} {u : H.U} (hu : H.unsized x.cls = some u) :
    (∀ m : SMeth H, SameU u (runS x m) (plainS x.plain m)) ∧
    (∀ y : Inst H, H.isSubU y.cls u = true → SameU u (x.concat y) (x.plain.concat y.plain)) ∧
    (∀ y : Inst H, H.isSubU y.cls u = false → x.concat y = .error .typeError) := by
  refine ⟨fun m => ?_, fun y hy => sameU_concat hH hu hy, fun y hy => ?_⟩
  · cases m with
    | slice s => exact sameU_slice hH hu s
    | rep k => exact sameU_repeat hH hu k
    | zext k => exact sameU_zext hH hu k
    | sext k => exact sameU_sext hH hu k
    | ext k =>
      cases h : H.signed x.cls with
      | true =>
        rw [show runS x (.ext k) = x.sext k by simp [runS, Inst.ext, h],
          show plainS x.plain (SMeth.ext (H := H) k) = x.plain.sext k by
            exact plainS_ext x k |>.trans (by rw [h]; rfl)]
        exact sameU_sext hH hu k
      | false =>
        rw [show runS x (.ext k) = x.zext k by simp [runS, Inst.ext, h],
          show plainS x.plain (SMeth.ext (H := H) k) = x.plain.zext k by
            exact plainS_ext x k |>.trans (by rw [h]; rfl)]
        exact sameU_zext hH hu k
    | rol o => exact sameU_cast o fun y => sameU_bind _ fun k => sameU_rot hH hu _ _
    | ror o => exact sameU_cast o fun y => sameU_bind _ fun k => sameU_rot hH hu _ _
    | comp o =>
      refine sameU_cast o fun y => ?_
      rw [unsizedT_some hu]; exact sameU_mk hH hu 1 (.bool (x.asUint == y.asUint))
  · simp [Inst.concat, unsizedT_some hu, hy, ok_bind']

theorem lost_bind {α β γ : Type} (m : PyM α) {f : α → PyM β} {g : α → PyM γ}
    (h : ∀ a, Lost (f a) (g a)) : Lost (m >>= f) (m >>= g) := by
  cases m with
  | error e => exact .inr ⟨e, rfl, rfl⟩
  | ok a => exact h a

/-- **C131** an instance of a class derived from a sized class (`class Word(BitVector[8])`,
`Input(BitVector[8])`) has none of these methods: wherever the plain vector returns a value, it raises
`AttributeError`. -/
theorem C131_sized_subclass_raises {x : Inst H} (hu : H.unsized x.cls = none) :
    (∀ m : SMeth H, Lost (runS x m) (plainS x.plain m)) ∧
    (∀ y : Inst H, x.concat y = .error .attributeError) := by
  have hc (y : Inst H) : x.concat y = .error .attributeError := by
    simp [Inst.concat, unsizedT_none hu, err_bind']
  have hs (s : PySlice) : Lost (x.getSlice s) (x.plain.getSlice s) := by
    simp only [Inst.getSlice, BVal.getSlice, unsizedT_none hu, show x.plain.bits = x.bits from rfl]
    exact lost_bind _ fun v => .inl rfl
  refine ⟨fun m => ?_, hc⟩
  have hcast (o : HObj H) {f : Inst H → PyM (Inst H)} {g : BVal → PyM BVal}
      (h : ∀ y : Inst H, Lost (f y) (g y.plain)) : Lost (x.cast o f) (x.plain.cast o.plain g) := by
    rcases coerce_cases x.cls o with ⟨y, e1, hs, e2⟩ | ⟨e, e1, e2⟩
    · simp only [Inst.cast, BVal.cast, e1, show coerce x.plain.kind x.plain.size o.plain = _ from e2]
      exact h y
    · simp only [Inst.cast, BVal.cast, e1, show coerce x.plain.kind x.plain.size o.plain = _ from e2]
      exact .inr ⟨e, rfl, rfl⟩
  have hrot (s t : PySlice) : Lost (do (← x.getSlice s).concat (← x.getSlice t))
      (do (← x.plain.getSlice s).concat (← x.plain.getSlice t)) := by
    rcases hs s with h | ⟨e, h1, h2⟩
    · rw [h]; exact .inl rfl
    · rw [h1, h2]; exact .inr ⟨e, rfl, rfl⟩
  have hz (k : Int) : Lost (x.zext k) (x.plain.zext k) := by
    simp only [Inst.zext, BVal.zext, unsizedT_none hu]
    split
    · exact .inr ⟨_, rfl, rfl⟩
    · exact .inl rfl
  have hsx (k : Int) : Lost (x.sext k) (x.plain.sext k) := by
    simp only [Inst.sext, BVal.sext, unsizedT_none hu]
    split
    · exact .inr ⟨_, rfl, rfl⟩
    · exact .inl rfl
  cases m with
  | slice s => exact hs s
  | rep k =>
    simp only [runS, plainS, Inst.repeat_, BVal.repeat_, unsizedT_none hu]
    split
    · exact .inr ⟨_, rfl, rfl⟩
    · exact .inl rfl
  | zext k => exact hz k
  | sext k => exact hsx k
  | ext k =>
    cases h : H.signed x.cls with
    | true =>
      rw [show runS x (.ext k) = x.sext k by simp [runS, Inst.ext, h],
        show plainS x.plain (SMeth.ext (H := H) k) = x.plain.sext k by
          exact plainS_ext x k |>.trans (by rw [h]; rfl)]
      exact hsx k
    | false =>
      rw [show runS x (.ext k) = x.zext k by simp [runS, Inst.ext, h],
        show plainS x.plain (SMeth.ext (H := H) k) = x.plain.zext k by
          exact plainS_ext x k |>.trans (by rw [h]; rfl)]
      exact hz k
  | rol o => exact hcast o fun y => lost_bind _ fun k => hrot _ _
  | ror o => exact hcast o fun y => lost_bind _ fun k => hrot _ _
  | comp o =>
    refine hcast o fun y => ?_
    rw [unsizedT_none hu]; exact .inl rfl

/-! ## Addition with carry -/

theorem coerceU_cases (hH : H.Ok) {c : H.C} {u : H.U} (hu : H.unsized c = some u) (o : HObj H) :
    (∃ y : Inst H, coerceH (H.get u 1) o = .ok y ∧ H.size y.cls = 1 ∧
      coerce (kindOf c) 1 o.plain = .ok y.plain ∧ (o = .bv y ∨ y.cls = H.get u 1)) ∨
    ∃ e, coerceH (H.get u 1) o = .error e ∧ coerce (kindOf c) 1 o.plain = .error e := by
  have h := coerce_cases (H.get u 1) o
  rw [kindOf_get hH hu, hH.size_get] at h
  rcases h with ⟨y, h1, h2, h3⟩ | h
  · refine .inl ⟨y, h1, h2, h3, ?_⟩
    cases o with
    | bv b =>
      simp only [coerceH] at h1
      split at h1
      · cases h1
      · cases h1; exact .inl rfl
    | other i b => cases i with
      | none => cases h1
      | some v => cases h1; exact .inr rfl
    | _ => cases h1; exact .inr rfl
  · exact .inr h

/-- The object is not an instance of a class derived from a sized class. -/
def HObj.Plain : HObj H → Prop
  | .bv y => ∃ u, H.unsized y.cls = some u
  | _ => True

/-- The results of `adc`: same pair, the vector in class `u[m]`. -/
def SameA (u : H.U) (r : PyM (Inst H × Bool)) (s : PyM (BVal × Bool)) : Prop :=
  (∃ (z : Inst H) (b : Bool), r = .ok (z, b) ∧ z.cls = H.get u (H.size z.cls) ∧ s = .ok (z.plain, b)) ∨
    ∃ e, r = .error e ∧ s = .error e

/-- **C131** (partial: neither `self` nor the operands are of a class derived from a sized one): `adc`
returns the same sum, in class `U[n]`, and the same carry. -/
theorem C131_adc_partial (hH : H.Ok) {x : Inst H} {u : H.U} (hu : H.unsized x.cls = some u)
    {o c : HObj H} (ho : o.Plain) (hc : c.Plain) : SameA u (x.adc o c) (x.plain.adc o.plain c.plain) := by
  have hadd {a b : Inst H} (ha : H.unsized a.cls = some u) :
      SameU u (a.bvadd (.bv b)) (a.plain.bvadd (.bv b.plain)) := by
    rcases (C131_methods a (.bv b)).2 .bvadd rfl with ⟨z, h1, h2, h3⟩ | h
    · exact .inl ⟨z, h1, by rw [h2]; exact hH.get_unsized _ _ ha, h3⟩
    · exact .inr h
  unfold Inst.adc BVal.adc
  rcases coerce_cases x.cls o with ⟨y, e1, hy, e2⟩ | ⟨e, e1, e2⟩
  swap
  · rw [e1, show coerce x.plain.kind x.plain.size o.plain = _ from e2]; exact .inr ⟨e, rfl, rfl⟩
  rw [e1, show coerce x.plain.kind x.plain.size o.plain = _ from e2, unsizedT_some hu, ok_bind', ok_bind',
    ok_bind']
  rcases coerceU_cases hH hu c with ⟨d, e3, hd, e4, hd'⟩ | ⟨e, e3, e4⟩
  swap
  · rw [e3, show coerce x.plain.kind 1 c.plain = _ from e4]; exact .inr ⟨e, rfl, rfl⟩
  rw [e3, show coerce x.plain.kind 1 c.plain = _ from e4, ok_bind', ok_bind']
  have hyu : ∃ w, H.unsized y.cls = some w := by
    cases o with
    | bv b =>
      simp only [coerceH] at e1
      split at e1
      · cases e1
      · cases e1; exact ho
    | other i b => cases i with
      | none => cases e1
      | some v => cases e1; exact ⟨u, hu⟩
    | _ => cases e1; exact ⟨u, hu⟩
  have hdu : ∃ w, H.unsized d.cls = some w := by
    rcases hd' with rfl | h
    · exact hc
    · exact ⟨u, by rw [h, hH.unsized_get]⟩
  obtain ⟨w, hw⟩ := hyu
  obtain ⟨w', hw'⟩ := hdu
  rcases sameU_zext hH hu 1 with ⟨a, a1, a2, a3⟩ | ⟨e, a1, a2⟩
  swap
  · rw [a1, a2]; exact .inr ⟨e, rfl, rfl⟩
  rcases sameU_zext hH hw 1 with ⟨b, b1, b2, b3⟩ | ⟨e, b1, b2⟩
  swap
  · rw [a1, a3, b1, b2]; exact .inr ⟨e, rfl, rfl⟩
  rcases sameU_zext hH hw' x.size with ⟨g, g1, g2, g3⟩ | ⟨e, g1, g2⟩
  swap
  · rw [a1, a3, b1, b3, g1, show d.plain.zext x.plain.size = _ from g2]; exact .inr ⟨e, rfl, rfl⟩
  rw [a1, a3, b1, b3, g1, show d.plain.zext x.plain.size = _ from g3]
  simp only [ok_bind']
  rcases hadd (b := b) (sameU_unsized hH a2) with ⟨r, r1, r2, r3⟩ | ⟨e, r1, r2⟩
  swap
  · rw [r1, r2]; exact .inr ⟨e, rfl, rfl⟩
  rw [r1, r3]
  simp only [ok_bind']
  rcases hadd (b := g) (sameU_unsized hH r2) with ⟨s, s1, s2, s3⟩ | ⟨e, s1, s2⟩
  swap
  · rw [s1, s2]; exact .inr ⟨e, rfl, rfl⟩
  rw [s1, s3]
  simp only [ok_bind']
  rcases sameU_slice hH (sameU_unsized hH s2) ⟨some 0, some (-1), none⟩ with ⟨t, t1, t2, t3⟩ | ⟨e, t1, t2⟩
  swap
  · rw [t1, t2]; exact .inr ⟨e, rfl, rfl⟩
  rw [t1, t3, show s.plain.getIdx (-1) = s.getIdx (-1) from rfl]
  simp only [ok_bind']
  cases s.getIdx (-1) with
  | error e => exact .inr ⟨e, rfl, rfl⟩
  | ok v => exact .inl ⟨t, v, rfl, t2, rfl⟩

/-- **C131** `adc` on an instance of a class derived from a sized class, or with such a second summand,
never returns. -/
theorem C131_adc_raises {x : Inst H} {o c : HObj H}
    (h : H.unsized x.cls = none ∨ (∃ y : Inst H, o = .bv y ∧ H.unsized y.cls = none)) :
    ∀ r, x.adc o c ≠ .ok r := by
  intro r hr
  unfold Inst.adc at hr
  cases e1 : coerceH x.cls o with
  | error e => rw [e1] at hr; cases hr
  | ok y =>
    rw [e1, ok_bind'] at hr
    cases e2 : H.unsized x.cls with
    | none => rw [unsizedT_none e2] at hr; cases hr
    | some u =>
      rcases h with h | ⟨z, rfl, hz⟩
      · rw [h] at e2; cases e2
      have : y = z := by
        simp only [coerceH] at e1
        split at e1
        · cases e1
        · cases e1; rfl
      subst this
      have hb : y.zext 1 = .error .attributeError := by
        simp [Inst.zext, unsizedT_none hz, err_bind']
      rw [unsizedT_some e2, ok_bind', hb] at hr
      cases e3 : coerceH (H.get u 1) c with
      | error e => rw [e3] at hr; cases hr
      | ok d =>
        rw [e3, ok_bind'] at hr
        cases e4 : x.zext 1 with
        | error e => rw [e4] at hr; cases hr
        | ok a => rw [e4] at hr; cases hr

/-! ## Operators -/

/-- Signedness of an operator between two vectors: signed if the left class is, or if the right one
is a signed subclass of the left one. -/
def signedVV (x y : Inst H) : Bool := H.signed x.cls || (H.isSub y.cls x.cls && H.signed y.cls)

theorem signedVV_eq (x y : Inst H) : signedVV x y = (H.signed x.cls || (properSub y x && H.signed y.cls)) := by
  unfold signedVV properSub
  by_cases h : y.cls = x.cls
  · cases hs : H.signed x.cls <;> simp [h, hs]
  · rw [show (y.cls != x.cls) = true from bne_iff_ne.mpr h, Bool.true_and]

/-- The value is in range. -/
def Inst.WF (x : Inst H) : Prop := 0 ≤ x.value ∧ x.value < 2 ^ H.size x.cls

theorem method_ref (op : AOp) (s : Bool) {x : Inst H} (hx : x.WF) (hn : 0 < H.size x.cls) {o : HObj H}
    (ho : o.plain.WF) :
    method op s x o = (operand (H.size x.cls) o.plain).map fun b => ⟨x.cls, refA s op (H.size x.cls) x.value b⟩ := by
  have key (m : BMeth) (hm : inClass m = true) (f : BVal → Obj → PyM BVal) (hf : m.run = f)
      (h : f x.plain o.plain = (operand (H.size x.cls) o.plain).map fun b =>
        ⟨x.plain.kind, H.size x.cls, refA s op (H.size x.cls) x.value b⟩) :
      runB m x o = (operand (H.size x.cls) o.plain).map fun b =>
        (⟨x.cls, refA s op (H.size x.cls) x.value b⟩ : Inst H) := by
    subst hf
    rcases (C131_methods x o).2 m hm with ⟨z, h1, h2, h3⟩ | ⟨e, h1, h2⟩
    · rw [h1]
      rw [h3] at h
      cases hb : operand (H.size x.cls) o.plain with
      | error e => rw [hb] at h; cases h
      | ok b =>
        rw [hb] at h
        simp only [Except.map, Except.ok.injEq, BVal.mk.injEq, Inst.plain] at h
        simp only [Except.map, Except.ok.injEq]
        rcases z with ⟨zc, zv⟩
        simp only at h2 h
        rw [h2, h.2.2]
    · rw [h1]
      rw [h2] at h
      cases hb : operand (H.size x.cls) o.plain with
      | error e' => rw [hb] at h; injection h with h; rw [h]; rfl
      | ok b => rw [hb] at h; cases h
  have hu := uMethod_ref op (x := x.plain) hx ho
  have hs := sMethod_ref op (x := x.plain) hx hn ho
  cases s with
  | false =>
    cases op
    · exact key .bvand rfl _ rfl hu
    · exact key .bvor rfl _ rfl hu
    · exact key .bvxor rfl _ rfl hu
    · exact key .bvshl rfl _ rfl hu
    · exact key .bvlshr rfl _ rfl hu
    · exact key .bvadd rfl _ rfl hu
    · exact key .bvsub rfl _ rfl hu
    · exact key .bvmul rfl _ rfl hu
    · exact key .bvudiv rfl _ rfl hu
    · exact key .bvurem rfl _ rfl hu
  | true =>
    cases op
    · exact key .bvand rfl _ rfl hs
    · exact key .bvor rfl _ rfl hs
    · exact key .bvxor rfl _ rfl hs
    · exact key .bvshl rfl _ rfl hs
    · exact key .bvashr rfl _ rfl hs
    · exact key .bvadd rfl _ rfl hs
    · exact key .bvsub rfl _ rfl hs
    · exact key .bvmul rfl _ rfl hs
    · exact key .bvsdiv rfl _ rfl hs
    · exact key .bvsrem rfl _ rfl hs

theorem methodC_ref (op : COp) (s : Bool) {x : Inst H} (hx : x.WF) (hn : 0 < H.size x.cls) {o : HObj H}
    (ho : o.plain.WF) :
    methodC op s x o = (operand (H.size x.cls) o.plain).map fun b => refC s op (H.size x.cls) x.value b := by
  have hu := cU_ref op x.plain o.plain
  have hs := cS_ref op (x := x.plain) hx hn ho
  have hc (m : CMeth) := C131_comparisons m x o
  cases s with
  | false =>
    cases op
    · exact (hc .bveq).trans hu
    · exact (hc .bvne).trans hu
    · exact (hc .bvuge).trans hu
    · exact (hc .bvugt).trans hu
    · exact (hc .bvule).trans hu
    · exact (hc .bvult).trans hu
  | true =>
    cases op
    · exact (hc .bveq).trans hs
    · exact (hc .bvne).trans hs
    · exact (hc .bvsge).trans hs
    · exact (hc .bvsgt).trans hs
    · exact (hc .bvsle).trans hs
    · exact (hc .bvslt).trans hs

theorem operand_bv {n : Nat} {y : Inst H} (hy : H.size y.cls = n) :
    operand n (HObj.bv y).plain = .ok y.value := by
  simp [operand, HObj.plain, Inst.plain, hy]

theorem operand_bv_ne {n : Nat} {y : Inst H} (hy : H.size y.cls ≠ n) :
    operand n (HObj.bv y).plain = .error .inconsistentSize := by
  simp [operand, HObj.plain, Inst.plain, hy]

theorem refA_dep (op : AOp) (s : Bool) (n : Nat) (a b : Int) :
    refA (op.signDep && s) op n a b = refA s op n a b := by
  cases h : op.signDep
  · exact refA_sign_irrelevant op h _ _ _ _ _
  · rfl

theorem refC_dep (op : COp) (s : Bool) (n : Nat) (a b : Int) :
    refC (op.signDep && s) op n a b = refC s op n a b := by
  cases h : op.signDep
  · exact refC_sign_irrelevant op h _ _ _ _ _
  · rfl

theorem swap_signDep (op : COp) : op.swap.signDep = op.signDep := by cases op <;> rfl

theorem properSub_signed (hH : H.Ok) {x y : Inst H} (h : properSub y x = true) (hx : H.signed x.cls = true) :
    H.signed y.cls = true := by
  simp only [properSub, Bool.and_eq_true] at h
  exact hH.sub_signed _ _ h.2 hx

/-- **C131** the operators between two vectors of any classes: the value is that of the reference
operation, signed if the left class is or if the right one is a signed proper subclass of it, and the
result has the class of the left operand; vectors of different widths raise `InconsistentSizeError`. -/
theorem C131_operators (hH : H.Ok) {x y : Inst H} (hx : x.WF) (hy : y.WF) (hn : 0 < H.size x.cls) :
    (H.size y.cls = H.size x.cls →
      (∀ op, opVV op x y = .ok ⟨x.cls, refA (signedVV x y) op (H.size x.cls) x.value y.value⟩) ∧
      (∀ op, cmpVV op x y = .ok (refC (signedVV x y) op (H.size x.cls) x.value y.value))) ∧
    (H.size y.cls ≠ H.size x.cls → 0 < H.size y.cls →
      (∀ op, opVV op x y = .error .inconsistentSize) ∧ (∀ op, cmpVV op x y = .error .inconsistentSize)) := by
  constructor
  · intro hs
    have hn' : 0 < H.size y.cls := by omega
    constructor
    · intro op
      have hf (s : Bool) := method_ref op s hx hn (o := .bv y) hy
      simp only [operand_bv hs, Except.map] at hf
      unfold opVV
      cases hp : properSub y x
      · simp only [Bool.false_and, Bool.false_eq_true, if_false, hf, tryOper, ok_bind', signedVV_eq, hp,
          Bool.or_false, refA_dep]
        rfl
      · by_cases he : (op.signDep && H.signed x.cls) = (op.signDep && H.signed y.cls)
        · simp only [Bool.true_and, he, bne_self_eq_false, Bool.false_eq_true, if_false, hf, tryOper, ok_bind',
            signedVV_eq, hp]
          cases hd : op.signDep
          · rw [Bool.false_and, refA_sign_irrelevant op hd false (H.signed x.cls || H.signed y.cls)]; rfl
          · simp only [hd, Bool.true_and] at he
            rw [he, Bool.or_self]; rfl
        · have hd : op.signDep = true := by
            cases hd : op.signDep
            · exact absurd (by rw [hd]; rfl) he
            · rfl
          simp only [hd, Bool.true_and] at he
          simp only [hd, Bool.true_and]
          have hx' : H.signed x.cls = false := by
            by_contra h
            simp only [Bool.not_eq_false] at h
            exact he (by rw [h, properSub_signed hH hp h])
          have hy' : H.signed y.cls = true := by
            by_contra h
            simp only [Bool.not_eq_true] at h
            exact he (by rw [h, hx'])
          have hc : coerceH y.cls (.bv x) = .ok x := by simp [coerceH, hs]
          simp [signedVV_eq, hp, hx', hy', rev, hc, hf, tryOper, ok_bind']
          rfl
    · intro op
      have hf (s : Bool) := methodC_ref op s hx hn (o := .bv y) hy
      have hr (s : Bool) := methodC_ref op.swap s hy hn' (o := .bv x) hx
      simp only [operand_bv hs, operand_bv hs.symm, Except.map, refC_swap] at hf hr
      unfold cmpVV
      cases hp : properSub y x
      · simp only [Bool.false_eq_true, if_false, hf, tryOper, ok_bind', signedVV_eq, hp, Bool.false_and,
          Bool.or_false, refC_dep]
        rfl
      · simp only [if_true, hr, tryOper, ok_bind', signedVV_eq, hp, Bool.true_and, swap_signDep, hs, refC_dep]
        cases hx' : H.signed x.cls
        · rfl
        · rw [properSub_signed hH hp hx']; rfl
  · intro hs hn'
    have hp : properSub y x = false := by
      cases h : properSub y x
      · rfl
      · simp only [properSub, Bool.and_eq_true] at h
        exact absurd (hH.sub_size _ _ h.2) hs
    constructor
    · intro op
      have hf (s : Bool) := method_ref op s hx hn (o := .bv y) hy
      simp only [operand_bv_ne hs, Except.map] at hf
      simp only [opVV, hp, Bool.false_and, Bool.false_eq_true, if_false, hf, tryOper, err_bind']
    · intro op
      have hf (s : Bool) := methodC_ref op s hx hn (o := .bv y) hy
      simp only [operand_bv_ne hs, Except.map] at hf
      simp only [cmpVV, hp, Bool.false_eq_true, if_false, hf, tryOper, err_bind']

/-- Neither a vector nor a `Bit`. -/
def HObj.foreign : HObj H → Prop
  | .bv _ => False
  | .bit _ => False
  | _ => True

/-- **C131** (partial: not `o >> x` with unsigned `x`, see C23) the operators between a vector of any
class and an int (or sequence, or other number), on either side. -/
theorem C131_operators_int_partial {x : Inst H} (hx : x.WF) (hn : 0 < H.size x.cls) {o : HObj H}
    (hf : o.foreign) {b : Int} (hb : operand (H.size x.cls) o.plain = .ok b) :
    (∀ op, opVO op x o = .ok ⟨x.cls, refA (H.signed x.cls) op (H.size x.cls) x.value b⟩) ∧
    (∀ op, (op = .shr → H.signed x.cls = true) →
      opOV op o x = .ok ⟨x.cls, refA (H.signed x.cls) op (H.size x.cls) b x.value⟩) := by
  have ho : o.plain.WF := by cases o <;> trivial
  constructor
  · intro op
    simp only [opVO, method_ref op _ hx hn ho, hb, Except.map, tryOper, ok_bind', refA_dep]
    rfl
  · intro op hop
    have hc : ∃ y : Inst H, coerceH x.cls o = .ok y ∧ y.cls = x.cls ∧ y.value = b ∧ y.WF := by
      have hm (v : Int) (h : wrap (H.size x.cls) v = b) :
          pyAnd v (2 ^ H.size x.cls - 1) = b ∧ 0 ≤ b ∧ b < 2 ^ H.size x.cls := by
        have := mod_WF (.root .bv) (H.size x.cls) v
        rw [← h, pyAnd_mask]
        exact ⟨rfl, this⟩
      cases o with
      | bv _ => cases hf
      | bit _ => cases hf
      | other i t => cases i with
        | none => cases hb
        | some v => injection hb with h; exact ⟨_, rfl, rfl, (hm v h).1, by rw [Inst.WF, (hm v h).1]; exact (hm v h).2⟩
      | int v => injection hb with h; exact ⟨_, rfl, rfl, (hm v h).1, by rw [Inst.WF, (hm v h).1]; exact (hm v h).2⟩
      | bool v =>
        injection hb with h
        rw [← b2i] at h
        exact ⟨_, rfl, rfl, (hm _ h).1, by rw [Inst.WF, (hm _ h).1]; exact (hm _ h).2⟩
      | seq l =>
        injection hb with h
        have h' : wrap (H.size x.cls) (seq2int l) = b := by rw [← h, seq2int_eq]
        exact ⟨_, rfl, rfl, (hm _ h').1, by rw [Inst.WF, (hm _ h').1]; exact (hm _ h').2⟩
    obtain ⟨y, h1, h2, h3, h4⟩ := hc
    have hop' : ¬ (op = .shr ∧ (op.signDep && H.signed x.cls) = false) := by
      rintro ⟨rfl, h⟩
      simp [AOp.signDep, hop rfl] at h
    have hm := method_ref op (op.signDep && H.signed x.cls) h4 (by rw [h2]; exact hn) (o := .bv x) hx
    rw [operand_bv (by rw [h2])] at hm
    simp only [opOV, rev, if_neg hop', h1, hm, Except.map, tryOper, ok_bind', h2, h3, refA_dep]
    rfl

/-- **C131** with an object that is not a number `x op o` is a `TypeError`. -/
theorem C131_operators_raise (op : AOp) (x : Inst H) (t : Option Bool) : opVO op x (.other none t) = .error .typeError := by
  have hf (s : Bool) : method op s x (.other none t) = .error .typeError := by cases s <;> cases op <;> rfl
  simp only [opVO, hf, tryOper]
  rfl

/-- **C131** `o >> x` with `x` of an unsigned class, whatever the class, is `x >> o` (the finding of C23). -/
theorem C131_rrshift {x : Inst H} (hx : x.WF) (hn : 0 < H.size x.cls) (hu : H.signed x.cls = false) {o : HObj H}
    (hf : o.foreign) {b : Int} (hb : operand (H.size x.cls) o.plain = .ok b) :
    opOV .shr o x = .ok ⟨x.cls, refA false .shr (H.size x.cls) x.value b⟩ := by
  have := (C131_operators_int_partial hx hn hf hb).1 .shr
  rw [hu] at this
  rw [← this]
  simp [opOV, opVO, rev, hu]

/-! ## `ite` -/

/-- **C131** `ite` on two vectors of one class, whatever the class, returns the selected one; on vectors
of a class and a subclass of it, a vector with the selected value of a new class below the unsized
class, or `TypeError` if there is none. -/
theorem C131_ite {t f : Inst H} (ht : t.WF) (hf : f.WF) (sel : Bool) (rest : List H.C) :
    (t.cls = f.cls → iteH sel t f rest = .ok (.inst (if sel then t else f))) ∧
    (t.cls ≠ f.cls → H.size t.cls = H.size f.cls → ∀ d, (H.isSub t.cls f.cls = true ∧ d = f.cls) ∨
        (H.isSub t.cls f.cls = false ∧ H.isSub f.cls t.cls = true ∧ d = t.cls) →
      (∀ u, H.unsized d = some u →
        iteH sel t f rest = .ok (.poly [u] (H.size t.cls) (if sel then t.value else f.value))) ∧
      (H.unsized d = none → iteH sel t f rest = .error .typeError)) ∧
    (H.size t.cls ≠ H.size f.cls → iteH sel t f rest = .error .inconsistentSize) ∧
    (H.size t.cls = H.size f.cls → H.isSub t.cls f.cls = false → H.isSub f.cls t.cls = false → t.cls ≠ f.cls →
      ∀ us : List H.U, rest.map H.unsized = us.map some →
        iteH sel t f rest = .ok (.poly us (H.size t.cls) (if sel then t.value else f.value))) := by
  have hval (hs : H.size t.cls = H.size f.cls) :
      pyAnd (if sel then t else f).value (2 ^ t.size - 1) = if sel then t.value else f.value := by
    rw [pyAnd_mask]
    cases sel
    · exact Int.emod_eq_of_lt hf.1 (by show _ < (2:Int) ^ H.size t.cls; rw [hs]; exact hf.2)
    · exact Int.emod_eq_of_lt ht.1 ht.2
  refine ⟨?_, ?_, ?_, ?_⟩
  · intro h
    have h2 : H.size f.cls = H.size t.cls := by rw [h]
    have hv : pyAnd (if sel then t else f).value (2 ^ H.size t.cls - 1) = (if sel then t else f).value := by
      rw [pyAnd_mask]
      cases sel
      · exact Int.emod_eq_of_lt hf.1 (by rw [h]; exact hf.2)
      · exact Int.emod_eq_of_lt ht.1 ht.2
    simp only [iteH, if_pos h, mkH, ok_bind', hv]
    cases sel
    · show Except.ok (IteRes.inst (Inst.mk t.cls f.value)) = _
      rw [h]; rfl
    · rfl
  · intro h hs d hd
    have hc : commonBases t.cls f.cls rest = [d] := by
      unfold commonBases
      rcases hd with ⟨h1, rfl⟩ | ⟨h1, h2, rfl⟩
      · rw [if_pos h1]
      · rw [if_neg (by rw [h1]; decide), if_pos h2]
    have hv : pyAnd (if sel then t else f).value (2 ^ t.size - 1) = if sel then t.value else f.value := by
      rw [pyAnd_mask]
      cases sel
      · exact Int.emod_eq_of_lt hf.1 (by show _ < (2:Int) ^ H.size t.cls; rw [hs]; exact hf.2)
      · exact Int.emod_eq_of_lt ht.1 ht.2
    constructor
    · intro u hu
      simp only [iteH, if_neg h, polyClass, hs, ne_eq, not_true_eq_false, if_false, hc, List.map_cons,
        List.map_nil, hu, List.all_cons, Option.isSome_some, List.all_nil, Bool.and_self, if_true, ok_bind', hv]
      show Except.ok (IteRes.poly [u] (H.size t.cls) _) = _
      rw [hs]
    · intro hu
      simp only [iteH, if_neg h, polyClass, hs, ne_eq, not_true_eq_false, if_false, hc, List.map_cons,
        List.map_nil, hu, List.all_cons, Option.isSome_none, Bool.false_and, Bool.false_eq_true, err_bind']
  · intro h
    have hne : t.cls ≠ f.cls := fun e => h (by rw [e])
    simp only [iteH, if_neg hne, polyClass, if_pos h, err_bind']
  · intro hs h1 h2 hne us hus
    have h3 : (us.map some).all Option.isSome = true := by simp
    have h4 : (us.map some).filterMap id = us := by simp
    have h5 : ¬ H.size t.cls ≠ H.size f.cls := fun h => h hs
    have h6 : polyClass t.cls f.cls rest = .ok us := by
      simp only [polyClass, if_neg h5, commonBases, h1, h2, Bool.false_eq_true, if_false, hus, h3, if_true, h4]
    simp only [iteH, if_neg hne, h6, ok_bind', hval hs]
    rfl

/-! ## A hierarchy -/

/-- The unsized classes `BitVector`, `SIntVector`, and `class Foo(BitVector)`. -/
inductive ExU | bv | sint | foo
  deriving DecidableEq, Repr

/-- Sized classes: `U[n]`, `class Word(BitVector[n])`, and `class Sub(Word)`. -/
inductive ExC
  | get (u : ExU) (n : Nat)
  | word (n : Nat)
  | sub (n : Nat)
  deriving DecidableEq, Repr

def ExU.isSub : ExU → ExU → Bool
  | _, .bv => true
  | .sint, .sint => true
  | .foo, .foo => true
  | _, _ => false

def exH : Hier where
  U := ExU
  C := ExC
  decC := inferInstance
  size
    | .get _ n => n
    | .word n => n
    | .sub n => n
  unsized
    | .get u _ => some u
    | _ => none
  get := .get
  isSub
    | .get u m, .get v n => u.isSub v && m == n
    | .get _ _, _ => false
    | .word m, .get v n => v == .bv && m == n
    | .word m, .word n => m == n
    | .word _, .sub _ => false
    | .sub m, .get v n => v == .bv && m == n
    | .sub m, .word n => m == n
    | .sub m, .sub n => m == n
  isSubU
    | .get u _, v => u.isSub v
    | _, v => v == .bv
  signed
    | .get .sint _ => true
    | _ => false

theorem exH_ok : exH.Ok where
  size_get := fun _ _ => rfl
  unsized_get := fun _ _ => rfl
  get_unsized := by
    intro c u h
    cases c with
    | get v n => injection h with h; subst h; rfl
    | word n => cases h
    | sub n => cases h
  sub_get := by intro u n; cases u <;> rfl
  signed_get := by intro u m n; cases u <;> rfl
  sub_size := by
    intro c d h
    cases c <;> cases d <;> simp [exH] at h ⊢ <;> first | exact h | exact h.2
  sub_signed := by
    intro c d h hd
    cases d with
    | get v n =>
      cases v
      · cases hd
      · cases c with
        | get u m => cases u <;> first | rfl | cases h
        | word m => simp [exH] at h
        | sub m => simp [exH] at h
      · cases hd
    | word n => cases hd
    | sub n => cases hd
  subU_signed := by
    intro c u n h hu
    cases u
    · cases hu
    · cases c with
      | get v m => cases v <;> first | rfl | cases h
      | word m => cases h
      | sub m => cases h
    · cases hu

/-- `Word(200) + 100` is `Word(44)`, and `Word(200) < Word(44)` is false. -/
example : opVO .add (⟨.word 8, 200⟩ : Inst exH) (.int 100) = .ok ⟨.word 8, 44⟩ ∧
    cmpVV .lt (⟨.word 8, 200⟩ : Inst exH) ⟨.word 8, 44⟩ = .ok false := ⟨rfl, rfl⟩

example := (C131_methods (⟨.word 8, 200⟩ : Inst exH) (.int 100)).2 .bvadd rfl
example := C131_structure_partial exH_ok (x := ⟨.get .foo 8, 200⟩) (u := .foo) rfl
example := C131_sized_subclass_raises (H := exH) (x := ⟨.sub 8, 200⟩) rfl
example := C131_adc_partial exH_ok (x := ⟨.get .foo 8, 200⟩) (u := .foo) rfl
  (o := .bv ⟨.get .bv 8, 100⟩) (c := .bit true) ⟨.bv, rfl⟩ trivial
example := C131_adc_raises (H := exH) (x := ⟨.get .bv 8, 200⟩) (o := .bv ⟨.word 8, 100⟩) (c := .bit true)
  (.inr ⟨_, rfl, rfl⟩)
example := (C131_operators exH_ok (x := ⟨.word 8, 200⟩) (y := ⟨.get .sint 8, 1⟩)
  (show 0 ≤ (200 : Int) ∧ (200 : Int) < 2 ^ 8 by decide) (show 0 ≤ (1 : Int) ∧ (1 : Int) < 2 ^ 8 by decide)
  (show 0 < 8 by decide)).1 rfl
example := C131_operators_int_partial (H := exH) (x := ⟨.get .sint 8, 200⟩)
  (show 0 ≤ (200 : Int) ∧ (200 : Int) < 2 ^ 8 by decide) (show 0 < 8 by decide) (o := .int 3) trivial (b := 3) rfl
example := C131_rrshift (H := exH) (x := ⟨.get .bv 8, 200⟩)
  (show 0 ≤ (200 : Int) ∧ (200 : Int) < 2 ^ 8 by decide) (show 0 < 8 by decide) rfl (o := .int 3) trivial (b := 3) rfl

example := (C131_ite (H := exH) (t := ⟨.word 8, 1⟩) (f := ⟨.sub 8, 2⟩)
  (show 0 ≤ (1 : Int) ∧ (1 : Int) < 2 ^ 8 by decide) (show 0 ≤ (2 : Int) ∧ (2 : Int) < 2 ^ 8 by decide) true []).2.1
  (by decide) rfl (.word 8) (.inr ⟨rfl, rfl, rfl⟩)
example := (C131_ite (H := exH) (t := ⟨.word 8, 1⟩) (f := ⟨.get .bv 8, 2⟩)
  (show 0 ≤ (1 : Int) ∧ (1 : Int) < 2 ^ 8 by decide) (show 0 ≤ (2 : Int) ∧ (2 : Int) < 2 ^ 8 by decide) true []).2.1
  (by decide) rfl (.get .bv 8) (.inl ⟨rfl, rfl⟩)

/-- **C131 refuted** (witness): with `class Word(BitVector[8])`, the slice `Word(200)[0:4]` raises
`AttributeError` though the plain vector has one. -/
theorem C131_refuted :
    ¬ ∀ (H : Hier), H.Ok → ∀ (x : Inst H) (m : SMeth H), x.WF →
      (∃ z, runS x m = .ok z) ∨ ∃ e, plainS x.plain m = .error e := by
  intro h
  rcases h exH exH_ok ⟨.word 8, 200⟩ (.slice ⟨some 0, some 4, none⟩)
    (show 0 ≤ (200 : Int) ∧ (200 : Int) < 2 ^ 8 by decide) with ⟨z, hz⟩ | ⟨e, he⟩
  · cases hz
  · revert he
    rw [show plainS (Inst.plain (⟨.word 8, 200⟩ : Inst exH)) (.slice ⟨some 0, some 4, none⟩) =
      BVal.getSlice ⟨.root .bv, 8, 200⟩ ⟨some 0, some 4, none⟩ from rfl,
      show BVal.getSlice ⟨.root .bv, 8, 200⟩ ⟨some 0, some 4, none⟩ = .ok ⟨.root .bv, 4, 8⟩ by decide]
    nofun

/-- **C131 refuted** (witness): a subclass does not stand for its base in mixed expressions.
`BitVector[8](0x80) >> SIntVector[8](1)` is the arithmetic shift `0xC0`; with
`class Word(BitVector[8])`, `Word(0x80) >> SIntVector[8](1)` is the logical shift `0x40`. -/
theorem C131_mixed_refuted :
    ¬ ∀ (H : Hier), H.Ok → ∀ (op : AOp) (x x' y : Inst H), x.WF → y.WF → H.isSub x.cls x'.cls = true →
      x.value = x'.value → (opVV op x y).map (·.value) = (opVV op x' y).map (·.value) := by
  intro h
  have := h exH exH_ok .shr ⟨.word 8, 128⟩ ⟨.get .bv 8, 128⟩ ⟨.get .sint 8, 1⟩
    (show 0 ≤ (128 : Int) ∧ (128 : Int) < 2 ^ 8 by decide) (show 0 ≤ (1 : Int) ∧ (1 : Int) < 2 ^ 8 by decide) rfl rfl
  rw [show opVV .shr (⟨.word 8, 128⟩ : Inst exH) ⟨.get .sint 8, 1⟩ = .ok ⟨.word 8, 64⟩ from rfl,
    show opVV .shr (⟨.get .bv 8, 128⟩ : Inst exH) ⟨.get .sint 8, 1⟩ = .ok ⟨.get .bv 8, 192⟩ from rfl] at this
  simp [Except.map] at this

/-- **C131 refuted** (witness): with `class Word(BitVector[8])` and `class Sub(Word)`,
`Bit(1).ite(Word(1), Sub(2))` raises `TypeError`. -/
theorem C131_ite_refuted :
    ¬ ∀ (H : Hier), H.Ok → ∀ (t f : Inst H) (rest : List H.C), t.WF → f.WF → H.size t.cls = H.size f.cls →
      H.isSub f.cls t.cls = true → ∃ r, iteH true t f rest = .ok r := by
  intro h
  obtain ⟨r, hr⟩ := h exH exH_ok ⟨.word 8, 1⟩ ⟨.sub 8, 2⟩ []
    (show 0 ≤ (1 : Int) ∧ (1 : Int) < 2 ^ 8 by decide) (show 0 ≤ (2 : Int) ∧ (2 : Int) < 2 ^ 8 by decide) rfl rfl
  cases hr

end HW.Der
