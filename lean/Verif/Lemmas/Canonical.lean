import Verif.Lemmas.Ops
import Verif.Model.Program

/-! # Postconditions: every operation returns canonical vectors -/

namespace HW
open Spec

/-- `P` holds of the result, if there is one. -/
def Post {α : Type} (P : α → Prop) (m : PyM α) : Prop := ∀ a, m = .ok a → P a

theorem post_error {α : Type} {P : α → Prop} {e : PyErr} : Post P (.error e : PyM α) := by
  intro a h; simp at h

theorem post_ok {α : Type} {P : α → Prop} {a : α} (h : P a) : Post P (.ok a : PyM α) := by
  intro b hb; cases hb; exact h

theorem post_bind {α β : Type} {Q : α → Prop} {P : β → Prop} {m : PyM α} {f : α → PyM β}
    (h : Post Q m) (hf : ∀ a, Q a → Post P (f a)) : Post P (m >>= f) := by
  intro b hb
  cases hm : m with
  | error e => rw [hm] at hb; simp [bind, Except.bind] at hb
  | ok a => rw [hm] at hb; exact hf a (h a hm) b hb

theorem post_true {α : Type} {m : PyM α} : Post (fun _ => True) m := fun _ _ => trivial

theorem post_bind' {α β : Type} {P : β → Prop} {m : PyM α} {f : α → PyM β}
    (hf : ∀ a, Post P (f a)) : Post P (m >>= f) := post_bind post_true fun a _ => hf a

theorem post_ite {α : Type} {P : α → Prop} {c : Prop} [Decidable c] {m n : PyM α} (hm : Post P m)
    (hn : Post P n) : Post P (if c then m else n) := by split <;> assumption

theorem post_mk (k : Kind) (n : Nat) (o : Obj) : Post BVal.WF (mkBV k n o) :=
  fun _ h => (mkBV_WF h).1

theorem post_mk' (x : BVal) (v : Int) : Post BVal.WF (x.mk' v) := post_mk _ _ _

theorem post_cast {x : BVal} {o : Obj} {fn : BVal → PyM BVal} (h : ∀ y, Post BVal.WF (fn y)) :
    Post BVal.WF (x.cast o fn) := post_bind' h

theorem post_concat (x y : BVal) : Post BVal.WF (x.concat y) := by
  unfold BVal.concat
  exact post_ite post_error (post_bind' fun _ => post_mk _ _ _)

theorem post_slice (x : BVal) (s : PySlice) : Post BVal.WF (x.getSlice s) :=
  post_bind' fun _ => post_mk _ _ _

theorem post_repeat (x : BVal) (r : Int) : Post BVal.WF (x.repeat_ r) := by
  unfold BVal.repeat_
  exact post_ite post_error (post_mk _ _ _)

theorem post_zext (x : BVal) (k : Int) : Post BVal.WF (x.zext k) := by
  unfold BVal.zext
  exact post_ite post_error (post_bind' fun _ => post_concat _ _)

theorem post_sext (x : BVal) (k : Int) : Post BVal.WF (x.sext k) := by
  unfold BVal.sext
  exact post_ite post_error (post_bind' fun _ => post_bind' fun _ => post_bind' fun _ => post_concat _ _)

theorem post_umeth (m : UMeth) (x : BVal) : Post BVal.WF (m.run x) := by
  cases m <;> exact post_mk' _ _

theorem post_bmeth (m : BMeth) {x : BVal} (hx : x.WF) (o : Obj) : Post BVal.WF (m.run x o) := by
  cases m
  case bvudiv => exact post_cast fun y => post_ite (post_mk' _ _) (post_bind' fun _ => post_mk' _ _)
  case bvurem => exact post_cast fun y => post_ite (post_ok hx) (post_bind' fun _ => post_mk' _ _)
  case bvsdiv =>
    exact post_cast fun y => post_bind' fun _ => post_ite (post_mk' _ _)
      (post_bind' fun _ => post_bind' fun _ => post_mk' _ _)
  case bvsrem =>
    exact post_cast fun y => post_bind' fun _ => post_ite (post_ok hx)
      (post_bind' fun _ => post_bind' fun _ => post_mk' _ _)
  case bvrol =>
    exact post_cast fun y => post_bind' fun _ => post_bind' fun _ => post_bind' fun _ => post_concat _ _
  case bvror =>
    exact post_cast fun y => post_bind' fun _ => post_bind' fun _ => post_bind' fun _ => post_concat _ _
  case bvnand => exact post_bind' fun _ => post_mk' _ _
  case bvnor => exact post_bind' fun _ => post_mk' _ _
  case bvxnor => exact post_bind' fun _ => post_mk' _ _
  case bvashr => exact post_cast fun y => post_bind' fun _ => post_bind' fun _ => post_mk' _ _
  case bvcomp => exact post_cast fun y => post_mk _ _ _
  all_goals first
    | exact post_cast fun y => post_mk' _ _
    | exact post_cast fun y => post_bind' fun _ => post_mk' _ _

theorem post_uMethod (op : AOp) {x : BVal} (hx : x.WF) (o : Obj) : Post BVal.WF (op.uMethod x o) := by
  cases op
  case and => exact post_bmeth .bvand hx o
  case or => exact post_bmeth .bvor hx o
  case xor => exact post_bmeth .bvxor hx o
  case shl => exact post_bmeth .bvshl hx o
  case shr => exact post_bmeth .bvlshr hx o
  case add => exact post_bmeth .bvadd hx o
  case sub => exact post_bmeth .bvsub hx o
  case mul => exact post_bmeth .bvmul hx o
  case fdiv => exact post_bmeth .bvudiv hx o
  case mod => exact post_bmeth .bvurem hx o

theorem post_sMethod (op : AOp) {x : BVal} (hx : x.WF) (o : Obj) : Post BVal.WF (op.sMethod x o) := by
  cases op
  case shr => exact post_bmeth .bvashr hx o
  case fdiv => exact post_bmeth .bvsdiv hx o
  case mod => exact post_bmeth .bvsrem hx o
  case and => exact post_uMethod .and hx o
  case or => exact post_uMethod .or hx o
  case xor => exact post_uMethod .xor hx o
  case shl => exact post_uMethod .shl hx o
  case add => exact post_uMethod .add hx o
  case sub => exact post_uMethod .sub hx o
  case mul => exact post_uMethod .mul hx o

theorem post_adc (x : BVal) (o c : Obj) : Post (fun p => p.1.WF) (x.adc o c) := by
  unfold BVal.adc
  refine post_bind' fun _ => post_bind' fun _ => post_bind' fun _ => post_bind' fun _ =>
    post_bind' fun _ => post_bind' fun _ => post_bind' fun _ => ?_
  exact post_bind (post_slice _ _) fun r hr => post_bind' fun _ => post_ok hr

theorem post_setitem (x : BVal) (i : BVal.Index) (v : Obj) : Post BVal.WF (x.setitem i v) := by
  cases i with
  | slice s => exact post_error
  | other => simp only [BVal.setitem]; exact post_ite post_error post_error
  | int i =>
    simp only [BVal.setitem]
    refine post_ite post_error (post_ite post_error ?_)
    refine post_bind' fun _ => post_bind' fun _ => post_bind' fun _ => post_bind' fun _ =>
      post_bind' fun _ => post_bind' fun _ => ?_
    refine post_bind (Q := fun r => r.WF ∧ r.size = x.size) (fun r h => ?_) fun r hr => post_ok ?_
    · have := mkBV_WF h; exact ⟨this.1, this.2.2⟩
    · have h := hr.1
      unfold BVal.WF at h ⊢
      rw [hr.2] at h
      exact h

/-- Same with the class counter. -/
def PostF {α : Type} (P : α → Prop) (m : PyF α) : Prop := ∀ i, Post (fun p => P p.1) (m i)

theorem postF_bind {α β : Type} {Q : α → Prop} {P : β → Prop} {m : PyF α} {f : α → PyF β}
    (h : PostF Q m) (hf : ∀ a, Q a → PostF P (f a)) : PostF P (m >>= f) :=
  fun i => post_bind (h i) fun p hp => hf p.1 hp p.2

theorem postF_lift {α : Type} {P : α → Prop} {m : PyM α} (h : Post P m) : PostF P (pyLift m) := by
  intro i p hp
  cases hm : m with
  | error e => rw [hm] at hp; simp [pyLift, Except.map] at hp
  | ok a =>
    rw [hm] at hp
    simp only [pyLift, Except.map, Except.ok.injEq] at hp
    subst hp; exact h a hm

theorem postF_pure {α : Type} {P : α → Prop} {a : α} (h : P a) : PostF P (pure a) :=
  fun _ => post_ok h

theorem postF_ite (sel : Bool) {t f : Branch} (ht : t.WF) (hf : f.WF) : PostF Branch.WF (ite sel t f) := by
  intro i p hp
  exact (C27_selects sel ht hf i hp).2.2

theorem postF_iteBV (sel : Bool) {x y : BVal} (hx : x.WF) (hy : y.WF) : PostF BVal.WF (iteBV sel x y) := by
  refine postF_bind (postF_ite sel (t := .bv x) (f := .bv y) hx hy) fun b hb => ?_
  cases b with
  | bv r => exact postF_pure hb
  | _ => exact postF_lift post_error

def OptWF (o : Option BVal) : Prop := ∀ x, o = some x → x.WF

theorem post_tryOper {m : PyM BVal} (h : Post BVal.WF m) : Post OptWF (tryOper m) := by
  intro r hr
  cases m with
  | ok a =>
    simp only [tryOper, Except.ok.injEq] at hr
    subst hr; intro x hx; cases hx; exact h a rfl
  | error e =>
    cases e <;> simp only [tryOper, Except.ok.injEq] at hr <;> first
      | (subst hr; intro x hx; cases hx)
      | cases hr

theorem postF_fwd (op : AOp) (im : Impl) {x : BVal} (hx : x.WF) (o : Obj) : PostF OptWF (op.fwd im x o) := by
  induction im with
  | uns => exact postF_lift (post_tryOper (post_uMethod op hx o))
  | sgn => exact postF_lift (post_tryOper (post_sMethod op hx o))
  | vcall id sel p q ihp ihq =>
    simp only [AOp.fwd]
    refine postF_bind ihp fun a ha => postF_bind ihq fun b hb => ?_
    cases a with
    | none => exact postF_pure (fun x hx => by cases hx)
    | some a =>
      cases b with
      | none => exact postF_lift post_error
      | some b =>
        refine postF_bind (postF_iteBV sel (ha a rfl) (hb b rfl)) fun r hr => postF_pure ?_
        intro x hx; cases hx; exact hr

theorem post_coerce (k : Kind) (n : Nat) {o : Obj} (ho : o.WF) : Post BVal.WF (coerce k n o) := by
  cases o with
  | bv y => exact post_ite post_error (post_ok ho)
  | _ => simp only [coerce]; exact post_mk _ _ _

theorem postF_rev (op : AOp) (im : Impl) {x : BVal} (hx : x.WF) {o : Obj} (ho : o.WF) :
    PostF OptWF (op.rev im x o) := by
  have key (im' : Impl) : PostF OptWF (match coerce x.kind x.size o with
      | .ok y => op.fwd im' y (.bv x)
      | .error _ => pyLift (.error .nameError)) := by
    cases h : coerce x.kind x.size o with
    | ok y => exact postF_fwd op im' (post_coerce _ _ ho y h) _
    | error e => exact postF_lift post_error
  induction im with
  | uns =>
    simp only [AOp.rev]
    split
    · exact postF_fwd op .uns hx o
    · exact key .uns
  | sgn => exact key .sgn
  | vcall id sel p q ihp ihq =>
    simp only [AOp.rev]
    refine postF_bind ihp fun a ha => postF_bind ihq fun b hb => ?_
    cases a with
    | none => exact postF_pure (fun x hx => by cases hx)
    | some a =>
      cases b with
      | none => exact postF_lift post_error
      | some b =>
        refine postF_bind (postF_iteBV sel (ha a rfl) (hb b rfl)) fun r hr => postF_pure ?_
        intro x hx; cases hx; exact hr

def OptObjWF (o : Option Obj) : Prop := ∀ x, o = some x → x.WF

theorem postF_fwdA (op : AOp) {l : Obj} (r : Obj) (hl : l.WF) : PostF OptObjWF (fwdA op l r) := by
  cases l with
  | bv x =>
    refine postF_bind (postF_fwd op _ hl r) fun a ha => postF_pure ?_
    intro y hy
    cases a with
    | none => cases hy
    | some a => cases hy; exact ha a rfl
  | bit b =>
    refine postF_lift (post_bind' fun a => post_ok ?_)
    intro y hy
    cases a <;> cases hy
    trivial
  | _ => exact postF_pure (fun y hy => by cases hy)

theorem postF_revA (op : AOp) {l r : Obj} (hl : l.WF) (hr : r.WF) : PostF OptObjWF (revA op l r) := by
  cases r with
  | bv x =>
    refine postF_bind (postF_rev op _ hr hl) fun a ha => postF_pure ?_
    intro y hy
    cases a with
    | none => cases hy
    | some a => cases hy; exact ha a rfl
  | bit b =>
    refine postF_lift (post_bind' fun a => post_ok ?_)
    intro y hy
    cases a <;> cases hy
    trivial
  | _ => exact postF_pure (fun y hy => by cases hy)

theorem postF_pick {m : PyF (Option Obj)} {k : PyF Obj} (hm : PostF OptObjWF m) (hk : PostF Obj.WF k) :
    PostF Obj.WF (do
      match ← m with
      | some v => return v
      | none => k) := by
  refine postF_bind hm fun a ha => ?_
  cases a with
  | none => exact hk
  | some a => exact postF_pure (ha a rfl)

theorem postF_binA (op : AOp) {l r : Obj} (hl : l.WF) (hr : r.WF) : PostF Obj.WF (binA op l r) := by
  have hF := postF_fwdA op r hl
  have hR := postF_revA op hl hr
  have hE : PostF Obj.WF (pyLift (.error .typeError) : PyF Obj) := postF_lift post_error
  have gen := postF_pick hF (postF_pick hR hE)
  cases l with
  | bv x =>
    cases r with
    | bv y =>
      simp only [binA]
      split
      · exact postF_pick hR (postF_pick hF hE)
      · refine postF_pick hF ?_
        split
        · exact hE
        · exact postF_pick hR hE
    | _ => exact gen
  | bit b =>
    cases r with
    | bit c => exact postF_pick hF hE
    | _ => exact gen
  | _ => exact gen

theorem postF_ext (im : Impl) (x : BVal) (k : Int) : PostF BVal.WF (extImpl im x k) := by
  induction im with
  | uns => exact postF_lift (post_zext x k)
  | sgn => exact postF_lift (post_sext x k)
  | vcall id sel p q ihp ihq =>
    exact postF_bind ihp fun a ha => postF_bind ihq fun b hb => postF_iteBV sel ha hb

end HW
